import Verif.Mcmc.Kernels
import Verif.Plate.Model

/-!
# The MCMC kernels with explicit PRNG keys

Model of `/repo/oryx/experimental/mcmc/kernels.py:43-216` in which every `random.split` is written out: which key
each draw is made with. `Verif.Mcmc.Kernels` models the same functions with the randomness given as independent
numbers; here the numbers come from keys, so that using a key twice would show.

Conventions (simplifications):

* Keys are those of `Verif.Plate.Model`: the path of the `random.split` operations that made them. The randomness
  of a key is `ω key`; what a sampler returns is a function of `ω key`.
* A state is a pytree of `l` arrays, leaf `i` with `dims i` elements: a real number for every pair of a leaf and a
  position. Real numbers stand for floats, extended reals for log densities, as in `Verif.Mcmc.Kernels`.
* A program is `ω key state`. It has no `state` variables, so `st.init(inner)(…)(key, state)` is `inner(key, state)`
  (`st.init` runs the program once more with the same key to find the variables; nothing of that run is kept).
-/

namespace Verif.Mcmc.Keyed

open Verif.Plate (Key)

/-- A pytree of `l` real arrays, of `dims i` elements each (the `state` of kernels.py:47, 163). -/
abbrev Tree {l : ℕ} (dims : Fin l → ℕ) : Type := (Σ i : Fin l, Fin (dims i)) → ℝ

/-- The samplers the kernels use: `Normal(0, 1)` samples of an array of `n` elements (kernels.py:52-57, 170-172) and
`random.uniform` (kernels.py:90, 131), as functions of the randomness of the key they are given. -/
structure Samplers (Ω : Type) where
  normal : (n : ℕ) → Ω → Fin n → ℝ
  uniform : Ω → ℝ

/-- A probabilistic program `program(key, state)` (`ppl.Program`, kernels.py:39). -/
abbrev Program (Ω S : Type) : Type := (Key → Ω) → Key → S → S

variable {Ω S : Type}

/-- `random_walk(scale)`, kernels.py:43-60: `random.split(key, len(flat_state))` gives every leaf its own key;
`Normal(state, scale)` is sampled as `state + scale * noise`. -/
def randomWalk {l : ℕ} {dims : Fin l → ℕ} (smp : Samplers Ω) (scale : ℝ) : Program Ω (Tree dims) :=
  fun ω key state c => state c + scale * smp.normal (dims c.1) (ω (.split l c.1 :: key)) c.2

/-- `metropolis(unnormalized_log_prob, inner_step)`, kernels.py:80-93:
`transition_key, accept_key = random.split(key)`. -/
noncomputable def metropolis (smp : Samplers Ω) (logProb : S → EReal) (inner : Program Ω S) : Program Ω S :=
  fun ω key state =>
    let transitionKey := .split 2 0 :: key
    let acceptKey := .split 2 1 :: key
    let next := inner ω transitionKey state
    acceptReject (logProb next - logProb state) (smp.uniform (ω acceptKey)) next state

/-- `metropolis_hastings(unnormalized_log_prob, inner_step)`, kernels.py:118-134; `innerLogProb sample given` is
`ppl.log_prob(inner_step)(sample, given)`, called in the order of lines 121-122. -/
noncomputable def metropolisHastings (smp : Samplers Ω) (logProb : S → EReal) (inner : Program Ω S)
    (innerLogProb : S → S → EReal) : Program Ω S :=
  fun ω key state =>
    let transitionKey := .split 2 0 :: key
    let acceptKey := .split 2 1 :: key
    let next := inner ω transitionKey state
    let forward := innerLogProb state next
    let backward := innerLogProb next state
    acceptReject (logProb next + backward - logProb state - forward) (smp.uniform (ω acceptKey)) next state

/-- `momentum_distribution(key)` of `hmc`, kernels.py:165-174: every leaf its own key of
`random.split(key, len(flat_state))`. -/
def momentum {l : ℕ} {dims : Fin l → ℕ} (smp : Samplers Ω) (ω : Key → Ω) (key : Key) : Tree dims :=
  fun c => smp.normal (dims c.1) (ω (.split l c.1 :: key)) c.2

/-- `hmc(unnormalized_log_prob, num_leapfrog_steps, step_size)`, kernels.py:161-185:
`mh_key, momentum_key = random.split(key)`; the inner `metropolis` gets `mh_key`, and its deterministic proposal
ignores the key it is given. -/
noncomputable def hmc {l : ℕ} {dims : Fin l → ℕ} (smp : Samplers Ω) (logProb : Tree dims → EReal)
    (grad : Tree dims → Tree dims) (numSteps : ℕ) (stepSize : ℝ) : Program Ω (Tree dims) :=
  fun ω key state =>
    let mhKey := .split 2 0 :: key
    let momentumKey := .split 2 1 :: key
    let innerLogProb := fun (sm : Tree dims × Tree dims) => logProb sm.1 + (momentumLogProb sm.2 : EReal)
    let inner : Program Ω (Tree dims × Tree dims) := fun _ _ sm => leapfrogs grad stepSize numSteps sm
    (metropolis smp innerLogProb inner ω mhKey (state, momentum smp ω momentumKey)).1

/-- `mala(unnormalized_log_prob, step_size)`, kernels.py:190-193. -/
noncomputable def mala {l : ℕ} {dims : Fin l → ℕ} (smp : Samplers Ω) (logProb : Tree dims → EReal)
    (grad : Tree dims → Tree dims) (stepSize : ℝ) : Program Ω (Tree dims) :=
  hmc smp logProb grad 1 stepSize

/-- `sample_chain(kernel_fn, num_steps, callbacks)`, kernels.py:196-216, for a kernel without `state` variables: the
scan of `Verif.Mcmc.sampleChain` over `random.split(key, num_steps)`; the states after each step. -/
def sampleChain {C : Type} (kernel : Program Ω S) (numSteps : ℕ) (callbacks : List (Unit → S → C)) (ω : Key → Ω)
    (key : Key) (state : S) : List S :=
  (Verif.Mcmc.sampleChain (fun _ k s => (kernel ω k s, ())) callbacks ((), state)
    (List.ofFn (Verif.Plate.splitKeys numSteps key))).2

end Verif.Mcmc.Keyed
