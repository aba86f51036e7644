import Mathlib.Analysis.SpecialFunctions.Log.ENNRealLogExp
import Mathlib.MeasureTheory.Measure.Lebesgue.Basic
import Mathlib.MeasureTheory.Constructions.Pi
import Mathlib.Probability.Distributions.Gaussian.Real

/-!
# The MCMC kernels of `oryx.experimental.mcmc`

Model of `/repo/oryx/experimental/mcmc/kernels.py` and `utils.py`.

Conventions (simplifications):

* A probabilistic program `step(key, state)` is a function `Ω → S → S`, where `Ω` is the space of
  the randomness a key stands for and a probability measure on `Ω` is the distribution of that
  randomness. `random.split` is modelled by a product: the two halves are independent. The
  pseudo-random generator itself is not modelled.
* Floating-point numbers are real numbers; a log-density is an extended real, with `⊥` for
  `-inf`. `EReal` has `⊥ - ⊥ = ⊥`, where floats have `nan`: both make the test
  `log u < …` false.
* A pytree of arrays is one element of `S`; `np.where(accept, n, s)` uses the same scalar `accept`
  for every leaf, so it chooses the whole new or the whole old state.
* `MCMC_METRICS`, `dtype` conversions and tracing are not modelled; `tie_in` returns its second
  argument (see `Verif.Util`).
-/

namespace Verif.Mcmc

open MeasureTheory ProbabilityTheory
open scoped ENNReal

variable {Ω S : Type*}

/-- `np.log(u)` of a number `u ∈ [0, 1)`, with `np.log(0.) = -inf`
(`kernels.py:91`, `kernels.py:132`). -/
noncomputable def npLog (u : ℝ) : EReal := ENNReal.log (ENNReal.ofReal u)

/-- The accept/reject end of both kernels, `kernels.py:89-93` and `kernels.py:130-134`:
`accept = np.log(u) < log_unclipped_accept_prob; np.where(accept, next_state, state)`.
The clipped `accept_prob` is only used as the dependency of `tie_in`. -/
noncomputable def acceptReject (logUnclipped : EReal) (u : ℝ) (next state : S) : S :=
  if npLog u < logUnclipped then next else state

/-- `metropolis(unnormalized_log_prob, inner_step)`, `kernels.py:63-94`. The key is split into the
randomness of the proposal and the uniform number `u`. Simplification: `inner_step` carries no
`state` variables, so `st.init(inner_step)(…)(transition_key, state)` is
`inner_step(transition_key, state)`. -/
noncomputable def metropolis (logProb : S → EReal) (inner : Ω → S → S) (key : Ω × ℝ) (state : S) :
    S :=
  let next := inner key.1 state
  let stateLogProb := logProb state
  let nextLogProb := logProb next
  acceptReject (nextLogProb - stateLogProb) key.2 next state

/-- `metropolis_hastings(unnormalized_log_prob, inner_step)`, `kernels.py:97-135`.
`innerLogProb sample given` is `ppl.log_prob(inner_step)(sample, given)`: the first argument of the
function returned by `log_prob` is the sample (`core/interpreters/log_prob.py:56-59`). The two calls
of lines 121-122 are written with their arguments in the order the code has them. -/
noncomputable def metropolisHastings (logProb : S → EReal) (inner : Ω → S → S)
    (innerLogProb : S → S → EReal) (key : Ω × ℝ) (state : S) : S :=
  let next := inner key.1 state
  let forward := innerLogProb state next
  let backward := innerLogProb next state
  let stateLogProb := logProb state
  let nextLogProb := logProb next
  acceptReject (nextLogProb + backward - stateLogProb - forward) key.2 next state

/-- `random_walk(scale)`, `kernels.py:43-60`: an independent Gaussian step
`Normal(state, scale)` for every coordinate. The randomness is a vector of standard normal
numbers; `ι` enumerates the coordinates of all leaves of the state. -/
def randomWalk {ι : Type*} (scale : ℝ) (noise : ι → ℝ) (state : ι → ℝ) : ι → ℝ :=
  fun i => state i + scale * noise i

/-- One leapfrog step, the body of the scan at `kernels.py:147-156`. `grad` is
`jax.grad(unnormalized_log_prob)`. -/
def leapfrog {V : Type*} [AddCommGroup V] [Module ℝ V] (grad : V → V) (stepSize : ℝ)
    (carry : V × V) : V × V :=
  let momentum := carry.2 + (0.5 * stepSize) • grad carry.1
  let state := carry.1 + stepSize • momentum
  let momentum := momentum + (0.5 * stepSize) • grad state
  (state, momentum)

/-- `inner` of `hmc`, `kernels.py:143-159`: a scan of `num_leapfrog_steps` leapfrog steps. -/
def leapfrogs {V : Type*} [AddCommGroup V] [Module ℝ V] (grad : V → V) (stepSize : ℝ) :
    Nat → V × V → V × V
  | 0, carry => carry
  | n + 1, carry => leapfrogs grad stepSize n (leapfrog grad stepSize carry)

/-- `ppl.log_prob(momentum_distribution)(momentum)`, `kernels.py:165-180`: the sum of the standard
normal log densities of all coordinates. -/
noncomputable def momentumLogProb {ι : Type*} [Fintype ι] (momentum : ι → ℝ) : ℝ :=
  ∑ i, Real.log (gaussianPDFReal 0 1 (momentum i))

/-- `hmc(unnormalized_log_prob, num_leapfrog_steps, step_size)`, `kernels.py:138-187`. The key is
split into the momentum draw (standard normal coordinates) and the uniform number of the inner
`metropolis`, whose proposal `inner` is deterministic and ignores its key. -/
noncomputable def hmc {ι : Type*} [Fintype ι] (logProb : (ι → ℝ) → EReal)
    (grad : (ι → ℝ) → (ι → ℝ)) (numSteps : Nat) (stepSize : ℝ) (key : (ι → ℝ) × ℝ)
    (state : ι → ℝ) : ι → ℝ :=
  let momentum := key.1
  let innerLogProb := fun (sm : (ι → ℝ) × (ι → ℝ)) => logProb sm.1 + (momentumLogProb sm.2 : EReal)
  let inner := fun (_ : Unit) sm => leapfrogs grad stepSize numSteps sm
  (metropolis innerLogProb inner ((), key.2) (state, momentum)).1

/-- `mala(unnormalized_log_prob, step_size)`, `kernels.py:190-193`. -/
noncomputable def mala {ι : Type*} [Fintype ι] (logProb : (ι → ℝ) → EReal)
    (grad : (ι → ℝ) → (ι → ℝ)) (stepSize : ℝ) (key : (ι → ℝ) × ℝ) (state : ι → ℝ) : ι → ℝ :=
  hmc logProb grad 1 stepSize key state

/-- `primitive.tie_all(kernel, state, cb(kernel, state))` keeping the first two results,
`kernels.py:207-208`; `tie_all` returns its arguments unchanged
(`core/primitive.py`, `tie_all`, modelled in `Verif.Util`). -/
def runCallbacks {M C : Type*} (callbacks : List (M → S → C)) (carry : M × S) : M × S :=
  callbacks.foldl (fun c cb => let r := (c.1, c.2, cb c.1 c.2); (r.1, r.2.1)) carry

/-- The scan of `sample_chain`, `kernels.py:204-212`: `kernel` is the module created by
`st.init`, `callAndUpdate` its `call_and_update`; the keys are `random.split(key, num_steps)`.
Returns the final kernel (the value of `st.assign`, line 213) and the list of states. -/
def sampleChain {Key M C : Type*} (callAndUpdate : M → Key → S → S × M)
    (callbacks : List (M → S → C)) : M × S → List Key → (M × S) × List S
  | carry, [] => (carry, [])
  | carry, key :: keys =>
    let r := callAndUpdate carry.1 key carry.2
    let carry' := runCallbacks callbacks (r.2, r.1)
    let rest := sampleChain callAndUpdate callbacks carry' keys
    (rest.1, carry'.2 :: rest.2)

/-- `constrain(mapping_fn)(target_log_prob)`, `utils.py:31-44`. `ildj x y` is the sum of the leaves
of `inverse.ildj(mapping_fn, *args)(mapped_args)` for `args = x`, `mapped_args = y`. -/
noncomputable def constrain {T : Type*} (mapping : S → T) (ildj : S → T → EReal)
    (targetLogProb : T → EReal) (args : S) : EReal :=
  let mapped := mapping args
  targetLogProb mapped - ildj args mapped

end Verif.Mcmc
