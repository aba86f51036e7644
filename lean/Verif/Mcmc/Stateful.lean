import Verif.Mcmc.Chain

/-!
# `sample_chain` as a stateful function

Model of `kernels.py:196-215` under `state.init` (`core/state/function.py:189-194`, `226-296`): the module of
`sample_chain(kernel_fn, num_steps)` and its `call_and_update`.

Simplifications: the variables of a kernel are a list of named values; the kernel itself does not raise; the
scan over `random.split(key, num_steps)` is a list of keys given by a parameter `split`; callbacks have no
effect (`runCallbacks_eq`).
-/

namespace Verif.Mcmc

/-- A kernel program `kernel_fn(key, state[, init_key])` after `state.init`: its initial variables
(`core/state/function.py:269-271`), and `call_and_update` (`core/state/function.py:189-194`). -/
structure Kernel (IKey Key S V : Type*) where
  init : IKey → Key → S → List (String × V)
  call : List (String × V) → Key → S → S × List (String × V)

/-- The only error considered (`core/state/function.py:192-193`). -/
inductive ChainErr where
  | undeclared (name : String)
  deriving DecidableEq

section

variable {IKey Key S V : Type*}

/-- The variables of `state.init(sample_chain(kernel_fn, num_steps))`: the module `kernel` is tagged as a
variable only if it has variables (`core/state/function.py:290-293`, `kernels.py:202`). -/
def chainVars (K : Kernel IKey Key S V) (ik : IKey) (key : Key) (s : S) :
    List (String × List (String × V)) :=
  if (K.init ik key s).isEmpty then [] else [("kernel", K.init ik key s)]

/-- `call_and_update` of the module of `sample_chain`, `kernels.py:201-213`: `state.init` runs again with a
constant key (`core/state/function.py:274-277`), the planted variables replace the module's, the scan runs, and
`st.assign(kernel, name='kernel')` records the final kernel, even when it has no variables
(`harvest.py:298-308`, `391-397`). Assigning an undeclared name raises (`core/state/function.py:191-193`). -/
def chainCall (K : Kernel IKey Key S V) (ik0 : IKey) (split : Key → List Key)
    (vars : List (String × List (String × V))) (key : Key) (s : S) :
    Except ChainErr (List S × List (String × List (String × V))) :=
  let fresh := K.init ik0 key s
  let kernel := if fresh.isEmpty then fresh else (vars.lookup "kernel").getD fresh
  let r := sampleChain (C := Unit) K.call [] (kernel, s) (split key)
  if (vars.lookup "kernel").isSome then .ok (r.2, [("kernel", r.1.1)])
  else .error (.undeclared "kernel")

/-- **C51**, where it fails: a kernel without variables (every kernel of this module: `metropolis`,
`metropolis_hastings`, `hmc` and `mala` of stateless programs) makes the module of `sample_chain` raise at every
call. -/
theorem sample_chain_module_stateless_raises (K : Kernel IKey Key S V) (hK : ∀ ik k s, K.init ik k s = [])
    (ik ik0 : IKey) (split : Key → List Key) (k k' : Key) (s s' : S) :
    chainCall K ik0 split (chainVars K ik k s) k' s' = .error (.undeclared "kernel") := by
  simp [chainCall, chainVars, hK, List.lookup]

/-- **C51**, resuming. For a kernel that always declares variables, the second call of the module of
`sample_chain`, made on the last state of the first, continues the chain: the states of the two calls together,
and the kernel variables left behind, are those of one chain over the keys of both calls. -/
theorem sample_chain_module_resumes (K : Kernel IKey Key S V) (hK : ∀ ik k s, K.init ik k s ≠ [])
    (ik ik0 : IKey) (split : Key → List Key) (k0 k1 k2 : Key) (s0 s : S) :
    ∃ states₁ vars₁ states₂ vars₂,
      chainCall K ik0 split (chainVars K ik k0 s0) k1 s = .ok (states₁, vars₁) ∧
      chainCall K ik0 split vars₁ k2 (states₁.getLastD s) = .ok (states₂, vars₂) ∧
      states₁.length = (split k1).length ∧ states₂.length = (split k2).length ∧
      sampleChain (C := Unit) K.call [] (K.init ik k0 s0, s) (split k1 ++ split k2)
        = (((vars₂.lookup "kernel").getD [], (states₁ ++ states₂).getLastD s), states₁ ++ states₂) := by
  have hE : ∀ ik k s, (K.init ik k s).isEmpty = false := fun ik k s => by
    cases h : K.init ik k s with
    | nil => exact absurd h (hK ik k s)
    | cons _ _ => rfl
  have hlen : ∀ (ks : List Key) (c : List (String × V) × S),
      (sampleChain (C := Unit) K.call [] c ks).2.length = ks.length := by
    intro ks
    induction ks with
    | nil => intro c; rfl
    | cons key ks ih => intro c; simp only [sampleChain, List.length_cons, ih]
  have hlast : ∀ (ks : List Key) (c : List (String × V) × S),
      (sampleChain (C := Unit) K.call [] c ks).1.2
        = (sampleChain (C := Unit) K.call [] c ks).2.getLastD c.2 := by
    intro ks
    induction ks with
    | nil => intro c; rfl
    | cons key ks ih => intro c; simp only [sampleChain, ih, List.getLastD_cons]
  let r₁ := sampleChain (C := Unit) K.call [] (K.init ik k0 s0, s) (split k1)
  let r₂ := sampleChain (C := Unit) K.call [] r₁.1 (split k2)
  have hr : r₁.1 = (r₁.1.1, r₁.2.getLastD s) := Prod.ext rfl (hlast _ _)
  refine ⟨r₁.2, [("kernel", r₁.1.1)], r₂.2, [("kernel", r₂.1.1)], ?_, ?_, hlen _ _, hlen _ _, ?_⟩
  · simp [chainCall, chainVars, hE, List.lookup, r₁]
  · simp only [chainCall, hE, List.lookup, beq_self_eq_true, Bool.false_eq_true, if_false,
      Option.getD_some, Option.isSome_some, if_true]
    rw [← hr]
  · have ha := sampleChain_append (C := Unit) K.call [] (split k1) (split k2) (K.init ik k0 s0, s)
    have hl := hlast (split k1 ++ split k2) (K.init ik k0 s0, s)
    rw [ha] at hl
    rw [ha]
    exact Prod.ext (Prod.ext rfl hl) rfl

/-- A kernel with a step counter, to which both hypotheses apply. -/
def countingKernel : Kernel Unit Nat Nat Nat where
  init _ _ _ := [("count", 0)]
  call vars k s := (s + k, vars.map fun kv => (kv.1, kv.2 + 1))

example : chainCall countingKernel () (fun k => List.replicate 2 k) (chainVars countingKernel () 0 0) 3 10
    = .ok ([13, 16], [("kernel", [("count", 2)])]) := by decide +kernel

example : chainCall countingKernel () (fun k => List.replicate 2 k) [("kernel", [("count", 2)])] 1 16
    = .ok ([17, 18], [("kernel", [("count", 4)])]) := by decide +kernel

example : ∀ ik k s, countingKernel.init ik k s ≠ [] := by
  intro _ _ _
  simp [countingKernel]

end

end Verif.Mcmc
