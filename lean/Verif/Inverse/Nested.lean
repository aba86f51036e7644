import Verif.Inverse.Model
import Verif.Propagate.Props

/-!
# `inverse` of programs with calls

Model of the propagation of `InverseAndILDJ` cells through calls (`jax.jit`, `call`, `harvest.nest`, and the
higher-order primitives of `oryx/core/primitive.py`): `/repo/oryx/core/interpreters/propagate.py:297-325, 339-404` and
`/repo/oryx/core/interpreters/inverse/core.py:293-317`.

Simplifications: as in `Verif.Inverse.Model`; constants of the callee are literals; the `NotImplementedError` of a
primitive in a callee is not an outcome, as for programs without calls.
-/
namespace Verif.Inverse.Nested

open Verif.Propagate

/-- An equation: a primitive of `ildj_registry`, or a call of another jaxpr (its invars, outvars and equations) with
the operands and results of the call (propagate.py:297-324).  The number tells apart the calls of a program. -/
inductive CEqn where
  | prim (op : Op) (ins outs : List (Atom F))
  | call (id : Nat) (invars outvars : List (Atom F)) (body : List CEqn) (ins outs : List (Atom F))

/-- A program with calls (the jaxpr staged at inverse/core.py:161-162). -/
structure CProg where
  invars : List (Atom F)
  outvars : List (Atom F)
  eqns : List CEqn

/-- A propagation rule (propagate.py:325). -/
abbrev Rule := List ICell → List ICell → List ICell × List ICell × Bool

/-- What a call returns for the given cells, for each call of the program and each callee; see `Order.Valid`
(propagate.py:339-404). -/
abbrev Order := Nat → Jaxpr ICell F Bool → Rule

/-- A complete run of `propagate` (propagate.py:273-332). -/
def Completes (J : Jaxpr ICell F Bool) (i o : List ICell) (s : St ICell Bool) : Prop :=
  ∃ s0, Init iOps J [] i o s0 ∧ Steps iOps J s0 s ∧ s.queue = []

/-- `flat_propagate` and the rules of calls (propagate.py:339-404, inverse/core.py:301-308): a call propagates through
its callee, in some order, from the cells of the operands and results, with every other variable of the callee
unknown, and returns the cells of the inputs and outputs of the callee. -/
def Order.Valid (σ : Order) : Prop :=
  ∀ id J i o, Sized J → i.length = J.invars.length → o.length = J.outvars.length →
    ∃ s, Completes J i o s ∧
      σ id J i o = (J.invars.map (Propagate.read iOps s.env), J.outvars.map (Propagate.read iOps s.env), false)

/-- The equations of a jaxpr with their rules (propagate.py:297-325). -/
noncomputable def eqnsOf (σ : Order) : List CEqn → List (Eqn ICell F Bool)
  | [] => []
  | .prim op i o :: es => ⟨i, o, op.rule⟩ :: eqnsOf σ es
  | .call id iv ov body i o :: es => ⟨i, o, σ id ⟨[], iv, ov, eqnsOf σ body⟩⟩ :: eqnsOf σ es

/-- The propagation problem of a program (propagate.py:273-336 on the jaxpr of inverse/core.py:171-173). -/
noncomputable def CProg.jaxpr (σ : Order) (P : CProg) : Jaxpr ICell F Bool := ⟨[], P.invars, P.outvars, eqnsOf σ P.eqns⟩

/-- `inverse_and_ildj` (inverse/core.py:156-188), before the reduction of the ILDJs: values and ILDJs of the inputs,
or the `ValueError`. -/
def InverseRun (σ : Order) (P : CProg) (ys : List F) (res : Option (List (F × F))) : Prop :=
  ∃ s, Completes (P.jaxpr σ) (P.invars.map (fun _ => none)) (ys.map (fun y => some (y, some 0))) s ∧
    res = (P.invars.map (Propagate.read iOps s.env)).mapM id

end Verif.Inverse.Nested
