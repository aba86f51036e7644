import Verif.LogProb.Model
import Mathlib.Algebra.BigOperators.Group.Finset.Basic

/-
Model of oryx/core/interpreters/log_prob.py for programs with nested calls (`jax.jit`, `harvest.nest`, `call`) and of
oryx/core/ppl/plate_util.py, run under a `jax.vmap` with a named axis whose index set is `ι` (`ι = Unit` outside of
any `vmap`): a cell holds one value and one ILDJ per index.
-/
namespace Verif.LogProb.Nested

open Verif.Propagate Verif.Inverse

/-- A batched cell: unknown, or a value and an ILDJ for every index of the mapped axis (inverse/core.py:47-84). -/
abbrev BCell (ι : Type) := Option (ι → F × F)

/-- The cell operations of `Verif.Inverse.iOps` (inverse/core.py:86-145): whether a cell is known does not depend
on the index. -/
def bOps (ι : Type) : CellOps (BCell ι) F where
  lt a b := a.isNone && b.isSome
  join a b := if b.isSome then b else a
  unknown _ := none
  new v := some (fun _ => (v, some 0))

/-- What an equation leaves for the reducer: `None`, a `FailedLogProb`, or a log-probability per index
(log_prob.py:76-89, 95-113). -/
abbrev LState (ι : Type) := Option (Option (ι → F))

/-- A propagation rule (propagate.py:325). -/
abbrev Rule (ι : Type) := List (BCell ι) → List (BCell ι) → List (BCell ι) × List (BCell ι) × LState ι

/-- An equation's primitive: a deterministic one with its inverse rule, whatever it is; a `random_variable` with
`num_consts` constants and log-density `d`; a call of another jaxpr with the rule of that call; a `plate`
(the only other member of `log_prob_registry`, plate_util.py:56). -/
inductive NOp (ι : Type) where
  | det (r : List (BCell ι) → List (BCell ι) → List (BCell ι) × List (BCell ι))
  | rv (numConsts : Nat) (d : List F → List F → F)
  | call (r : Rule ι)
  | plate (r : Rule ι)

/-- `eqn.primitive in log_prob_registry` (log_prob.py:53, distribution_extensions.py:58, plate_util.py:56). -/
def NOp.reg {ι : Type} : NOp ι → Bool
  | .rv _ _ => true
  | .plate _ => true
  | _ => false

/-- The contents of the cells if all of them are top (distribution_extensions.py:45-52). -/
def tops {A : Type} : List (Option A) → Option (List A)
  | [] => some []
  | none :: _ => none
  | some a :: l => (tops l).map (a :: ·)

/-- `random_variable_log_prob_rule` (distribution_extensions.py:40-54), index by index. -/
def rvRule {ι : Type} (nc : Nat) (d : List F → List F → F) : Rule ι := fun i o =>
  match tops ((i.drop nc).drop 1), tops o with
  | some ps, some vs => (i, o, some (some (fun j => d (ps.map (fun c => (c j).1)) (vs.map (fun c => (c j).1)))))
  | _, _ => (i, o, none)

/-- The rule that `propagate` applies (propagate.py:297-325, log_prob.py:132-142). -/
def NOp.rule {ι : Type} : NOp ι → Rule ι
  | .det r, i, o => ((r i o).1, (r i o).2, none)
  | .rv nc d, i, o => rvRule nc d i o
  | .call r, i, o => r i o
  | .plate r, i, o => r i o

/-- An equation (the equations of the jaxpr staged at log_prob.py:61-63). -/
structure NEqn (ι : Type) where
  op : NOp ι
  ins : List (Atom F)
  outs : List (Atom F)

/-- A program (the jaxpr staged at log_prob.py:61-63). -/
structure NProg (ι : Type) where
  invars : List (Atom F)
  outvars : List (Atom F)
  eqns : List (NEqn ι)

/-- Its propagation problem (the propagation of log_prob.py:115-128). -/
def NProg.jaxpr {ι : Type} (P : NProg ι) : Jaxpr (BCell ι) F (LState ι) :=
  ⟨[], P.invars, P.outvars, P.eqns.map (fun q => ⟨q.ins, q.outs, q.op.rule⟩)⟩

/-- `sum([cell.ildj.sum() for cell in cells if cell.top()])` (log_prob.py:109), at one index. -/
noncomputable def ildjSum {ι : Type} (cells : List (BCell ι)) (j : ι) : F :=
  cells.foldl (fun a c => match c with | some p => addF a (p j).2 | none => a) (some 0)

/-- `reducer` (log_prob.py:95-113); the accumulator is `none` for `failed_log_prob`. -/
noncomputable def reduce {ι : Type} (env : Env (BCell ι)) (q : NEqn ι) (cur : Option (ι → F)) (new : LState ι) :
    Option (ι → F) :=
  match cur, new with
  | none, _ => none
  | some _, some none => none
  | some c, none => if q.op.reg then none else some c
  | some c, some (some l) =>
    some (fun j => addF (addF (c j) (l j))
      (if q.op.reg then ildjSum (q.outs.map (Propagate.read (bOps ι) env)) j else some 0))

/-- The reduction over the equations (propagate.py:333-336) with initial state 0 (log_prob.py:126); the state of an
equation that was never visited is `None` (propagate.py:189-190).  `none` is `failed_log_prob`. -/
noncomputable def finish {ι : Type} (P : NProg ι) (s : St (BCell ι) (LState ι)) : Option (ι → F) :=
  (P.eqns.zipIdx).foldl (fun r p => reduce s.env p.1 r (s.states p.2).join) (some (fun _ => some 0))

/-- A complete propagation through `P` started from the given cells, ending in `s` (propagate.py:273-332). -/
def Run {ι : Type} (P : NProg ι) (i o : List (BCell ι)) (s : St (BCell ι) (LState ι)) : Prop :=
  ∃ s0, Init (bOps ι) P.jaxpr [] i o s0 ∧ Steps (bOps ι) P.jaxpr s0 s ∧ s.queue = []

/-- `r` is the rule of a call of `Q` (`flat_propagate`, `call_rule`, `_pjit_propagate_rule`, propagate.py:339-404):
it propagates through `Q` with the same rules and the same reducer and returns the cells of the inputs and outputs of
`Q` and the reduced state. -/
def Calls {ι : Type} (Q : NProg ι) (r : Rule ι) : Prop :=
  ∀ i o, i.length = Q.invars.length → o.length = Q.outvars.length →
    ∃ s, Run Q i o s ∧ r i o =
      (Q.invars.map (Propagate.read (bOps ι) s.env), Q.outvars.map (Propagate.read (bOps ι) s.env), some (finish Q s))

open Classical in
/-- `lax.psum` over the named axis (plate_util.py:52). -/
noncomputable def psum {ι : Type} [Fintype ι] (v : ι → F) : F :=
  if ∀ k, (v k).isSome then some (∑ k, (v k).getD 0) else none

/-- `plate_log_prob_rule` (plate_util.py:49-52): the rule of the call, with the reduced state summed over the axis
(a `FailedLogProb` has no leaves, so `psum` returns it as it is).  The body of the plate starts by folding the index
into the key; its cells are unknown in every run and it is left out. -/
def PlateCalls {ι : Type} [Fintype ι] (Q : NProg ι) (r : Rule ι) : Prop :=
  ∀ i o, i.length = Q.invars.length → o.length = Q.outvars.length →
    ∃ s, Run Q i o s ∧ r i o =
      (Q.invars.map (Propagate.read (bOps ι) s.env), Q.outvars.map (Propagate.read (bOps ι) s.env),
        some ((finish Q s).map (fun v _ => psum v)))

/-- `log_prob(f)(sample, *args)` at every index (log_prob.py:56-73, 92-129): unknown seed, known arguments, the sample
as outputs; `none` is the `ValueError`. -/
def LogProb {ι : Type} (P : NProg ι) (args ys : List (ι → F)) (res : Option (ι → F)) : Prop :=
  ∃ s, Run P (none :: args.map (fun a => some (fun j => (a j, some 0)))) (ys.map (fun y => some (fun j => (y j, some 0)))) s ∧
    res = finish P s

end Verif.LogProb.Nested
