import Verif.Inverse.Model

/-
Model of oryx/core/interpreters/log_prob.py, with the rule of the `random_variable` primitive
(oryx/distributions/distribution_extensions.py), for jaxprs without nested calls.
-/
namespace Verif.LogProb

open Verif.Propagate Verif.Inverse

/-- An equation of the program whose log_prob is taken: a deterministic operation, or a `random_variable`
primitive (the only member of `log_prob_registry`) with `num_consts` constant operands, then the key, then the
parameters of the distribution; `d` is `dist.log_prob` as a function of the parameters and the value, summed over
the batch dimensions (distribution_extensions.py:53-54). -/
inductive LOp where
  | det (op : Op)
  | rv (numConsts : Nat) (d : List F → List F → F)

/-- `random_variable_log_prob_rule` (distribution_extensions.py:40-54). -/
def rvRule (nc : Nat) (d : List F → List F → F) (i o : List ICell) : List ICell × List ICell × Option F :=
  match ((i.drop nc).drop 1).mapM id, o.mapM id with
  | some ps, some vs => (i, o, some (d (ps.map (·.1)) (vs.map (·.1))))
  | _, _ => (i, o, none)

/-- The propagation rule: `log_prob_rules[prim]`, by default the inverse rule with `NotImplementedError` turned
into "no change" and no state (log_prob.py:34-46, 132-142). -/
noncomputable def LOp.rule : LOp → List ICell → List ICell → List ICell × List ICell × Option F
  | .det op, i, o => ((op.rule i o).1, (op.rule i o).2.1, none)
  | .rv nc d, i, o => rvRule nc d i o

/-- A program (the jaxpr staged at log_prob.py:61-63). -/
structure LProg where
  invars : List (Atom F)
  outvars : List (Atom F)
  eqns : List (LOp × List (Atom F) × List (Atom F))

/-- Its propagation problem (the propagation of log_prob.py:115-128). -/
noncomputable def LProg.jaxpr (P : LProg) : Jaxpr ICell F (Option F) :=
  ⟨[], P.invars, P.outvars, P.eqns.map (fun q => ⟨q.2.1, q.2.2, q.1.rule⟩)⟩

/-- `sum([cell.ildj.sum() for cell in cells if cell.top()])` (log_prob.py:109). -/
noncomputable def ildjSum (cells : List ICell) : F :=
  cells.foldl (fun a c => match c with | some p => addF a p.2 | none => a) (some 0)

/-- `reducer` (log_prob.py:95-113); the case of a failed nested call does not arise.  The accumulator is `none` for `failed_log_prob`; the state of an equation
that was never visited is `None` (propagate.py:189-190). -/
noncomputable def lpReduce (env : Env ICell) (q : LOp × List (Atom F) × List (Atom F)) (cur : Option F)
    (new : Option (Option F)) : Option F :=
  match cur with
  | none => none
  | some c =>
    match q.1, new.join with
    | .rv _ _, none => none
    | .rv _ _, some l => some (addF (addF c l) (ildjSum (q.2.2.map (Propagate.read iOps env))))
    | .det _, some l => some (addF (addF c l) (some 0))
    | .det _, none => some c

/-- The loop over the equations (propagate.py:333-336). -/
noncomputable def lpFinish (P : LProg) (s : St ICell (Option F)) : Option F :=
  (P.eqns.zipIdx).foldl (fun r p => lpReduce s.env p.1 r (s.states p.2)) (some (some 0))

/-- `log_prob(f)(sample, *args)` (log_prob.py:56-73, 92-129): a complete run of the propagation started with an
unknown seed, known arguments and the sample as outputs; the result is `none` for the `ValueError`. -/
def LogProbRun (P : LProg) (args ys : List F) (res : Option F) : Prop :=
  ∃ s0 s, Init iOps P.jaxpr [] (none :: args.map (fun a => some (a, some 0))) (ys.map (fun y => some (y, some 0))) s0 ∧
    Steps iOps P.jaxpr s0 s ∧ s.queue = [] ∧ res = lpFinish P s

end Verif.LogProb
