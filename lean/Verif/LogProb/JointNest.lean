import Verif.LogProb.Joint
import Mathlib.Data.List.Dedup

/-
C79.  Model of `joint_log_prob` (oryx/core/ppl/transformations.py:405-407) with the `nest` calls that
`random_variable(f, name=...)` puts around `f` (transformations.py:361): each is an equation that calls another jaxpr, with
a propagation of its own (propagate.py:339-367).
-/
namespace Verif.LogProb.Joint

open Verif.Propagate Verif.Inverse

/-- The propagation rule of a call; the state is a log-probability or, `some none`, a `FailedLogProb`
(propagate.py:339-359, log_prob.py:76-89). -/
abbrev CallRule := List ICell → List ICell → List ICell × List ICell × Option (Option F)

/-- The primitive of an equation: as before, or `nest` called on the function of the random variable `D`
(harvest.py:308, transformations.py:361). -/
inductive NOp where
  | flat (op : LOp)
  | call (D : Draw)

/-- The operands of the call: the values that the function uses (harvest.py:364-379; the values that it closes over become
operands when the call is staged).  The order does not matter. -/
def Draw.invars (D : Draw) : List Nat :=
  ((D.operands ++ D.links.flatMap fun l => l.1.operand).filterMap Atom.node).dedup

/-- The jaxpr that is called (harvest.py:364-379): the function draws one value and applies the links. -/
def Draw.prog (D : Draw) : LProg :=
  ⟨D.invars.map .var, [.var (lastVar D.value D.links)], (Stmt.draw D).eqns⟩

/-- `r` is the rule of a call of `Q` (`flat_propagate`, `call_rule`, propagate.py:339-367): a complete propagation through
`Q` with the same rules and the same reducer; it returns the cells of the inputs and outputs of `Q` and the reduced
state. -/
def Calls (Q : LProg) (r : CallRule) : Prop :=
  ∀ i o, i.length = Q.invars.length → o.length = Q.outvars.length →
    ∃ s0 s, Init iOps Q.jaxpr [] i o s0 ∧ Steps iOps Q.jaxpr s0 s ∧ s.queue = [] ∧
      r i o = (Q.invars.map (Propagate.read iOps s.env), Q.outvars.map (Propagate.read iOps s.env), some (lpFinish Q s))

/-- The rule that `propagate` applies (propagate.py:297-325, log_prob.py:132-142); `rules D` is the rule of the call of the
function of `D`. -/
noncomputable def NOp.rule (rules : Draw → CallRule) : NOp → CallRule
  | .flat op, i, o => ((op.rule i o).1, (op.rule i o).2.1, (op.rule i o).2.2.map some)
  | .call D, i, o => rules D i o

/-- A program (the jaxpr staged at log_prob.py:61-63). -/
structure NProg where
  invars : List (Atom F)
  outvars : List (Atom F)
  eqns : List (NOp × List (Atom F) × List (Atom F))

/-- Its propagation problem (the propagation of log_prob.py:115-128). -/
noncomputable def NProg.jaxpr (P : NProg) (rules : Draw → CallRule) : Jaxpr ICell F (Option (Option F)) :=
  ⟨[], P.invars, P.outvars, P.eqns.map fun q => ⟨q.2.1, q.2.2, q.1.rule rules⟩⟩

/-- `reducer` (log_prob.py:95-113); the accumulator is `none` for `failed_log_prob`; a call is not in `log_prob_registry`, so
its state is added without an ILDJ. -/
noncomputable def nReduce (env : Env ICell) (q : NOp × List (Atom F) × List (Atom F)) (cur : Option F)
    (new : Option (Option F)) : Option F :=
  match cur with
  | none => none
  | some c =>
    match q.1, new with
    | _, some none => none
    | .flat (.rv _ _), none => none
    | .flat (.rv _ _), some (some l) => some (addF (addF c l) (ildjSum (q.2.2.map (Propagate.read iOps env))))
    | _, some (some l) => some (addF (addF c l) (some 0))
    | _, none => some c

/-- The loop over the equations (propagate.py:333-336); the state of an equation that was never visited is `None`
(propagate.py:189-190). -/
noncomputable def nFinish (P : NProg) (s : St ICell (Option (Option F))) : Option F :=
  (P.eqns.zipIdx).foldl (fun r p => nReduce s.env p.1 r (s.states p.2).join) (some (some 0))

/-- The equations of a statement: a named random variable is a call (transformations.py:361, harvest.py:558-568), the
function of a random variable without a name is inlined (transformations.py:362). -/
def Stmt.calls : Stmt → List (NOp × List (Atom F) × List (Atom F))
  | .draw D => match D.name with
    | some _ => [(.call D, D.invars.map .var, [.var (lastVar D.value D.links)])]
    | none => (Stmt.draw D).eqns.map fun q => (.flat q.1, q.2)
  | st => st.eqns.map fun q => (.flat q.1, q.2)

/-- The jaxpr of `joint_sample(f)` or `trace(f)` (log_prob.py:61-63). -/
def Source.nprog (S : Source) (first : List (Atom F)) : NProg :=
  ⟨.var S.key :: S.args.map .var, S.results first,
    (prune (S.body.flatMap Stmt.calls) ((S.results first).filterMap Atom.node)).1⟩

/-- `joint_log_prob(f)(latents, *args)` (transformations.py:405-407, log_prob.py:56-73) with the calls; `rules` are the rules
of the calls.  The errors are those of `Run`. -/
def NestJointLogProb (rules : Draw → CallRule) (S : Source) (latents : List (String × F)) (args : List F)
    (res : Except JErr F) : Prop :=
  if ¬ S.names.Nodup then res = .error .duplicate
  else if latents.length ≠ (S.nprog []).outvars.length ∨ args.length ≠ S.args.length then
    res = .error .leaves
  else ∃ s0 s, Init iOps ((S.nprog []).jaxpr rules) [] (none :: args.map fun a => some (a, some 0))
      (((sortByKey latents).map (·.2)).map fun y => some (y, some 0)) s0 ∧
    Steps iOps ((S.nprog []).jaxpr rules) s0 s ∧ s.queue = [] ∧
    res = match nFinish (S.nprog []) s with
      | none => .error .cannot
      | some v => .ok v

end Verif.LogProb.Joint
