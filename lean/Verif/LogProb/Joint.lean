import Verif.LogProb.Model

/-
C79.  Model of `joint_log_prob` and `trace_log_prob` (oryx/core/ppl/transformations.py:390-407): `log_prob` of the
program that returns the named random variables.
-/
namespace Verif.LogProb.Joint

open Verif.Propagate Verif.Inverse

/-- One operation that the function given to `random_variable` applies to the value it has drawn
(transformations.py:339-364, e.g. `lambda key: random_normal(key) + z`): a unary operation, or a binary one whose other
operand `a` has been computed before. -/
inductive Link where
  | un (p : Un)
  | left (p : Bin) (a : Atom F)
  | right (p : Bin) (a : Atom F)

/-- The equation of `y = link(t)` (an equation of the jaxpr staged at log_prob.py:61-63). -/
def Link.eqn (t y : Nat) : Link → LOp × List (Atom F) × List (Atom F)
  | .un p => (.det (.un p), [.var t], [.var y])
  | .left p a => (.det (.bin p), [a, .var t], [.var y])
  | .right p a => (.det (.bin p), [.var t, a], [.var y])

/-- The other operand of a link (an operand of its equation, log_prob.py:61-63). -/
def Link.operand : Link → List (Atom F)
  | .un _ => []
  | .left _ a => [a]
  | .right _ a => [a]

/-- `random_variable(f, name=...)(key, ...)` (transformations.py:339-364) where `f` draws one value from a distribution
(`random_variable_p`: constants, key, parameters; `logp` is its log density) and applies the links to it.  With a name the
result is sown (line 361).  Simplification: `f` does not contain named random variables of its own.  Here the call of `nest`
around it (line 361) is inlined; JointNest.lean models it. -/
structure Draw where
  numConsts : Nat
  logp : List F → List F → F
  operands : List (Atom F)
  value : Nat
  links : List (Link × Nat)
  name : Option String

/-- The statements of a program: deterministic operations (also `random.split`), random variables, and values tagged
with `random_variable(value, name=...)` (transformations.py:260-284). -/
inductive Stmt where
  | det (op : Op) (ins : List (Atom F)) (outs : List Nat)
  | draw (D : Draw)
  | tag (name : String) (a : Atom F)

/-- A probabilistic program `f(key, *args)` (the argument of transformations.py:390-407).  Constants are literals. -/
structure Source where
  key : Nat
  args : List Nat
  body : List Stmt
  outs : List (Atom F)

/-- The equations of the links (the jaxpr staged at log_prob.py:61-63). -/
def linkEqns : Nat → List (Link × Nat) → List (LOp × List (Atom F) × List (Atom F))
  | _, [] => []
  | t, (l, y) :: ls => l.eqn t y :: linkEqns y ls

/-- The variable of the last link (transformations.py:360-361). -/
def lastVar : Nat → List (Link × Nat) → Nat
  | t, [] => t
  | _, (_, y) :: ls => lastVar y ls

/-- The equations of a statement after reaping: sown values are passed on unchanged (harvest.py, C02; the jaxpr staged at
log_prob.py:61-63). -/
def Stmt.eqns : Stmt → List (LOp × List (Atom F) × List (Atom F))
  | .det op ins outs => [(.det op, ins, outs.map .var)]
  | .draw D => (.rv D.numConsts D.logp, D.operands, [.var D.value]) :: linkEqns D.value D.links
  | .tag _ _ => []

/-- What a statement sows (transformations.py:284, 361). -/
def Stmt.sown : Stmt → List (String × Atom F)
  | .det _ _ _ => []
  | .draw D => match D.name with
    | some n => [(n, .var (lastVar D.value D.links))]
    | none => []
  | .tag n a => [(n, a)]

/-- The leaves of a dictionary come in the order of its keys (`tree_flatten`, used at log_prob.py:64). -/
def sortByKey {α : Type} (l : List (String × α)) : List (String × α) := l.mergeSort (fun a b => decide (a.1 ≤ b.1))

/-- The names in the order of the program (transformations.py:284). -/
def Source.names (S : Source) : List String := (S.body.flatMap Stmt.sown).map (·.1)

/-- The equations that the variables `need` depend on, and all variables that are then needed: `trace_to_jaxpr_nounits`
(trace_util.py:73-79, `dynamic=False`, log_prob.py:62) returns a jaxpr with the equations that the results depend on.
Simplification: the equations keep their order. -/
def prune {α : Type} : List (α × List (Atom F) × List (Atom F)) → List Nat → List (α × List (Atom F) × List (Atom F)) × List Nat
  | [], need => ([], need)
  | q :: qs, need =>
    if (q.2.2.filterMap Atom.node).any fun x => (prune qs need).2.contains x then
      (q :: (prune qs need).1, q.2.1.filterMap Atom.node ++ (prune qs need).2)
    else prune qs need

/-- The results of `joint_sample(f)` (transformations.py:400-402), or of `trace(f)` with the outputs of `f` first
(transformations.py:390-392). -/
def Source.results (S : Source) (first : List (Atom F)) : List (Atom F) :=
  first ++ (sortByKey (S.body.flatMap Stmt.sown)).map (·.2)

/-- The jaxpr of `joint_sample(f)` or `trace(f)` (log_prob.py:61-63). -/
def Source.prog (S : Source) (first : List (Atom F)) : LProg :=
  ⟨.var S.key :: S.args.map .var, S.results first,
    (prune (S.body.flatMap Stmt.eqns) ((S.results first).filterMap Atom.node)).1⟩

/-- The errors: a strict name sown twice (harvest.py, C03), a wrong number of leaves (`safe_map`, propagate.py:274-276), and
the `ValueError` of log_prob.py:127-128. -/
inductive JErr
  | duplicate
  | leaves
  | cannot
  deriving DecidableEq

/-- `log_prob` of the reaped program applied to the leaves `obs` (none for `joint_log_prob`) and the leaves of the
dictionary `latents` (log_prob.py:56-73).  The structure of the sample is not compared with that of the outputs: only the
leaves are used (log_prob.py:64). -/
def Run (S : Source) (first : List (Atom F)) (obs : List F) (latents : List (String × F)) (args : List F)
    (res : Except JErr F) : Prop :=
  if ¬ S.names.Nodup then res = .error .duplicate
  else if (obs ++ latents.map (·.2)).length ≠ (S.prog first).outvars.length ∨ args.length ≠ S.args.length then
    res = .error .leaves
  else ∃ r, LogProbRun (S.prog first) args (obs ++ (sortByKey latents).map (·.2)) r ∧
    res = match r with
      | none => .error .cannot
      | some v => .ok v

/-- `joint_log_prob(f)(latents, *args)` (transformations.py:405-407). -/
def JointLogProb (S : Source) (latents : List (String × F)) (args : List F) (res : Except JErr F) : Prop :=
  Run S [] [] latents args res

/-- `trace_log_prob(f)(obs, latents, *args)` (transformations.py:395-397). -/
def TraceLogProb (S : Source) (obs : List F) (latents : List (String × F)) (args : List F) (res : Except JErr F) : Prop :=
  Run S S.outs obs latents args res

end Verif.LogProb.Joint
