import Verif.LogProb.JointSpec

/-
C82.  Model of `intervene` and `conditional` (oryx/core/ppl/transformations.py:422-515) on the programs of C79: the program
that is staged when `joint_log_prob` is applied to their result.
-/
namespace Verif.LogProb.Joint

open Verif.Propagate Verif.Inverse

/-- An operand after planting: later statements use the planted value instead of the drawn one (harvest.py:1188-1199: the
`sow` returns the planted value). -/
def replace (σ : Nat → Atom F) : Atom F → Atom F
  | .lit c => .lit c
  | .var x => σ x
  | .drop x => σ x

/-- The operation of a link with its other operand replaced (an operation of `f` traced again with the planted values,
harvest.py:399-409). -/
def Link.replace (σ : Nat → Atom F) : Link → Link
  | .un p => .un p
  | .left p a => .left p (Joint.replace σ a)
  | .right p a => .right p (Joint.replace σ a)

/-- A random variable traced again with the planted values (harvest.py:399-409). -/
def Draw.replace (D : Draw) (σ : Nat → Atom F) : Draw :=
  { D with operands := D.operands.map (Joint.replace σ), links := D.links.map fun l => (l.1.replace σ, l.2) }

/-- The value of an operand that is a constant when the program is staged (log_prob.py:61-62). -/
def constant : Atom F → Option F
  | .lit c => some c
  | _ => none

/-- From now on `x` stands for `a` (harvest.py:1188-1199). -/
def bind1 (σ : Nat → Atom F) (x : Nat) (a : Atom F) : Nat → Atom F := fun y => if y = x then a else σ y

/-- The results of an operation on constants are constants (log_prob.py:61-62). -/
def bindAll (σ : Nat → Atom F) : List Nat → List F → Nat → Atom F
  | x :: xs, c :: cs => bindAll (bind1 σ x (.lit c)) xs cs
  | _, _ => σ

/-- The program traced with the values `obs` planted for their names (harvest.py:1188-1226, called at
transformations.py:464-465), and what its variables stand for afterwards.  The function of a planted random variable is
still called, but its result is not used and its name is not sown.  Operations on constants are evaluated while staging
(`dynamic=False`, log_prob.py:62).  Simplification: planting a deterministic value tagged with
`random_variable(value, name=...)` only removes its name, and the error for a planted name that is sown twice (line 1190) is
not modelled. -/
noncomputable def plantBody (obs : String → Option (Atom F)) : (Nat → Atom F) → List Stmt → List Stmt × (Nat → Atom F)
  | σ, [] => ([], σ)
  | σ, .det op ins outs :: rest =>
    match (ins.map (replace σ)).mapM constant with
    | some cs => plantBody obs (bindAll σ outs (op.eval cs)) rest
    | none => (.det op (ins.map (replace σ)) outs :: (plantBody obs σ rest).1, (plantBody obs σ rest).2)
  | σ, .draw D :: rest =>
    match D.name.bind obs with
    | some a =>
      (.draw { D.replace σ with name := none } :: (plantBody obs (bind1 σ (lastVar D.value D.links) a) rest).1,
        (plantBody obs (bind1 σ (lastVar D.value D.links) a) rest).2)
    | none => (.draw (D.replace σ) :: (plantBody obs σ rest).1, (plantBody obs σ rest).2)
  | σ, .tag n a :: rest =>
    match obs n with
    | some _ => plantBody obs σ rest
    | none => (.tag n (replace σ a) :: (plantBody obs σ rest).1, (plantBody obs σ rest).2)

/-- The program with the values `obs` planted and the further arguments `extra` (transformations.py:463-467). -/
noncomputable def Source.plant (S : Source) (extra : List Nat) (obs : String → Option (Atom F)) : Source where
  key := S.key
  args := S.args ++ extra
  body := (plantBody obs .var S.body).1
  outs := S.outs.map (replace (plantBody obs .var S.body).2)

/-- `intervene(f, **obs)` (transformations.py:422-467). -/
noncomputable def Source.intervene (S : Source) (obs : List (String × F)) : Source :=
  S.plant [] fun n => (obs.lookup n).map .lit

/-- `conditional(f, names)` (transformations.py:470-515); `xs` are the variables of the trailing arguments.  The last of
several equal names counts (`dict`, line 510). -/
noncomputable def Source.conditional (S : Source) (names : List String) (xs : List Nat) : Source :=
  S.plant xs fun n => ((names.zip xs).reverse.lookup n).map .var

/-! ### Specification -/

/-- The terms of the random variables of a program other than those named in `given`. -/
noncomputable def termsWithout (given : List String) (lat : String → Option F) : Env ICell → List Stmt → List (Option F)
  | _, [] => []
  | env, st :: rest => (match st with
    | .draw D => if ∃ n ∈ given, D.name = some n then [] else [D.term lat env]
    | _ => []) ++ termsWithout given lat (st.run lat env) rest

/-- The joint log density of a program without the terms of the random variables named in `given`: the truncated
factorisation. -/
noncomputable def Source.jointWithout (S : Source) (given : List String) (lat : String → Option F) (args : List F) :
    Except JErr F :=
  match (termsWithout given lat (argEnv S.args args) S.body).mapM id with
  | some ts => .ok (sumF ts)
  | none => .error .cannot

end Verif.LogProb.Joint
