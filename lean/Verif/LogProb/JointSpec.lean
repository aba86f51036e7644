import Verif.LogProb.Joint
import Verif.LogProb.Solve

/-! C79: what `joint_log_prob` should return, by running the program statement by statement with the given values of the
named random variables. -/
namespace Verif.LogProb.Joint

open Verif.Propagate Verif.Inverse

/-- The value before a link, with its ILDJ, from the value after it. -/
noncomputable def Link.back (env : Env ICell) : Link → ICell → ICell
  | .un p, c => c.map fun v => (v.1.bind p.g, p.ld v.2 v.1)
  | .left p a, c => c.bind fun v => (Propagate.read iOps env a).map fun w =>
      (bind2 p.gl w.1 v.1, addF v.2 (bind2 p.ll w.1 v.1))
  | .right p a, c => c.bind fun v => (Propagate.read iOps env a).map fun w =>
      (bind2 p.gr w.1 v.1, addF v.2 (bind2 p.lr w.1 v.1))

/-- The value before all links. -/
noncomputable def chainCell (env : Env ICell) : List (Link × Nat) → ICell → ICell
  | [], c => c
  | (l, _) :: ls, c => l.back env (chainCell env ls c)

/-- Assign one variable. -/
def put (env : Env ICell) (x : Nat) (c : ICell) : Env ICell := fun y => if y = x then c else env y

/-- Assign the variables of the links. -/
noncomputable def putChain (env0 : Env ICell) : Nat → List (Link × Nat) → ICell → Env ICell → Env ICell
  | t, [], c, env => put env t c
  | t, (l, y) :: ls, c, env => put (putChain env0 y ls c env) t (chainCell env0 ((l, y) :: ls) c)

/-- Assign the outputs of an operation. -/
def putAll (env : Env ICell) : List Nat → List ICell → Env ICell
  | x :: xs, c :: cs => putAll (put env x c) xs cs
  | _, _ => env

/-- The value given for a random variable. -/
def Draw.given (D : Draw) (lat : String → Option F) : ICell := (D.name.bind lat).map fun v => (v, some 0)

/-- The term of a random variable: the log density of the drawn value at its parameters plus the ILDJ of the links;
`none` if one of them is not determined. -/
noncomputable def Draw.term (D : Draw) (lat : String → Option F) (env : Env ICell) : Option F :=
  match (((D.operands.drop D.numConsts).drop 1).map (Propagate.read iOps env)).mapM id,
    chainCell env D.links (D.given lat) with
  | some ps, some (v, l) => some (addF (D.logp (ps.map (·.1)) [v]) l)
  | _, _ => none

/-- Run one statement. -/
noncomputable def Stmt.run (lat : String → Option F) (env : Env ICell) : Stmt → Env ICell
  | .det op ins outs =>
    match (ins.map (Propagate.read iOps env)).mapM id with
    | some vs => putAll env outs ((op.eval (vs.map (·.1))).map fun v => some (v, some 0))
    | none => env
  | .draw D => putChain env D.value D.links (D.given lat) env
  | .tag _ _ => env

/-- Run a program. -/
noncomputable def runAll (lat : String → Option F) : Env ICell → List Stmt → Env ICell
  | env, [] => env
  | env, st :: rest => runAll lat (st.run lat env) rest

/-- The terms of the random variables of a program, each once, in order. -/
noncomputable def terms (lat : String → Option F) : Env ICell → List Stmt → List (Option F)
  | _, [] => []
  | env, st :: rest => (match st with
    | .draw D => [D.term lat env]
    | _ => []) ++ terms lat (st.run lat env) rest

/-- The arguments. -/
def argEnv (xs : List Nat) (vs : List F) : Env ICell := putAll (fun _ => none) xs (vs.map fun v => some (v, some 0))

/-- The value that a dictionary gives for a name. -/
def dict (latents : List (String × F)) (n : String) : Option F := latents.lookup n

/-- The result: the sum of the terms, or the error when a term is not determined. -/
noncomputable def Source.joint (S : Source) (lat : String → Option F) (args : List F) : Except JErr F :=
  match (terms lat (argEnv S.args args) S.body).mapM id with
  | some ts => .ok (sumF ts)
  | none => .error .cannot

/-! ### Well-formed programs -/

/-- The variables that a statement defines. -/
def Stmt.defs : Stmt → List Nat
  | .det _ _ outs => outs
  | .draw D => D.value :: D.links.map (·.2)
  | .tag _ _ => []

/-- The variables that a statement uses. -/
def Stmt.uses : Stmt → List Nat
  | .det _ ins _ => ins.filterMap Atom.node
  | .draw D => (D.operands ++ D.links.flatMap (fun l => l.1.operand)).filterMap Atom.node
  | .tag _ a => [a].filterMap Atom.node

/-- The numbers of operands and results are those of the operation; an operation on constants only is evaluated when the
program is staged (`dynamic=False`, log_prob.py:62), so every operation of the jaxpr uses a variable. -/
def Stmt.Sized : Stmt → Prop
  | .det op ins outs => (∃ x, some x ∈ ins.map Atom.node) ∧ ∀ vs : List F, vs.length = ins.length →
      (op.eval vs).length = outs.length ∧ (match op with | .un _ => ins.length = 1 | .bin _ => ins.length = 2 | .other _ => True)
  | _ => True

/-- Variables are used after they are defined. -/
def Scoped : List Stmt → Prop
  | [] => True
  | st :: rest => (∀ x ∈ st.uses, x ∉ st.defs ++ rest.flatMap Stmt.defs) ∧ Scoped rest

/-- A program that Python can stage. -/
structure Source.WF (S : Source) : Prop where
  once : (S.key :: S.args ++ S.body.flatMap Stmt.defs).Nodup
  order : Scoped S.body
  sized : ∀ st ∈ S.body, st.Sized

/-- The variables of some operands. -/
def vars (as : List (Atom F)) : List Nat := as.filterMap Atom.node

/-- The variables that the results `R` depend on: the results, and the operands of operations one of whose outputs is such
a variable. -/
inductive Live (S : Source) (R : Nat → Prop) : Nat → Prop
  | result (x) (h : R x) : Live S R x
  | operand (q) (hq : q ∈ S.body.flatMap Stmt.eqns) (y) (hy : y ∈ vars q.2.2) (h : Live S R y) (x) (hx : x ∈ vars q.2.1) :
    Live S R x

/-- A variable that is named, or is the value of a named random variable. -/
def Source.Named (S : Source) (x : Nat) : Prop := ∃ n, (n, Atom.var x) ∈ S.body.flatMap Stmt.sown

open Classical in
/-- The program without the statements that no named value depends on: they do not matter for the named values. -/
noncomputable def Source.alive (S : Source) : Source :=
  { S with body := S.body.filter fun st => match st with
    | .tag _ _ => true
    | st => decide (∃ x ∈ st.defs, Live S S.Named x) }

/-- Only random variables are named. -/
def Source.NoTags (S : Source) : Prop := ∀ st ∈ S.body, ∀ n a, st ≠ .tag n a

end Verif.LogProb.Joint
