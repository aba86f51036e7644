import Verif.LogProb.JointThms
import Verif.Plate.Spec

/-
C81.  Model of `joint_sample` (oryx/core/ppl/transformations.py:400-402) of the programs of C79: what the names are bound
to when the program is run with a key.
-/
namespace Verif.LogProb.Joint

open Verif.Propagate Verif.Inverse Verif.Plate MeasureTheory
open scoped ENNReal

variable {Ω : Type}

/-- Store a value (an assignment of the program staged at log_prob.py:61-63). -/
def setR (val : ℕ → ℝ) (x : ℕ) (v : ℝ) : ℕ → ℝ := fun y => if y = x then v else val y

/-- Store the results of an operation (an equation of the program staged at log_prob.py:61-63). -/
def setAll (val : ℕ → ℝ) : List ℕ → List F → ℕ → ℝ
  | x :: xs, v :: vs => setAll (setR val x (v.getD 0)) xs vs
  | _, _ => val

/-- The parameters of a distribution: the operands after the constants and the key
(distribution_extensions.py:99-104, 43-44). -/
def Draw.params (D : Draw) (val : ℕ → ℝ) : List F := ((D.operands.drop D.numConsts).drop 1).map (aval val)

/-- The variable of the key of a draw (distribution_extensions.py:99-104). -/
def Draw.keyVar (D : Draw) : ℕ :=
  match D.operands.drop D.numConsts with
  | .var k :: _ => k
  | .drop k :: _ => k
  | _ => 0

/-- `joint_sample(f)(key, *args)` (transformations.py:400-402): the program runs with `val` the values of its variables,
and the values of the named random variables are collected under their names, in the order of the program
(transformations.py:284, 361).  `samp D` is the sampler of the distribution of `D` (`_sample_distribution`,
distribution_extensions.py:84-85), a function of its parameters and of the randomness of its key and of the keys that
it derives from its key.  `keyOf` is the derivation of the key variables.

Simplifications: the generator is ideal as in `Verif.Plate.Model`; the values of key variables as numbers do not matter;
an operation that returns a nan stores 0 (the theorems exclude it). -/
noncomputable def jointSample (samp : Draw → List F → (Key → Ω) → ℝ) (keyOf : ℕ → Key) (ω : Key → Ω) :
    List Stmt → (ℕ → ℝ) → List (String × ℝ)
  | [], _ => []
  | .det op ins outs :: rest, val =>
    jointSample samp keyOf ω rest (setAll val outs (op.eval (ins.map (aval val))))
  | .draw D :: rest, val =>
    let x := samp D (D.params val) (fun q => ω (q ++ keyOf D.keyVar))
    let y := pushes val D.links x
    (match D.name with
      | some n => [(n, y)]
      | none => []) ++ jointSample samp keyOf ω rest (setR val (lastVar D.value D.links) y)
  | .tag n a :: rest, val => (n, (aval val a).getD 0) :: jointSample samp keyOf ω rest val

/-- The variables at the start: the arguments (transformations.py:400-402). -/
def startVal (S : Source) (args : List ℝ) : ℕ → ℝ := setAll (fun _ => 0) S.args (args.map some)

/-! ### Specification -/

/-- The density of a log density.  What is not a number (`-inf` outside of the support, and nan) counts as zero. -/
noncomputable def dens : F → ℝ≥0∞
  | some r => ENNReal.ofReal (Real.exp r)
  | none => 0

/-- The variables of the links of a random variable other than its value: the local variables of its function. -/
def Draw.inner (D : Draw) : List ℕ := (D.value :: D.links.map (·.2)).dropLast

/-- The log density of the value `y` of a random variable given the values before it, as in `Draw.term`. -/
noncomputable def Draw.lp (D : Draw) (val : ℕ → ℝ) (y : ℝ) : F :=
  match chainCell (fun x => some (some (val x), some 0)) D.links (some (some y, some 0)) with
  | some (v, l) => addF (D.logp (D.params val) [v]) l
  | none => none

end Verif.LogProb.Joint
