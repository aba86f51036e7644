import Verif.Propagate.Model
import Mathlib.Analysis.SpecialFunctions.Trigonometric.Inverse
import Mathlib.Analysis.SpecialFunctions.Pow.Real
import Mathlib.Analysis.SpecialFunctions.Log.Basic
import Mathlib.Analysis.Calculus.Deriv.Basic

/-
Model of oryx/core/interpreters/inverse/core.py and rules.py for programs over elementwise primitives.  The
primitives act on every entry of an array separately and their operands have equal shapes, so a cell is
modelled entry by entry: unknown, or complete with a value and an inverse log-det-Jacobian (partial cells are
the subject of `Verif.Inverse.Slice`).
-/
namespace Verif.Inverse

open Verif.Propagate

/-- A floating point number: a real number, or `none` for nan and the infinities.  Rounding is not modelled.
(the numbers of numpy in core.py and rules.py). -/
abbrev F := Option ℝ

/-- An `InverseAndILDJ` cell that is bottom or top (core.py:47-84): value and ILDJ. -/
abbrev ICell := Option (F × F)

/-- The cell operations (core.py:86-145) on bottom and top cells: `self < other` iff `self` is not top and
`other` is not bottom; `join` takes `other` if it is top, whatever `self` is (core.py:97-98). -/
def iOps : CellOps ICell F where
  lt a b := a.isNone && b.isSome
  join a b := if b.isSome then b else a
  unknown _ := none
  new v := some (v, some 0)

/-- The registered elementwise primitives (rules.py:55-76) and the two that act entry by entry with rules of
their own: `reshape` and `convert_element_type` (rules.py:205-219, 240-254), and the functions with a custom
unary inverse (rules.py:223-238, 257-267). -/
inductive Un where
  | exp | log | sin | cos | expm1 | log1p | neg | sqrt
  | ipow (n : ℤ)
  | reshape
  | convert
  | expit | logit | softplus
deriving DecidableEq

open Classical in
/-- `np.log` (core.py:255, rules.py:79-130). -/
noncomputable def npLog (x : ℝ) : F := if 0 < x then some (Real.log x) else none

open Classical in
/-- `lax.pow(z, e)` for a non-integer exponent `e` (rules.py:55-97). -/
noncomputable def npPow (z e : ℝ) : F :=
  if 0 < z then some (z ^ e) else if z = 0 ∧ 0 < e then some 0 else none

open Classical in
/-- The primitives themselves (`prim.bind`) (the primitives registered at rules.py:55-76). -/
noncomputable def Un.f : Un → ℝ → F
  | .exp, x => some (Real.exp x)
  | .log, x => npLog x
  | .sin, x => some (Real.sin x)
  | .cos, x => some (Real.cos x)
  | .expm1, x => some (Real.exp x - 1)
  | .log1p, x => npLog (1 + x)
  | .neg, x => some (-x)
  | .sqrt, x => if 0 ≤ x then some (Real.sqrt x) else none
  | .ipow n, x => if x = 0 ∧ n < 0 then none else some (x ^ n)
  | .reshape, x => some x
  | .convert, x => some x
  | .expit, x => some (1 / (1 + Real.exp (-x)))
  | .logit, x => if 0 < x ∧ x < 1 then some (Real.log (x / (1 - x))) else none
  | .softplus, x => some (Real.log (1 + Real.exp x))

open Classical in
/-- The registered inverses (rules.py:55-76); `none` also stands for the `ValueError` of `y == 0`. -/
noncomputable def Un.g : Un → ℝ → F
  | .exp, z => npLog z
  | .log, z => some (Real.exp z)
  | .sin, z => if -1 ≤ z ∧ z ≤ 1 then some (Real.arcsin z) else none
  | .cos, z => if -1 ≤ z ∧ z ≤ 1 then some (Real.arccos z) else none
  | .expm1, z => npLog (1 + z)
  | .log1p, z => some (Real.exp z - 1)
  | .neg, z => some (-z)
  | .sqrt, z => some (z ^ 2)
  | .ipow n, z =>
    if n = 0 then none
    else if n = 1 then some z
    else if n = -1 then (if z = 0 then none else some z⁻¹)
    else if n = 2 then (if 0 ≤ z then some (Real.sqrt z) else none)
    else npPow z (1 / (n : ℝ))
  | .reshape, z => some z
  | .convert, z => some z
  | .expit, z => if 0 < z ∧ z < 1 then some (Real.log (z / (1 - z))) else none
  | .logit, z => some (1 / (1 + Real.exp (-z)))
  | .softplus, z => (npLog (-(Real.exp (-z) - 1))).map (fun a => a + z)

/-- The registered inverse as a function on the reals, of which `jax.grad` takes the derivative.
(core.py:254-255, rules.py:55-76). -/
noncomputable def Un.gr (p : Un) (z : ℝ) : ℝ := (p.g z).getD 0

open Classical in
/-- `np.log(np.abs(jax.grad(f_sum)(val)))` (core.py:254-255): `jax.grad` is taken to return the derivative.  The
custom inverses come with a formula of their own (rules.py:223-237). -/
noncomputable def Un.dlog (p : Un) (z : ℝ) : F :=
  match p with
  | .expit => if 0 < z ∧ z < 1 then
      some (Real.log (1 + Real.exp (-(Real.log (z / (1 - z))))) + Real.log (1 + Real.exp (Real.log (z / (1 - z)))))
    else none
  | .logit => some (-Real.log (1 + Real.exp (-z)) - Real.log (1 + Real.exp z))
  | .softplus => (npLog (1 + -Real.exp (-z))).map (fun a => -a)
  | p => if DifferentiableAt ℝ p.gr z ∧ deriv p.gr z ≠ 0 then some (Real.log |deriv p.gr z|) else none

/-- Addition with nan (core.py:255). -/
noncomputable def addF (a b : F) : F := do return (← a) + (← b)

/-- The ILDJ of the input: the ILDJ of the output plus the log of the derivative (core.py:255); for `reshape`
and `convert_element_type` the rule makes a new cell, with ILDJ 0 (rules.py:213-217, 249-253). -/
noncomputable def Un.ld (p : Un) (l : F) (z : F) : F :=
  match p with
  | .reshape => some 0
  | .convert => some 0
  | p => addF l (z.bind p.dlog)

/-- The rule of an elementwise primitive (core.py:248-261; rules.py:205-219, 240-254; for the custom inverses
custom_inverse.py:70-79, 90-138 with one input and output). -/
noncomputable def unRule (p : Un) : List ICell → List ICell → List ICell × List ICell × Bool
  | [none], [some (v, l)] => ([some (v.bind p.g, p.ld l v)], [some (v, l)], false)
  | [some (v, l)], [none] => ([some (v, l)], [some (v.bind p.f, some 0)], false)
  | i, o => (i, o, false)

/-- The registered binary primitives (rules.py:79-130). -/
inductive Bin where
  | add | sub | mul | div | pow
deriving DecidableEq

open Classical in
/-- The primitives; `pow` is modelled for positive bases only (the primitives registered at rules.py:79-130). -/
noncomputable def Bin.f : Bin → ℝ → ℝ → F
  | .add, l, r => some (l + r)
  | .sub, l, r => some (l - r)
  | .mul, l, r => some (l * r)
  | .div, l, r => if r = 0 then none else some (l / r)
  | .pow, l, r => if 0 < l then some (l ^ r) else none

open Classical in
/-- `f_left`: the right operand from the left one and the output (rules.py:79-125). -/
noncomputable def Bin.gl : Bin → ℝ → ℝ → F
  | .add, l, z => some (z - l)
  | .sub, l, z => some (l - z)
  | .mul, l, z => if l = 0 then none else some (z / l)
  | .div, l, z => if z = 0 then none else some (l / z)
  | .pow, l, z => do
    let a ← npLog z
    let b ← npLog l
    if b = 0 then none else some (a / b)

open Classical in
/-- `f_right`: the left operand from the right one and the output (rules.py:87-129). -/
noncomputable def Bin.gr : Bin → ℝ → ℝ → F
  | .add, r, z => some (z - r)
  | .sub, r, z => some (z + r)
  | .mul, r, z => if r = 0 then none else some (z / r)
  | .div, r, z => some (z * r)
  | .pow, r, z => if r = 0 then none else npPow z r⁻¹

/-- The ILDJ increment of `f_left`, as written (rules.py:79-125). -/
noncomputable def Bin.ll : Bin → ℝ → ℝ → F
  | .add, _, _ => some 0
  | .sub, _, _ => some 0
  | .mul, l, _ => (npLog |l|).map (fun a => -a)
  | .div, l, z => do return (← npLog l) - 2 * (← npLog z)
  | .pow, l, z => do return -(← npLog z) - (← npLog (← npLog l))

open Classical in
/-- The ILDJ increment of `f_right`, as written (rules.py:87-129). -/
noncomputable def Bin.lr : Bin → ℝ → ℝ → F
  | .add, _, _ => some 0
  | .sub, _, _ => some 0
  | .mul, r, _ => (npLog |r|).map (fun a => -a)
  | .div, r, _ => npLog |r|
  | .pow, r, z => do
    if r = 0 then none else return (r⁻¹ - 1) * (← npLog z) - (← npLog r)

/-- Two possibly undefined numbers (helper for core.py:268-287). -/
def bind2 {α : Type} (h : ℝ → ℝ → Option α) (a b : F) : Option α := a.bind (fun x => b.bind (h x))

/-- The rule of a binary primitive (core.py:268-287): with the output known the left operand is tried first. -/
noncomputable def binRule (p : Bin) : List ICell → List ICell → List ICell × List ICell × Bool
  | [some (a, la), _], [some (v, l)] =>
    ([some (a, la), some (bind2 p.gl a v, addF l (bind2 p.ll a v))], [some (v, l)], false)
  | [none, some (b, lb)], [some (v, l)] =>
    ([some (bind2 p.gr b v, addF l (bind2 p.lr b v)), some (b, lb)], [some (v, l)], false)
  | [some (a, la), some (b, lb)], [none] =>
    ([some (a, la), some (b, lb)], [some (bind2 p.f a b, some 0)], false)
  | i, o => (i, o, false)

/-- The default rule of a primitive without inverse (core.py:205-223): forward evaluation only.  The flag is the
`NotImplementedError`; a run that raises stops there, so the runs of the model include those of the code. -/
def defRule (h : List F → List F) (i o : List ICell) : List ICell × List ICell × Bool :=
  if o.all (·.isNone) then
    match i.mapM id with
    | some vs => (i, (h (vs.map (·.1))).map (fun v => some (v, some 0)), false)
    | none => (i, o, false)
  else if o.any (·.isNone) then (i, o, false)
  else (i, o, true)

/-- An operation of a program (the primitives of `ildj_registry`, core.py:226-241, 290). -/
inductive Op where
  | un (p : Un)
  | bin (p : Bin)
  | other (h : List F → List F)

/-- The rule of an operation (`ildj_registry`, core.py:226-241, 290). -/
noncomputable def Op.rule : Op → List ICell → List ICell → List ICell × List ICell × Bool
  | .un p => unRule p
  | .bin p => binRule p
  | .other h => defRule h

/-- What an operation computes (`prim.bind` of JAX). -/
noncomputable def Op.eval : Op → List F → List F
  | .un p, [x] => [x.bind p.f]
  | .bin p, [x, y] => [bind2 p.f x y]
  | .other h, xs => h xs
  | _, _ => []

/-- A program: equations over numbered variables, with literals (the jaxpr staged at core.py:161-162). -/
structure Prog where
  invars : List (Atom F)
  outvars : List (Atom F)
  eqns : List (Op × List (Atom F) × List (Atom F))

/-- The propagation problem of a program (propagate.py:273-336 on the jaxpr of core.py:171-173). -/
noncomputable def Prog.jaxpr (P : Prog) : Jaxpr ICell F Bool :=
  ⟨[], P.invars, P.outvars, P.eqns.map (fun q => ⟨q.2.1, q.2.2, q.1.rule⟩)⟩

/-- `inverse_and_ildj` (core.py:156-188), before the reduction of the ILDJs: started with unknown inputs and the
given outputs, a complete run with result `res` (one value and ILDJ per input), or the `ValueError`. -/
def InverseRun (P : Prog) (ys : List F) (res : Option (List (F × F))) : Prop :=
  ∃ s0 s, Init iOps P.jaxpr [] (P.invars.map (fun _ => none)) (ys.map (fun y => some (y, some 0))) s0 ∧
    Steps iOps P.jaxpr s0 s ∧ s.queue = [] ∧ res = (P.invars.map (Propagate.read iOps s.env)).mapM id

/-- `reduce_ildj` (core.py:181): the sum of the ILDJs of the inputs. -/
noncomputable def reduceIldj (l : List (F × F)) : F := l.foldl (fun a p => addF a p.2) (some 0)

end Verif.Inverse
