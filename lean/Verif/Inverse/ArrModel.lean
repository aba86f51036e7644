import Verif.Inverse.Model
import Verif.Inverse.Slice
import Verif.NN.Model

/-
Model of `inverse_and_ildj` for programs on arrays (oryx/core/interpreters/inverse/core.py and rules.py): the cells
are the sets of slices of `Verif.Inverse.Slice`, and the rules are those of the elementwise primitives, of `slice`,
`concatenate`, `reshape`, `convert_element_type`, `tie_all`, `sow` and the default rule.  The scalar model
(`Verif.Inverse.Model`) has cells that are unknown or complete; here a cell can be partial.
-/
namespace Verif.Inverse

open Verif.Propagate

/-- An array of floating point numbers: its shape and its entries; only indices within the shape matter
(the arrays of core.py and rules.py; dtypes are not modelled). -/
structure FArr where
  shape : List Nat
  val : List Nat → F

/-- An `InverseAndILDJ` cell (core.py:47-68): the entries of a slice are pairs of a value and its ILDJ. -/
abbrev ACell := Cell (F × F)

/-- `cell.val` and `cell.ildj` when `cell.top()` (core.py:70-77, 122-134). -/
def topVal (c : ACell) : Option (List Nat → F × F) :=
  match c.slices with
  | [n] => if n.shape = c.aval then some n.val else none
  | _ => none

/-- `InverseAndILDJ(aval, [NDSlice.new(value, ildj)])` (core.py:256-257, slice.py:178-181). -/
def fullCell (aval shape : List Nat) (v : List Nat → F × F) : ACell := ⟨aval, [ND.new shape v]⟩

/-- `InverseAndILDJ.new(val)` (core.py:140-145): the ILDJ is zero. -/
def newCell (shape : List Nat) (v : List Nat → F) : ACell := fullCell shape shape (fun i => (v i, some 0))

/-- The cell operations (core.py:86-145).  `jn` is `join`, whose result depends on the iteration order of sets: the
theorems hold for every `jn` that makes choices allowed by `Joins` (the choice is a function of the two cells: sets
with the same elements, listed in the same order, are joined in the same way).  `unknown` depends on the abstract
value of the variable. -/
def aOps (jn : ACell → ACell → ACell) (shp : Nat → List Nat) : CellOps ACell FArr where
  lt := Cell.lt
  join := jn
  unknown x := ⟨shp x, []⟩
  new v := newCell v.shape v.val

/-- The rule of an elementwise primitive (core.py:244-263) and of `convert_element_type` (rules.py:240-254), which
has ILDJ 0 (`Un.ld`).  The abstract value of the new input cell is that of the output, as written. -/
noncomputable def unA (p : Un) : List ACell → List ACell → List ACell × List ACell × Bool
  | [i], [o] =>
    match topVal i, topVal o with
    | none, some v => ([fullCell o.aval o.aval (fun k => ((v k).1.bind p.g, p.ld (v k).2 (v k).1))], [o], false)
    | some v, none => ([i], [newCell i.aval (fun k => (v k).1.bind p.f)], false)
    | _, _ => ([i], [o], false)
  | i, o => (i, o, false)

/-- The rule of a binary primitive (core.py:266-287); the operands have the shape of the output (JAX makes
broadcasting explicit). -/
noncomputable def binA (p : Bin) : List ACell → List ACell → List ACell × List ACell × Bool
  | [l, r], [o] =>
    match topVal l, topVal r, topVal o with
    | some a, _, some v =>
      ([l, fullCell r.aval o.aval (fun k => (bind2 p.gl (a k).1 (v k).1, addF (v k).2 (bind2 p.ll (a k).1 (v k).1)))],
        [o], false)
    | none, some b, some v =>
      ([fullCell l.aval o.aval (fun k => (bind2 p.gr (b k).1 (v k).1, addF (v k).2 (bind2 p.lr (b k).1 (v k).1))), r],
        [o], false)
    | some a, some b, none => ([l, r], [newCell l.aval (fun k => bind2 p.f (a k).1 (b k).1)], false)
    | _, _, _ => ([l, r], [o], false)
  | i, o => (i, o, false)

/-- The bounds of a slice (rules.py:137-140). -/
def sliceBox (starts limits : List Nat) : List Sl := List.zip starts limits

/-- The shape of a slice (`lax.slice_p.bind`, rules.py:147). -/
def sliceShape (starts limits : List Nat) : List Nat := List.zipWith (fun s l => l - s) starts limits

/-- The index in the operand of an index of the slice (`lax.slice_p.bind`, rules.py:147). -/
def shift (starts idx : List Nat) : List Nat := List.zipWith (· + ·) starts idx

/-- The rule of `slice` (rules.py:133-149), with `strides=None`. -/
def sliceA (starts limits : List Nat) : List ACell → List ACell → List ACell × List ACell × Bool
  | [i], [o] =>
    match topVal i, topVal o with
    | none, some v => ([⟨i.aval, [⟨sliceBox starts limits, o.aval, v⟩]⟩], [o], false)
    | some v, none => ([i], [newCell (sliceShape starts limits) (fun k => (v (shift starts k)).1)], false)
    | _, _ => ([i], [o], false)
  | i, o => (i, o, false)

/-- The entries of `lax.concatenate` along dimension `d` (rules.py:157): each operand with its size along `d`. -/
def catVal (d : Nat) : List (Nat × (List Nat → F)) → List Nat → F
  | [], _ => none
  | (m, v) :: rest, idx => if idx.getD d 0 < m then v idx else catVal d rest (idx.modify d (· - m))

/-- The shape of `lax.concatenate` along dimension `d` (rules.py:157). -/
def catShape (d : Nat) : List (List Nat) → List Nat
  | [] => []
  | s :: ss => s.set d ((s :: ss).map (fun t => t.getD d 0)).sum

/-- `np.split` of the output and its ILDJ at the sections (rules.py:160-173): the pieces begin at `off`; the last one
goes to the end. -/
def splitA (d : Nat) (oshape : List Nat) (v : List Nat → F × F) : Nat → List ACell → List ACell
  | _, [] => []
  | off, [c] =>
    [fullCell c.aval (oshape.set d (oshape.getD d 0 - off)) (fun k => v (k.modify d (· + off)))]
  | off, c :: c' :: cs =>
    fullCell c.aval (oshape.set d (c.aval.getD d 0)) (fun k => v (k.modify d (· + off))) ::
      splitA d oshape v (off + c.aval.getD d 0) (c' :: cs)

/-- The rule of `concatenate` (rules.py:152-177). -/
def catA (d : Nat) : List ACell → List ACell → List ACell × List ACell × Bool
  | is, [o] =>
    match is.mapM topVal with
    | some vs => (is, [newCell (catShape d (is.map (·.aval)))
        (catVal d (List.zipWith (fun (c : ACell) v => (c.aval.getD d 0, fun k => (v k).1)) is vs))], false)
    | none =>
      match topVal o with
      | some v => (splitA d o.aval v 0 is, [o], false)
      | none => (is, [o], false)
  | i, o => (i, o, false)

/-- The index in an array of shape `s` of the entry that has index `k` after reshaping to `t` (numpy). -/
def reindex (s t k : List Nat) : List Nat := (NN.indices s).getD (NN.ravel t k) []

/-- The rule of `reshape` to the shape `t` (rules.py:205-219): the ILDJ is zero in both directions. -/
def reshapeA (t : List Nat) : List ACell → List ACell → List ACell × List ACell × Bool
  | [i], [o] =>
    match topVal i, topVal o with
    | some v, none => ([i], [newCell t (fun k => (v (reindex i.aval t k)).1)], false)
    | none, some v => ([newCell i.aval (fun k => (v (reindex o.aval i.aval k)).1)], [o], false)
    | _, _ => ([i], [o], false)
  | i, o => (i, o, false)

/-- The rule of `tie_all` (rules.py:181-187). -/
def tieA (jn : ACell → ACell → ACell) (is os : List ACell) : List ACell × List ACell × Bool :=
  (List.zipWith jn is os, List.zipWith jn is os, false)

/-- The rule of `sow` (rules.py:193-203): with all inputs known and all outputs not, forward; else `tie_all`. -/
def sowA (jn : ACell → ACell → ACell) (is os : List ACell) : List ACell × List ACell × Bool :=
  match is.mapM topVal with
  | some vs =>
    if os.all (fun o => (topVal o).isNone) then
      (is, List.zipWith (fun (c : ACell) v => newCell c.aval (fun k => (v k).1)) is vs, false)
    else tieA jn is os
  | none => tieA jn is os

/-- The default rule (core.py:205-223).  The flag is the `NotImplementedError`; a run that raises stops there, so the
runs of the model include those of the code. -/
def defA (h : List FArr → List FArr) (is os : List ACell) : List ACell × List ACell × Bool :=
  if os.all (·.bottom) then
    match is.mapM topVal with
    | some vs => (is, (h (List.zipWith (fun (c : ACell) v => ⟨c.aval, fun k => (v k).1⟩) is vs)).map
        (fun a => newCell a.shape a.val), false)
    | none => (is, os, false)
  else if os.any (·.bottom) then (is, os, false)
  else (is, os, true)

/-- An operation on arrays (the primitives of `ildj_registry`, core.py:226-241, 290; rules.py:55-254). -/
inductive AOp where
  | un (p : Un)
  | bin (p : Bin)
  | slice (starts limits : List Nat)
  | cat (d : Nat)
  | reshape (t : List Nat)
  | tie
  | sow
  | other (h : List FArr → List FArr)

/-- The rule of an operation (`ildj_registry`, core.py:226-241, 290; rules.py:55-254). -/
noncomputable def AOp.rule (jn : ACell → ACell → ACell) : AOp → List ACell → List ACell → List ACell × List ACell × Bool
  | .un p => unA p
  | .bin p => binA p
  | .slice s l => sliceA s l
  | .cat d => catA d
  | .reshape t => reshapeA t
  | .tie => tieA jn
  | .sow => sowA jn
  | .other h => defA h

/-- A program on arrays: the constants with their values, the abstract values of the variables, the inputs, outputs
and equations (the jaxpr staged at core.py:161-165). -/
structure AProg where
  consts : List (Nat × FArr)
  shp : Nat → List Nat
  invars : List Nat
  outvars : List (Atom FArr)
  eqns : List (AOp × List (Atom FArr) × List (Atom FArr))

/-- The propagation problem of a program (propagate.py:273-336 on the jaxpr of core.py:161-173). -/
noncomputable def AProg.jaxpr (jn : ACell → ACell → ACell) (P : AProg) : Jaxpr ACell FArr Bool :=
  ⟨P.consts.map (fun c => Atom.var c.1), P.invars.map Atom.var, P.outvars,
    P.eqns.map (fun q => ⟨q.2.1, q.2.2, q.1.rule jn⟩)⟩

/-- `inverse_and_ildj(f)(ys)` (core.py:156-188), before the reduction of the ILDJs: a complete run with result `res`,
one array of values and ILDJs per input, or `none` for the `ValueError`. -/
def ArrayRun (jn : ACell → ACell → ACell) (P : AProg) (ys : List FArr) (res : Option (List (List Nat → F × F))) : Prop :=
  ∃ s0 s, Init (aOps jn P.shp) (P.jaxpr jn) (P.consts.map (fun c => newCell c.2.shape c.2.val))
      (P.invars.map (fun x => ⟨P.shp x, []⟩)) (ys.map (fun y => newCell y.shape y.val)) s0 ∧
    Steps (aOps jn P.shp) (P.jaxpr jn) s0 s ∧ s.queue = [] ∧ res = (P.invars.map s.env).mapM topVal

/-- `reduce_ildj` (core.py:181): the sum over the inputs of `np.sum` of the ILDJs; nan if one of them is. -/
noncomputable def reduceA (P : AProg) (res : List (List Nat → F × F)) : F :=
  ((List.zipWith (fun x v => ((NN.indices (P.shp x)).map (fun k => (v k).2))) P.invars res).flatten).foldl addF (some 0)

end Verif.Inverse
