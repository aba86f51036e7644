import Verif.Inverse.ArrModel

/-!
# `inverse` of programs on arrays with calls and `pmap`

Model of the propagation of `InverseAndILDJ` cells through calls (`/repo/oryx/core/interpreters/propagate.py:297-404`,
`/repo/oryx/core/interpreters/inverse/core.py:293-312`) and through `jax.pmap`
(`/repo/oryx/core/interpreters/inverse/core.py:315-362`), for the cells of `Verif.Inverse.ArrModel`.

Simplifications: as in `Verif.Inverse.ArrModel`; the flag of a rule tells that it raised, and a run that raises stops
there, so the runs of the model include those of the code.
-/
namespace Verif.Inverse.Mapped

open Verif.Propagate

/-- An equation: a primitive; a call of a jaxpr, given by the abstract values of its variables, its invars, outvars and
equations; or a `pmap` of a jaxpr with its number of lanes and its `in_axes` (`out_axes` are 0, core.py:346-347).
Arrays that the mapped function closes over are operands with axis `none` (propagate.py:297-325). -/
inductive NEqn where
  | prim (op : AOp) (ins outs : List (Atom FArr))
  | call (id : Nat) (shp : Nat → List Nat) (invars outvars : List (Atom FArr)) (body : List NEqn)
      (ins outs : List (Atom FArr))
  | pmap (id n : Nat) (axes : List (Option Nat)) (shp : Nat → List Nat) (invars outvars : List (Atom FArr))
      (body : List NEqn) (ins outs : List (Atom FArr))

/-- A program (the jaxpr staged at core.py:161-165). -/
structure NProg where
  shp : Nat → List Nat
  invars : List Nat
  outvars : List (Atom FArr)
  eqns : List NEqn

/-- A propagation rule (propagate.py:325). -/
abbrev ARule := List ACell → List ACell → List ACell × List ACell × Bool

/-- A complete run of `propagate` (propagate.py:273-332). -/
def CompletesA (jn : ACell → ACell → ACell) (shp : Nat → List Nat) (J : Jaxpr ACell FArr Bool) (i o : List ACell)
    (s : St ACell Bool) : Prop :=
  ∃ s0, Init (aOps jn shp) J [] i o s0 ∧ Steps (aOps jn shp) J s0 s ∧ s.queue = []

/-- A possible result of `call_rule` (propagate.py:339-361), `_pjit_propagate_rule` (propagate.py:371-404) and
`initial_ildj` (core.py:299-307): propagate through the callee and read its inputs and outputs. -/
def CallResult (jn : ACell → ACell → ACell) (shp : Nat → List Nat) (J : Jaxpr ACell FArr Bool) (i o : List ACell)
    (r : List ACell × List ACell × Bool) : Prop :=
  ∃ s, CompletesA jn shp J i o s ∧ r = (J.invars.map (read (aOps jn shp) s.env), J.outvars.map (read (aOps jn shp) s.env), false)

/-- `remove_slice` (core.py:330-336): the bounds of the first axis are dropped; the arrays are not changed.  The new
slices are made a set. -/
def remove (c : ACell) : ACell :=
  ⟨c.aval.tail, (c.slices.map (fun m => (⟨m.slices.tail, m.shape, m.val⟩ : ND (F × F)))).foldl setAdd []⟩

/-- What lane `l` of `prim.bind` with `in_axes=(0,)*len(flat_vals)` sees of a cell (core.py:341-352). -/
def cut (l : Nat) (c : ACell) : ACell :=
  ⟨c.aval, c.slices.map (fun m => ⟨m.slices, m.shape.tail, fun k => m.val (l :: k)⟩)⟩

/-- The arrays of the cell can be mapped over `n` lanes along their first axis (core.py:341-352). -/
def Fits (n : Nat) (c : ACell) : Prop := ∀ m ∈ c.slices, m.shape.head? = some n

/-- `add_slice` (core.py:323-328). -/
def addSlice (old c : ACell) : ACell :=
  ⟨old.aval, c.slices.map (fun m => ⟨(0, old.aval.headD 0) :: m.slices, m.shape, m.val⟩)⟩

/-- A possible result of `map_ildj` (core.py:315-361) for `n` lanes: every lane propagates through the mapped function;
`prim.bind` puts the cells of the lanes together along a first axis (`ri`, `ro`).  The lanes have the same structure
because the function is traced once, which is why there are `ri` and `ro`. -/
def PmapResult (jn : ACell → ACell → ACell) (n : Nat) (shp : Nat → List Nat) (J : Jaxpr ACell FArr Bool)
    (i o : List ACell) (r : List ACell × List ACell × Bool) : Prop :=
  (∀ c ∈ i ++ o, Fits n (remove c)) ∧ ∃ ri ro : List ACell, (∀ c ∈ ri ++ ro, Fits n c) ∧
    (∀ l < n, ∃ s, CompletesA jn shp J ((i.map remove).map (cut l)) ((o.map remove).map (cut l)) s ∧
      ri.map (cut l) = J.invars.map (read (aOps jn shp) s.env) ∧
      ro.map (cut l) = J.outvars.map (read (aOps jn shp) s.env)) ∧
    List.Forall₂ (fun (c d : ACell) => c.aval = [] → d.slices = []) (i ++ o) (ri ++ ro) ∧
    r = (List.zipWith addSlice i ri, List.zipWith addSlice o ro, false)

/-- What calls and `pmap`s return, for each call of the program and each callee; the choices of the order of propagation
are made here (propagate.py:339-404, core.py:315-361). -/
structure Orders where
  call : Nat → (Nat → List Nat) → Jaxpr ACell FArr Bool → ARule
  pmap : Nat → Nat → (Nat → List Nat) → Jaxpr ACell FArr Bool → ARule

/-- A call or `pmap` returns one of its possible results; it raises if there is none (propagate.py:339-404,
core.py:315-361). -/
structure Orders.Valid (jn : ACell → ACell → ACell) (σ : Orders) : Prop where
  call : ∀ id shp J i o, CallResult jn shp J i o (σ.call id shp J i o) ∨
    (¬ ∃ r, CallResult jn shp J i o r) ∧ σ.call id shp J i o = (i, o, true)
  pmap : ∀ id n shp J i o, PmapResult jn n shp J i o (σ.pmap id n shp J i o) ∨
    (¬ ∃ r, PmapResult jn n shp J i o r) ∧ σ.pmap id n shp J i o = (i, o, true)

/-- The equations of a jaxpr with their rules (propagate.py:297-325); the rule of `pmap` does not look at `in_axes`
(core.py:341-342). -/
noncomputable def eqnsOf (jn : ACell → ACell → ACell) (σ : Orders) : List NEqn → List (Eqn ACell FArr Bool)
  | [] => []
  | .prim op i o :: es => ⟨i, o, op.rule jn⟩ :: eqnsOf jn σ es
  | .call id shp iv ov body i o :: es => ⟨i, o, σ.call id shp ⟨[], iv, ov, eqnsOf jn σ body⟩⟩ :: eqnsOf jn σ es
  | .pmap id n _ shp iv ov body i o :: es => ⟨i, o, σ.pmap id n shp ⟨[], iv, ov, eqnsOf jn σ body⟩⟩ :: eqnsOf jn σ es

/-- The propagation problem of a program (propagate.py:273-336 on the jaxpr of core.py:161-173). -/
noncomputable def NProg.jaxpr (jn : ACell → ACell → ACell) (σ : Orders) (P : NProg) : Jaxpr ACell FArr Bool :=
  ⟨[], P.invars.map Atom.var, P.outvars, eqnsOf jn σ P.eqns⟩

/-- `inverse_and_ildj(f)(ys)` (core.py:156-188), before the reduction of the ILDJs: one array of values and ILDJs per
input, or `none` for the `ValueError`. -/
def NRun (jn : ACell → ACell → ACell) (σ : Orders) (P : NProg) (ys : List FArr)
    (res : Option (List (List Nat → F × F))) : Prop :=
  ∃ s, CompletesA jn P.shp (P.jaxpr jn σ) (P.invars.map (fun x => ⟨P.shp x, []⟩)) (ys.map (fun y => newCell y.shape y.val)) s ∧
    res = (P.invars.map s.env).mapM topVal

/-- `reduce_ildj` (core.py:180-181): the sum over the inputs of `np.sum` of the ILDJs; nan if one of them is. -/
noncomputable def reduceN (P : NProg) (res : List (List Nat → F × F)) : F :=
  ((List.zipWith (fun x v => ((NN.indices (P.shp x)).map (fun k => (v k).2))) P.invars res).flatten).foldl addF (some 0)

end Verif.Inverse.Mapped
