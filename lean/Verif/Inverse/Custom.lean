import Verif.Propagate.Props

/-
Model of oryx/core/interpreters/inverse/custom_inverse.py, on top of the propagation of
oryx/core/interpreters/propagate.py.  Values and ILDJs are arrays, of arbitrary types `V` and `L`; a cell is unknown or
complete (core.py:47-84; partially known cells are the subject of `Verif.Inverse.Slice`).
-/
namespace Verif.Inverse.Custom

open Verif.Propagate

variable {V L : Type}

/-- An `InverseAndILDJ` cell that is bottom or top (core.py:47-84). -/
abbrev Cell (V L : Type) := Option (V × L)

/-- The cell operations (core.py:86-145) on bottom and top cells; `new` makes a cell with ILDJ 0 (core.py:75-84). -/
def ops (zero : L) : CellOps (Cell V L) V where
  lt a b := a.isNone && b.isSome
  join a b := if b.isSome then b else a
  unknown _ := none
  new v := some (v, zero)

/-- A function with a custom inverse (custom_inverse.py:46-55, 82-92): the number of closed-over constants that come
before its inputs, the function itself, and what `def_inverse_and_ildj` was given.  The inputs and outputs are the
flattened ones; `back invals outvals outildjs` has `none` for the unknown inputs, returns `none` if the user's function
raises `NonInvertibleError`, and otherwise the new value and ILDJ of each input, `none` where the user returns `None`
(custom_inverse.py:107-112 intends that to mean "still unknown"). -/
structure Def (V L : Type) where
  nconsts : Nat
  f : List V → List V
  back : List (Option V) → List V → List L → Option (List (Option (V × L)))

/-- `def_inverse_unary(f_inv, f_ildj)` (custom_inverse.py:57-80) of a unary function without constants.  Here `finv` and
`fildj` are the two functions in force after the defaults of lines 71-72 have been filled in. -/
def unary (add : L → L → L) (f finv : V → V) (fildj : V → L) : Def V L where
  nconsts := 0
  f vs := vs.map f
  back invals outvals outildjs :=
    match invals, outvals, outildjs with
    | [none], [y], [l] => some [some (finv y, add (fildj y) l)]
    | _, _, _ => none

/-- `ildj_rule` (custom_inverse.py:90-138).  The flag is `true` when it raises: `NDSlice.new` (slice.py:178-181) is
applied to every new value (custom_inverse.py:118-121), also to the sentinel that stands for `None`, which has no
`shape` (an `AttributeError`), before the loop that would skip it (lines 122-128). -/
def rule (zero : L) (d : Def V L) (i o : List (Cell V L)) : List (Cell V L) × List (Cell V L) × Bool :=
  let consts := i.take d.nconsts
  let ins := i.drop d.nconsts
  if o.all (·.isSome) && ins.any (·.isNone) then
    -- custom_inverse.py:93-129
    match d.back (ins.map (·.map (·.1))) (o.filterMap (·.map (·.1))) (o.filterMap (·.map (·.2))) with
    | none => (i, o, false)
    | some new => (consts ++ List.zipWith (fun n old => n.or old) new ins, o, new.any (·.isNone))
  else if ins.all (·.isSome) && o.any (·.isNone) then
    -- custom_inverse.py:130-138
    (i, (d.f (ins.filterMap (·.map (·.1)))).map (fun v => some (v, zero)), false)
  else (i, o, false)

/-- The default rule of a primitive without inverse (core.py:205-223): forward evaluation only; the flag is the
`NotImplementedError`. -/
def defRule (zero : L) (h : List V → List V) (i o : List (Cell V L)) : List (Cell V L) × List (Cell V L) × Bool :=
  if o.all (·.isNone) then
    match i.mapM (m := Option) id with
    | some vs => (i, (h (vs.map (·.1))).map (fun v => some (v, zero)), false)
    | none => (i, o, false)
  else if o.any (·.isNone) then (i, o, false)
  else (i, o, true)

/-- An operation: a function with a custom inverse, or a primitive without inverse.
(custom_inverse.py:53-55, core.py:205-223). -/
inductive Op (V L : Type) where
  | custom (d : Def V L)
  | other (h : List V → List V)

/-- The rule of an operation (`ildj_registry`, custom_inverse.py:140, core.py:226-241, 290). -/
def Op.rule (zero : L) : Op V L → List (Cell V L) → List (Cell V L) → List (Cell V L) × List (Cell V L) × Bool
  | .custom d => Custom.rule zero d
  | .other h => defRule zero h

/-- What an operation computes (`CustomInverse.__call__`, custom_inverse.py:53-55: the function; the constants are
closed over). -/
def Op.eval : Op V L → List V → List V
  | .custom d, xs => d.f (xs.drop d.nconsts)
  | .other h, xs => h xs

/-- A program: equations over numbered variables, with literals (the jaxpr staged at core.py:161-162). -/
structure Prog (V L : Type) where
  invars : List (Atom V)
  outvars : List (Atom V)
  eqns : List (Op V L × List (Atom V) × List (Atom V))

/-- The propagation problem of a program (propagate.py:273-336 on the jaxpr of core.py:171-173). -/
def Prog.jaxpr (zero : L) (P : Prog V L) : Jaxpr (Cell V L) V Bool :=
  ⟨[], P.invars, P.outvars, P.eqns.map (fun q => ⟨q.2.1, q.2.2, q.1.rule zero⟩)⟩

/-- A complete run of the propagation as if no rule raised, in any order, with the value and ILDJ of each input, or
`none` if one of them is unknown (propagate.py:273-336, core.py:171-188). -/
def PropRun (zero : L) (P : Prog V L) (ys : List V) (res : Option (List (V × L))) : Prop :=
  ∃ s0 s, Init (ops zero) (P.jaxpr zero) [] (P.invars.map (fun _ => none)) (ys.map (fun y => some (y, zero))) s0 ∧
    Steps (ops zero) (P.jaxpr zero) s0 s ∧ s.queue = [] ∧
    res = (P.invars.map (Propagate.read (ops zero) s.env)).mapM (m := Option) id

/-- Iterations of the propagation none of which raises (propagate.py:291-332; an exception of a rule leaves the loop). -/
inductive CleanSteps (zero : L) (J : Jaxpr (Cell V L) V Bool) : St (Cell V L) Bool → St (Cell V L) Bool → Prop
  | refl (s) : CleanSteps zero J s s
  | tail (s t u) (h : CleanSteps zero J s t) (hs : Step (ops zero) J t u) (hu : ∀ e, u.states e ≠ some true) :
      CleanSteps zero J s u

/-- What a call of `inverse_and_ildj` does: it returns the value and ILDJ of each input, raises the `ValueError` of
core.py:177, or lets an exception of a rule through. -/
inductive Outcome (V L : Type) where
  | returns (r : List (V × L))
  | valueError
  | raises

/-- `inverse_and_ildj` (core.py:156-188) before the reduction of the ILDJs: the propagation in any order, until the queue
is empty or a rule raises. -/
def InverseRun (zero : L) (P : Prog V L) (ys : List V) (out : Outcome V L) : Prop :=
  ∃ s0 s, Init (ops zero) (P.jaxpr zero) [] (P.invars.map (fun _ => none)) (ys.map (fun y => some (y, zero))) s0 ∧
    CleanSteps zero (P.jaxpr zero) s0 s ∧
    ((s.queue = [] ∧ out = match (P.invars.map (Propagate.read (ops zero) s.env)).mapM (m := Option) id with
        | some r => .returns r
        | none => .valueError) ∨
     (∃ u e, Step (ops zero) (P.jaxpr zero) s u ∧ u.states e = some true ∧ out = .raises))

theorem CleanSteps.steps {zero : L} {J : Jaxpr (Cell V L) V Bool} {s t : St (Cell V L) Bool} (h : CleanSteps zero J s t) :
    Steps (ops zero) J s t := by
  induction h with
  | refl => exact .refl _
  | tail t u _ hs _ ih => exact .tail _ _ _ ih hs

/-- The composition of functions with custom unary inverses `(f, finv, fildj)`, in the order of application.
(calls of `CustomInverse` objects, custom_inverse.py:53-55). -/
def chain (add : L → L → L) (ds : List ((V → V) × (V → V) × (V → L))) : Prog V L :=
  ⟨[.var 0], [.var ds.length],
    ds.mapIdx (fun i d => (Op.custom (unary add d.1 d.2.1 d.2.2), [Atom.var i], [Atom.var (i + 1)]))⟩

/-- The argument at position `k`: a literal if it is given, otherwise a variable.
(literals of a jaxpr are known cells, propagate.py:162-166). -/
def argAt (k : Nat) : Option V → Atom V
  | some v => .lit v
  | none => .var k

/-- One application of a function with a custom inverse: the arguments are the literals that are given and one input for
each that is not, in order; there are `m` outputs (one call of a `CustomInverse` object, custom_inverse.py:53-55). -/
def single (d : Def V L) (given : List (Option V)) (m : Nat) : Prog V L :=
  let args := given.mapIdx argAt
  let outs := (List.range m).map (fun j => Atom.var (given.length + j))
  ⟨args.filter (fun a => a.node.isSome), outs, [(.custom d, args, outs)]⟩

end Verif.Inverse.Custom
