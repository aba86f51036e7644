import Mathlib.Algebra.BigOperators.Ring.Finset
import Mathlib.Algebra.BigOperators.Group.List.Basic
import Mathlib.Data.Fintype.BigOperators
import Mathlib.Data.List.Nodup
import Mathlib.Data.List.Basic

/-
Arrays, the meaning of `jnp.einsum`, and `compose_einsums`
(oryx/experimental/autoconj/einsum.py).

Values are elements of a commutative semiring `R` (exact arithmetic: floating point rounding is not
modelled).
-/

namespace Verif.Autoconj

/-- An index name: one of the 52 letters of `_EINSUM_RANGE` (einsum.py:57), in that order. -/
abbrev Letter := Fin 52

/-- An array: its shape and its entries.  Only the entries at index tuples inside the shape mean
anything; `mkArr` sets the others to 0 (the arrays of `jnp.einsum`, einsum.py:138-141). -/
structure Arr (R : Type) where
  shape : List ℕ
  val : List ℕ → R

/-- `idx` is an index tuple of an array of shape `shape` (einsum.py:138-141). -/
def InBox (idx shape : List ℕ) : Prop := List.Forall₂ (· < ·) idx shape

instance (idx shape : List ℕ) : Decidable (InBox idx shape) :=
  inferInstanceAs (Decidable (List.Forall₂ _ _ _))

variable {R : Type}

/-- The array of shape `shape` with entries `f` (einsum.py:138-141). -/
def mkArr [Zero R] (shape : List ℕ) (f : List ℕ → R) : Arr R :=
  ⟨shape, fun idx => if InBox idx shape then f idx else 0⟩

/-- An einsum formula, after `split_einsum_formula` (einsum.py:149-152): the index names of every
operand and those of the result. -/
structure Formula where
  ins : List (List Letter)
  out : List Letter
deriving DecidableEq, Repr

/-! ### Formula strings -/

/-- The characters of a formula string (einsum.py:149-159). -/
inductive Tok where
  | letter (l : Letter)
  | comma
  | arrow
deriving DecidableEq

/-- `input_formula.split(',')` (einsum.py:152): the pieces of index names between the commas. -/
def splitComma : List Tok → Option (List (List Letter))
  | [] => some [[]]
  | .letter l :: ts =>
    match splitComma ts with
    | some (p :: ps) => some ((l :: p) :: ps)
    | _ => none
  | .comma :: ts => (splitComma ts).bind fun ps => some ([] :: ps)
  | .arrow :: _ => none

/-- The index names of an output formula (einsum.py:149-152). -/
def lettersOnly : List Tok → Option (List Letter)
  | [] => some []
  | .letter l :: ts => (lettersOnly ts).bind fun ls => some (l :: ls)
  | _ :: _ => none

/-- `formula.split('->')` into exactly two pieces (einsum.py:151). -/
def splitArrow : List Tok → Option (List Tok × List Tok)
  | [] => none
  | .arrow :: ts => if .arrow ∈ ts then none else some ([], ts)
  | t :: ts => (splitArrow ts).bind fun p => some (t :: p.1, p.2)

/-- `split_einsum_formula` (einsum.py:149-152); `none`: not a formula. -/
def splitFormula (ts : List Tok) : Option Formula :=
  (splitArrow ts).bind fun p => (splitComma p.1).bind fun ins => (lettersOnly p.2).bind fun out =>
    some ⟨ins, out⟩

/-- `','.join(input_formulas)` (einsum.py:158). -/
def joinComma : List (List Letter) → List Tok
  | [] => []
  | [s] => s.map .letter
  | s :: ss => s.map .letter ++ .comma :: joinComma ss

/-- `reconstitute_einsum_formula` (einsum.py:155-159). -/
def reconstitute (f : Formula) : List Tok := joinComma f.ins ++ .arrow :: f.out.map .letter

/-! ### The meaning of an einsum -/

/-- The size of an index name: the size of the first axis that carries it (`jnp.einsum` of JAX, einsum.py:141). -/
def dimOf (ins : List (List Letter)) (shapes : List (List ℕ)) (l : Letter) : ℕ :=
  ((ins.flatten.zip shapes.flatten).lookup l).getD 1

/-- The shape of `jnp.einsum(formula, *args)` (einsum.py:98-106, 141); `none` where `jnp.einsum` raises:
the number of operands or of their axes does not fit the formula, an index name has two sizes, an
output name is repeated or does not occur in an input.  Simplification: axes of size 1 do not
broadcast. -/
def einsumShape (f : Formula) (shapes : List (List ℕ)) : Option (List ℕ) :=
  if shapes = f.ins.map (·.map (dimOf f.ins shapes)) ∧ f.out.Nodup ∧ (∀ l ∈ f.out, l ∈ f.ins.flatten) then
    some (f.out.map (dimOf f.ins shapes))
  else none

/-- The index that the output index tuple `o` gives to the output name `l` (`jnp.einsum` of JAX, einsum.py:141). -/
def pin (out : List Letter) (o : List ℕ) (l : Letter) : ℕ := ((out.zip o).lookup l).getD 0

/-- The values an index name takes in the sum for the output entry `o`: output names are fixed by `o`,
the other input names run over their axis (and names that do not occur are fixed at 0).
(`jnp.einsum` of JAX, einsum.py:141). -/
def choices (f : Formula) (d : Letter → ℕ) (o : List ℕ) (l : Letter) : Finset ℕ :=
  if l ∈ f.out then {pin f.out o l} else if l ∈ f.ins.flatten then Finset.range (d l) else {0}

/-- The product of the operand entries selected by the assignment `σ` of indices to names.
(`jnp.einsum` of JAX, einsum.py:141). -/
def term [CommSemiring R] (ins : List (List Letter)) (args : List (Arr R)) (σ : Letter → ℕ) : R :=
  (List.zipWith (fun s a => a.val (s.map σ)) ins args).prod

/-- An entry of an einsum: the sum, over all indices of the names that are not in the output, of the
product of the operands (`jnp.einsum` of JAX, einsum.py:141). -/
def einsumVal [CommSemiring R] (f : Formula) (d : Letter → ℕ) (args : List (Arr R)) (o : List ℕ) : R :=
  ∑ σ ∈ Fintype.piFinset (choices f d o), term f.ins args σ

/-- `jnp.einsum(formula, *args)`, the meaning of an `Einsum` (einsum.py:138-141). -/
def einsum [CommSemiring R] (f : Formula) (args : List (Arr R)) : Option (Arr R) :=
  (einsumShape f (args.map Arr.shape)).map fun s =>
    mkArr s (einsumVal f (dimOf f.ins (args.map Arr.shape)) args)

/-! ### `compose_einsums` -/

/-- A key of `subs_map` (einsum.py:213): `idx` or `idx + '_child'`. -/
inductive Key where
  | par (l : Letter)
  | child (l : Letter)
deriving DecidableEq

/-- The state of `subs_map` and `str_iterator` (einsum.py:210-213): the entries, newest first, and how many
letters have been drawn. -/
structure Subs where
  map : List (Key × Letter)
  next : ℕ

/-- `subs_map[k]` (einsum.py:213): a new key draws the next letter; `none`: the letters are exhausted
(`StopIteration` inside a generator expression, a `RuntimeError`). -/
def Subs.get (s : Subs) (k : Key) : Option (Letter × Subs) :=
  match s.map.lookup k with
  | some l => some (l, s)
  | none => if h : s.next < 52 then some (⟨s.next, h⟩, ⟨(k, ⟨s.next, h⟩) :: s.map, s.next + 1⟩) else none

/-- `''.join(subs_map[idx] for idx in subs)` (einsum.py:220, 222, 228-229). -/
def Subs.getAll : List Key → Subs → Option (List Letter × Subs)
  | [], s => some ([], s)
  | k :: ks, s => (s.get k).bind fun p => (Subs.getAll ks p.2).bind fun q => some (p.1 :: q.1, q.2)

/-- The list comprehensions at einsum.py:219-221 and 227-231. -/
def Subs.getAlls : List (List Key) → Subs → Option (List (List Letter) × Subs)
  | [], s => some ([], s)
  | ks :: kss, s =>
    (Subs.getAll ks s).bind fun p => (Subs.getAlls kss p.2).bind fun q => some (p.1 :: q.1, q.2)

/-- `subs_map.update((pidx + '_child', subs_map[idx]) for …)` (einsum.py:224-225). -/
def Subs.update : List (Letter × Letter) → Subs → Option Subs
  | [], s => some s
  | (c, p) :: cps, s => (s.get (.par p)).bind fun q => Subs.update cps ⟨(.child c, q.1) :: q.2.map, q.2.next⟩

/-- `compose_einsums` (einsum.py:162-238) on the formulas; the operands of the result are
`left_args + child_args + right_args` (line 236).  `none`: an exception (no operand number `numLeft`,
inconsistent sizes, or more than 52 letters are needed). -/
def compose (parent : Formula) (numLeft : ℕ) (child : Formula) : Option Formula :=
  match parent.ins[numLeft]? with
  | none => none
  | some old =>
    if child.out.length = old.length then
      (Subs.getAlls ((parent.ins.take numLeft ++ parent.ins.drop (numLeft + 1)).map (·.map .par))
        ⟨[], 0⟩).bind fun p =>
      (Subs.getAll (parent.out.map .par) p.2).bind fun o =>
      (Subs.update (child.out.zip old) o.2).bind fun s =>
      (Subs.getAlls (child.ins.map (·.map .child)) s).bind fun c =>
        some ⟨p.1.take numLeft ++ c.1 ++ p.1.drop numLeft, o.1⟩
    else none

end Verif.Autoconj
