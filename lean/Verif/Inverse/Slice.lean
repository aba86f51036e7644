/-
Model of oryx/core/interpreters/inverse/slice.py and of the cell class of
oryx/core/interpreters/inverse/core.py (lines 47-154): partial knowledge of an array as a set of slices.
-/
namespace Verif.Inverse

/-- `Slice(start, stop)` (slice.py:28-32). -/
abbrev Sl := Nat × Nat

/-- `NDSlice` (slice.py:45-72): the bounds, and the array of values.  `value` and `ildj` always have the same
shape and are treated identically, so `V` stands for the pair of them; the array is its shape and a function
of the index inside the slice. -/
structure ND (V : Type) where
  slices : List Sl
  shape : List Nat
  val : List Nat → V

/-- `Slice.__lt__` (slice.py:34-36). -/
def slLt (s t : Sl) : Bool := (s.1 > t.1 && s.2 ≤ t.2) || (s.1 ≥ t.1 && s.2 < t.2)

/-- The loop of `NDSlice.__lt__` (slice.py:103-111); `acc` is `is_less_than`. -/
def ndLtGo (acc : Bool) : List Sl → List Sl → Bool
  | s :: ss, t :: ts =>
    if s = t then ndLtGo acc ss ts
    else if slLt t s then false
    else ndLtGo (acc || slLt s t) ss ts
  | _, _ => acc

/-- `NDSlice.__lt__` (slice.py:89-111).  Slices of one cell have the same number of dimensions, so the
`ValueError` of line 102 does not arise. -/
def ndLt {V : Type} (a b : ND V) : Bool := ndLtGo false a.slices b.slices

/-- `NDSlice.can_concatenate` (slice.py:113-141). -/
def canConcat : List Sl → List Sl → Nat → Bool
  | [], [], _ => true
  | s :: ss, t :: ts, 0 => s.2 == t.1 && ss == ts
  | s :: ss, t :: ts, d + 1 => s == t && canConcat ss ts d
  | _, _, _ => false

/-- The merged bounds (slice.py:168-175). -/
def concatSlices : List Sl → List Sl → Nat → List Sl
  | s :: ss, t :: _, 0 => (s.1, t.2) :: ss
  | s :: ss, _ :: ts, d + 1 => s :: concatSlices ss ts d
  | ss, _, _ => ss

/-- The shape of `np.concatenate([a, b], axis=d)` (used at slice.py:168-176). -/
def concatShape : List Nat → List Nat → Nat → List Nat
  | m :: ms, n :: _, 0 => (m + n) :: ms
  | m :: ms, _ :: ns, d + 1 => m :: concatShape ms ns d
  | ms, _, _ => ms

/-- The entries of `np.concatenate([a, b], axis=d)` (used at slice.py:168-176). -/
def concatVal {V : Type} (ma : List Nat) (a b : List Nat → V) (d : Nat) (idx : List Nat) : V :=
  if idx.getD d 0 < ma.getD d 0 then a idx else b (idx.modify d (· - ma.getD d 0))

/-- `NDSlice.concatenate` (slice.py:143-176), when `can_concatenate` holds. -/
def concat {V : Type} (a b : ND V) (d : Nat) : ND V :=
  ⟨concatSlices a.slices b.slices d, concatShape a.shape b.shape d, concatVal a.shape a.val b.val d⟩

/-- `NDSlice.new` (slice.py:178-181). -/
def ND.new {V : Type} (shape : List Nat) (val : List Nat → V) : ND V := ⟨shape.map (fun n => (0, n)), shape, val⟩

/-- `InverseAndILDJ` (core.py:47-68): the shape of the abstract value and the frozenset of slices (elements are
compared by their bounds only, slice.py:74-80), as a list in the iteration order of the set. -/
structure Cell (V : Type) where
  aval : List Nat
  slices : List (ND V)

/-- `InverseAndILDJ.top` (core.py:70-77). -/
def Cell.top {V : Type} (c : Cell V) : Bool :=
  match c.slices with
  | [n] => n.shape == c.aval
  | _ => false

/-- `InverseAndILDJ.bottom` (core.py:79-84). -/
def Cell.bottom {V : Type} (c : Cell V) : Bool := c.slices.isEmpty

/-- `InverseAndILDJ.__lt__` (core.py:86-89). -/
def Cell.lt {V : Type} (a b : Cell V) : Bool :=
  if a.top || b.bottom then false else a.slices.all (fun s => b.slices.any (fun t => ndLt s t))

/-- Membership in a set of slices: by bounds (slice.py:74-80). -/
def hasKey {V : Type} (l : List (ND V)) (n : ND V) : Bool := l.any (fun m => m.slices == n.slices)

/-- `InverseAndILDJ.__eq__` (core.py:91-94): equality of the sets of bounds. -/
def Cell.eq {V : Type} (a b : Cell V) : Bool :=
  a.aval == b.aval && a.slices.all (hasKey b.slices) && b.slices.all (hasKey a.slices)

/-- `self.slices | other.slices`: elements of `self` win over equal ones of `other` (core.py:107-108). -/
def unionSlices {V : Type} (a b : List (ND V)) : List (ND V) := a ++ b.filter (fun n => !hasKey a n)

/-- The sort key `tuple(s.start for s in slc.slices)` (core.py:107-108). -/
def starts (l : List Sl) : List Nat := l.map (·.1)

/-- Python's comparison of tuples of numbers (the sort of core.py:107-108). -/
def lexLe : List Nat → List Nat → Bool
  | [], _ => true
  | _ :: _, [] => false
  | a :: as, b :: bs => a < b || (a == b && lexLe as bs)

/-- The first dimension along which two slices can be concatenated (core.py:112-115). -/
def firstDim {V : Type} (dims : Nat) (a b : ND V) : Option Nat :=
  (List.range dims).find? (fun d => canConcat a.slices b.slices d)

/-- `new_slices.add`: nothing if an element with the same bounds is there (core.py:117-119). -/
def setAdd {V : Type} (l : List (ND V)) (n : ND V) : List (ND V) := if hasKey l n then l else l ++ [n]

/-- The greedy loop (core.py:109-119). -/
def mergeGo {V : Type} (dims : Nat) (acc : List (ND V)) (active : ND V) : List (ND V) → List (ND V)
  | [] => setAdd acc active
  | n :: rest =>
    match firstDim dims active n with
    | some d => mergeGo dims acc (concat active n d) rest
    | none => mergeGo dims (setAdd acc active) n rest

/-- `InverseAndILDJ.join` (core.py:96-120).  The iteration order of the sets is unspecified, so the sorted
list can be any permutation of the union that is sorted by the starts. -/
inductive Joins {V : Type} (a b : Cell V) : Cell V → Prop
  | otherTop (h : b.top = true) : Joins a b b
  | otherBottom (h1 : b.top = false) (h2 : b.bottom = true) : Joins a b a
  | same (h1 : b.top = false) (h2 : b.bottom = false) (h3 : a.eq b = true) : Joins a b a
  | below (h1 : b.top = false) (h2 : b.bottom = false) (h3 : a.eq b = false) (h4 : b.lt a = true) : Joins a b a
  | above (h1 : b.top = false) (h2 : b.bottom = false) (h3 : a.eq b = false) (h4 : b.lt a = false)
      (h5 : a.lt b = true) : Joins a b b
  | merge (h1 : b.top = false) (h2 : b.bottom = false) (h3 : a.eq b = false) (h4 : b.lt a = false)
      (h5 : a.lt b = false) (n : ND V) (rest : List (ND V))
      (hperm : (n :: rest).Perm (unionSlices a.slices b.slices))
      (hsort : (n :: rest).Pairwise (fun m k => lexLe (starts m.slices) (starts k.slices) = true)) :
      Joins a b ⟨a.aval, mergeGo a.aval.length [] n rest⟩

end Verif.Inverse
