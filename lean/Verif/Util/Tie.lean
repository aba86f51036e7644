import Verif.NN.Flatten

/-!
# C47: `tie_in` and `tie_all`

`/repo/oryx/core/primitive.py:236-274`.
-/

namespace Verif.Util

open Verif.NN.Tree

variable {L A : Type}

/-- The implementation of the primitive, `primitive.py:238`; also its batching rule
(`primitive.py:244-245`), its JVP rule on primals and on tangents (`primitive.py:253-255`) and its
transpose (`primitive.py:248-250`). -/
def tieAllP (args : List L) : List L := args

/-- `tie_all`, `primitive.py:263-269`; `ls` and `t` are the leaves and the tree definition of the tuple
`args`. -/
def tieAll (args : List (Obj L A)) (ls : List L) (t : TreeDef A) : Except Err (List (Obj L A)) :=
  if ls.length ≤ 1 then .ok args
  else do
    let r ← treeUnflatten t (tieAllP ls)
    match r with
    | (.tuple out, []) => pure out
    | _ => throw .structure

/-- `tie_in`, `primitive.py:272-274`. -/
def tieIn (x y : Obj L A) (ls : List L) (t : TreeDef A) : Except Err (Obj L A) := do
  let r ← tieAll [x, y] ls t
  match r with
  | [_, b] => pure b
  | _ => throw .structure

/-- **C47.** `tie_all` returns its arguments, for all pytrees that can be flattened. -/
theorem C47_tie_all (args : List (Obj L A)) (hw : WFAll args) (ls : List L) (t : TreeDef A)
    (h : TreeFlat (.tuple args) ls t) : tieAll args ls t = .ok args := by
  unfold tieAll
  split
  · rfl
  · have := C43_tree_roundtrip_partial (.tuple args) (by simp only [WF]; exact hw) ls t h
    simp only [tieAllP, this, bind, Except.bind]; rfl

/-- **C47.** `tie_in` returns its second argument. -/
theorem C47_tie_in (x y : Obj L A) (hx : WF x) (hy : WF y) (ls : List L) (t : TreeDef A)
    (h : TreeFlat (.tuple [x, y]) ls t) : tieIn x y ls t = .ok y := by
  unfold tieIn
  rw [C47_tie_all [x, y] (by simp only [WFAll]; exact ⟨hx, hy, trivial⟩) ls t h]
  rfl

/-- **C47, derivatives and batches.** Replacing every leaf before `tie_all` is the same as replacing it
after: the primitive acts on tangents and on batches as on values. -/
theorem C47_tie_all_map {M : Type} (f : L → M) (args : List (Obj L A)) (hw : WFAll args) (ls : List L)
    (t : TreeDef A) (h : TreeFlat (.tuple args) ls t) :
    tieAll (mapAll f args) (ls.map f) t = .ok (mapAll f args) := by
  unfold tieAll
  split
  · rfl
  · have := C43_tree_map_partial f (.tuple args) (by simp only [WF]; exact hw) ls t h
    simp only [tieAllP, this, bind, Except.bind, Obj.map]; rfl

example : ∃ t, TreeFlat (.tuple [.leaf 1, .dict ["a", "b"] [.leaf 2, .none]] : Obj Nat Unit) [1, 2] t :=
  ⟨_, .tuple (.cons (.leaf 1) (.cons (.dict (.cons (.leaf 2) (.cons .none .nil))) .nil))⟩

end Verif.Util
