import Verif.Inverse.ArrModel
import Verif.Inverse.SliceProps
import Verif.Inverse.Graph
import Verif.NN.Index

/-! C72, values: a run of `inverse` on a program with arrays that returns gives back the inputs. -/
namespace Verif.Inverse

open Verif.Propagate

/-! ### Specification -/

/-- Two arrays are the same: same shape, same entries. -/
def FArr.Same (a b : FArr) : Prop := a.shape = b.shape ∧ ∀ k, inBox (fullBox a.shape) k → a.val k = b.val k

/-- What an operation computes (`prim.bind`). -/
noncomputable def AOp.sem : AOp → List FArr → List FArr
  | .un p, [x] => [⟨x.shape, fun k => (x.val k).bind p.f⟩]
  | .bin p, [x, y] => [⟨x.shape, fun k => bind2 p.f (x.val k) (y.val k)⟩]
  | .slice s l, [x] => [⟨sliceShape s l, fun k => x.val (shift s k)⟩]
  | .cat d, xs => [⟨catShape d (xs.map (·.shape)), catVal d (xs.map (fun x => (x.shape.getD d 0, x.val)))⟩]
  | .reshape t, [x] => [⟨t, fun k => x.val (reindex x.shape t k)⟩]
  | .tie, xs => xs
  | .sow, xs => xs
  | .other h, xs => h xs
  | _, _ => []

/-- The shapes JAX accepts, and the shapes of the results. -/
def AOp.Typed : AOp → List (List Nat) → List (List Nat) → Prop
  | .un p, [s], o => p ≠ .reshape ∧ o = [s]
  | .bin _, [s, t], o => t = s ∧ o = [s]
  | .slice st li, [s], o => List.Forall₂ (· ≤ ·) st li ∧ List.Forall₂ (· ≤ ·) li s ∧ o = [sliceShape st li]
  | .cat d, s :: ss, o => d < s.length ∧ (∀ t ∈ ss, ∃ m, t = s.set d m) ∧ o = [catShape d (s :: ss)]
  | .reshape t, [s], o => t.prod = s.prod ∧ o = [t]
  | .tie, i, o => o = i
  | .sow, i, o => o = i
  | .other _, _, _ => True
  | _, _, _ => False

/-- The operands lie on the branch that the registered inverse chooses, entry by entry; a primitive without inverse is a
function of the entries of its operands. -/
def AOp.Ok : AOp → List FArr → Prop
  | .un p, [x] => ∀ k, inBox (fullBox x.shape) k → ∃ r, x.val k = some r ∧ p.ok r
  | .bin p, [x, y] => ∀ k, inBox (fullBox x.shape) k → ∃ r s, x.val k = some r ∧ y.val k = some s ∧ p.ok r s
  | .other h, _ => ∀ xs ys, List.Forall₂ FArr.Same xs ys → List.Forall₂ FArr.Same (h xs) (h ys)
  | _, _ => True

/-- The array of an atom in an execution. -/
def AProg.arr (P : AProg) (val : Nat → List Nat → ℝ) : Atom FArr → FArr
  | .lit v => v
  | .var x => ⟨P.shp x, fun k => some (val x k)⟩
  | .drop x => ⟨P.shp x, fun k => some (val x k)⟩

/-- `val` is an execution of the program: the constants have their values and every equation computes its outputs from
its inputs. -/
structure AProg.Executes (P : AProg) (val : Nat → List Nat → ℝ) : Prop where
  consts : ∀ c ∈ P.consts, FArr.Same c.2 (P.arr val (.var c.1))
  eqns : ∀ q ∈ P.eqns, List.Forall₂ FArr.Same (q.1.sem (q.2.1.map (P.arr val))) (q.2.2.map (P.arr val))

/-- The program is well typed; the outputs of equations are variables. -/
structure AProg.Typed (P : AProg) (val : Nat → List Nat → ℝ) : Prop where
  eqns : ∀ q ∈ P.eqns, q.1.Typed (q.2.1.map (fun a => (P.arr val a).shape)) (q.2.2.map (fun a => (P.arr val a).shape))
  vars : ∀ q ∈ P.eqns, ∀ a ∈ q.2.2, ∀ v, a ≠ .lit v

/-! ### Cells -/

variable {V W : Type}

/-- Apply a function to the entries. -/
def ND.map (f : V → W) (n : ND V) : ND W := ⟨n.slices, n.shape, fun k => f (n.val k)⟩

/-- Apply a function to the entries. -/
def Cell.map (f : V → W) (c : Cell V) : Cell W := ⟨c.aval, c.slices.map (ND.map f)⟩

theorem concat_map (f : V → W) (a b : ND V) (d : Nat) : (concat a b d).map f = concat (a.map f) (b.map f) d := by
  unfold concat ND.map
  simp only [ND.mk.injEq, true_and]
  funext k
  unfold concatVal
  split <;> rfl

theorem hasKey_map (f : V → W) (l : List (ND V)) (n : ND V) : hasKey (l.map (ND.map f)) (n.map f) = hasKey l n := by
  unfold hasKey
  rw [List.any_map]
  rfl

theorem setAdd_map (f : V → W) (l : List (ND V)) (n : ND V) :
    (setAdd l n).map (ND.map f) = setAdd (l.map (ND.map f)) (n.map f) := by
  unfold setAdd
  rw [hasKey_map]
  split <;> simp

theorem mergeGo_map (f : V → W) (dims : Nat) (acc : List (ND V)) (a : ND V) (rest : List (ND V)) :
    (mergeGo dims acc a rest).map (ND.map f) =
      mergeGo dims (acc.map (ND.map f)) (a.map f) (rest.map (ND.map f)) := by
  induction rest generalizing acc a with
  | nil => exact setAdd_map f acc a
  | cons n rest ih =>
    have h1 : firstDim dims (a.map f) (n.map f) = firstDim dims a n := rfl
    simp only [mergeGo, List.map_cons, h1]
    rcases firstDim dims a n with _ | d
    · simp only; rw [ih, setAdd_map]
    · simp only; rw [ih, concat_map]

theorem union_map (f : V → W) (a b : List (ND V)) :
    (unionSlices a b).map (ND.map f) = unionSlices (a.map (ND.map f)) (b.map (ND.map f)) := by
  unfold unionSlices
  rw [List.map_append, List.filter_map]
  congr 3
  funext n
  simp [hasKey_map]

theorem top_map (f : V → W) (c : Cell V) : (c.map f).top = c.top := by
  unfold Cell.top Cell.map
  rcases c.slices with _ | ⟨n, _ | ⟨m, l⟩⟩ <;> rfl

theorem bottom_map (f : V → W) (c : Cell V) : (c.map f).bottom = c.bottom := by
  unfold Cell.bottom Cell.map
  simp

theorem lt_map (f : V → W) (a b : Cell V) : (a.map f).lt (b.map f) = a.lt b := by
  unfold Cell.lt
  rw [top_map, bottom_map]
  unfold Cell.map
  simp only [List.all_map, List.any_map]
  rfl

theorem eq_map (f : V → W) (a b : Cell V) : (a.map f).eq (b.map f) = a.eq b := by
  unfold Cell.eq Cell.map
  simp only [List.all_map]
  congr 2
  · congr 1; funext n; exact hasKey_map f _ n
  · funext n; exact hasKey_map f _ n

/-- `join` does not look at the entries. -/
theorem Joins.map (f : V → W) {a b c : Cell V} (h : Joins a b c) : Joins (a.map f) (b.map f) (c.map f) := by
  cases h with
  | otherTop h => exact .otherTop (by rw [top_map]; exact h)
  | otherBottom h1 h2 => exact .otherBottom (by rw [top_map]; exact h1) (by rw [bottom_map]; exact h2)
  | same h1 h2 h3 => exact .same (by rw [top_map]; exact h1) (by rw [bottom_map]; exact h2) (by rw [eq_map]; exact h3)
  | below h1 h2 h3 h4 =>
    exact .below (by rw [top_map]; exact h1) (by rw [bottom_map]; exact h2) (by rw [eq_map]; exact h3)
      (by rw [lt_map]; exact h4)
  | above h1 h2 h3 h4 h5 =>
    exact .above (by rw [top_map]; exact h1) (by rw [bottom_map]; exact h2) (by rw [eq_map]; exact h3)
      (by rw [lt_map]; exact h4) (by rw [lt_map]; exact h5)
  | merge h1 h2 h3 h4 h5 n rest hperm hsort =>
    have := Joins.merge (a := a.map f) (b := b.map f) (by rw [top_map]; exact h1) (by rw [bottom_map]; exact h2)
      (by rw [eq_map]; exact h3) (by rw [lt_map]; exact h4) (by rw [lt_map]; exact h5) (n.map f) (rest.map (ND.map f))
      (by
        have := hperm.map (ND.map f)
        rw [union_map] at this
        exact this)
      (by
        have := List.Pairwise.map (R := fun m k => lexLe (starts m.slices) (starts k.slices) = true)
          (S := fun m k => lexLe (starts m.slices) (starts k.slices) = true) (ND.map f) (fun _ _ h => h) hsort
        exact this)
    have h6 : (⟨a.aval, mergeGo a.aval.length [] n rest⟩ : Cell V).map f =
        ⟨(a.map f).aval, mergeGo (a.map f).aval.length [] (n.map f) (rest.map (ND.map f))⟩ := by
      simp only [Cell.map, mergeGo_map, List.map_nil]
    rw [h6]
    exact this

/-- A cell says nothing wrong about the array `a`. -/
def TellsA (a : FArr) (c : ACell) : Prop := c.aval = a.shape ∧ WF a.val (c.map Prod.fst)

theorem tellsA_bottom (a : FArr) : TellsA a ⟨a.shape, []⟩ := ⟨rfl, ⟨by simp [Cell.map], by simp [Cell.map]⟩⟩

theorem tellsA_join {jn : ACell → ACell → ACell} (hj : ∀ a b, Joins a b (jn a b)) (x : FArr) (a b : ACell)
    (ha : TellsA x a) (hb : TellsA x b) : TellsA x (jn a b) := by
  obtain ⟨h1, h2⟩ := join_faithful x.val _ _ _ (by show b.aval = a.aval; rw [ha.1, hb.1]) ha.2 hb.2 ((hj a b).map Prod.fst)
  exact ⟨by have : (jn a b).aval = a.aval := h2
            rw [this]; exact ha.1, h1⟩

theorem inBox_full {s k : List Nat} : inBox (fullBox s) k ↔ List.Forall₂ (fun i n => i < n) k s := by
  induction s generalizing k with
  | nil => cases k <;> simp [fullBox, inBox]
  | cons n s ih =>
    cases k with
    | nil => simp [fullBox, inBox]
    | cons i k =>
      have := ih (k := k)
      simp only [fullBox] at this
      simp [fullBox, inBox, this]

theorem offset_full {s k : List Nat} (h : inBox (fullBox s) k) : offset k (fullBox s) = k := by
  rw [inBox_full] at h
  induction h with
  | nil => rfl
  | cons h1 h2 ih =>
    simp only [offset, fullBox, List.map_cons, List.zipWith_cons_cons, Nat.sub_zero] at ih ⊢
    rw [ih]

theorem tellsA_full (a : FArr) (v : List Nat → F × F) (h : ∀ k, inBox (fullBox a.shape) k → (v k).1 = a.val k) :
    TellsA a (fullCell a.shape a.shape v) := by
  refine ⟨rfl, ⟨?_, ?_⟩⟩
  · intro n hn
    simp only [fullCell, Cell.map, List.map_cons, List.map_nil, List.mem_singleton] at hn
    subst hn
    refine ⟨?_, ?_, ?_⟩
    · intro s hs
      simp only [ND.map, ND.new, List.mem_map] at hs
      obtain ⟨m, -, rfl⟩ := hs
      exact Nat.zero_le _
    · simp only [ND.map, ND.new, List.map_map]
      exact (List.map_id _).symm
    · intro k hk
      have hk' : inBox (fullBox a.shape) k := hk
      have : offset k (fullBox a.shape) = k := offset_full hk'
      simp only [ND.map, ND.new]
      show (v (offset k (fullBox a.shape))).1 = _
      rw [this]
      exact h k hk'
  · intro n hn
    simp only [fullCell, Cell.map, List.map_cons, List.map_nil, List.mem_singleton] at hn
    subst hn
    simp only [ND.map, ND.new, fullCell, Cell.map]
    clear h
    induction a.shape with
    | nil => exact .nil
    | cons m s ih => exact .cons (le_refl _) ih

theorem tellsA_new (a : FArr) (v : List Nat → F) (h : ∀ k, inBox (fullBox a.shape) k → v k = a.val k) :
    TellsA a (newCell a.shape v) := tellsA_full a _ h

theorem topVal_top (c : ACell) : (topVal c).isSome = c.top := by
  unfold topVal Cell.top
  rcases c.slices with _ | ⟨n, _ | ⟨m, l⟩⟩
  · rfl
  · simp only
    split
    · rename_i h; simp [h]
    · rename_i h; simp [h]
  · rfl

theorem tellsA_top {a : FArr} {c : ACell} (h : TellsA a c) {v : List Nat → F × F} (hv : topVal c = some v) :
    ∀ k, inBox (fullBox a.shape) k → (v k).1 = a.val k := by
  have ht : c.top = true := by rw [← topVal_top, hv]; rfl
  obtain ⟨n, h1, h2, h3⟩ := top_complete a.val (c.map Prod.fst) h.2 (by rw [top_map]; exact ht)
  unfold topVal at hv
  rcases hs : c.slices with _ | ⟨m, _ | ⟨m', l⟩⟩
  · rw [hs] at hv; simp at hv
  · rw [hs] at hv
    simp only at hv
    split at hv
    · simp only [Option.some.injEq] at hv
      subst hv
      intro k hk
      have h4 := h3 k (by show inBox (fullBox c.aval) k; rw [h.1]; exact hk)
      simp only [Cell.map, hs, List.map_cons, List.map_nil, List.cons.injEq, and_true] at h1
      rw [← h1] at h4
      exact h4
    · simp at hv
  · rw [hs] at hv; simp at hv

theorem tellsA_same {a b : FArr} (h : FArr.Same a b) {c : ACell} (hc : TellsA a c) : TellsA b c := by
  refine ⟨by rw [hc.1, h.1], ⟨fun n hn => ?_, hc.2.within⟩⟩
  have hf := hc.2.faithful n hn
  refine ⟨hf.valid, hf.shape, fun k hk => ?_⟩
  rw [hf.val k hk]
  refine h.2 k ?_
  have := inBox_full_of_within (hc.2.within n hn) hk
  rw [← hc.1]; exact this

theorem FArr.Same.symm {a b : FArr} (h : FArr.Same a b) : FArr.Same b a :=
  ⟨h.1.symm, fun k hk => (h.2 k (by rw [h.1]; exact hk)).symm⟩

theorem un_tells (p : Un) (x z : FArr) (hp : p ≠ .reshape) (hsh : z.shape = x.shape)
    (hok : ∀ k, inBox (fullBox x.shape) k → ∃ r, x.val k = some r ∧ p.ok r)
    (hz : ∀ k, inBox (fullBox x.shape) k → z.val k = (x.val k).bind p.f)
    (hd : ∀ k, inBox (fullBox z.shape) k → z.val k ≠ none) (i o : ACell) (hi : TellsA x i) (ho : TellsA z o) :
    List.Forall₂ TellsA [x] (unA p [i] [o]).1 ∧ List.Forall₂ TellsA [z] (unA p [i] [o]).2.1 := by
  simp only [unA]
  rcases hiv : topVal i with _ | v <;> rcases hov : topVal o with _ | w
  · exact ⟨.cons hi .nil, .cons ho .nil⟩
  · refine ⟨.cons ?_ .nil, .cons ho .nil⟩
    have h1 : o.aval = x.shape := by rw [ho.1, hsh]
    rw [h1]
    refine tellsA_full x _ fun k hk => ?_
    have hk' : inBox (fullBox z.shape) k := by rw [hsh]; exact hk
    have h2 := tellsA_top ho hov k hk'
    obtain ⟨r, hr, hr'⟩ := hok k hk
    have h3 := hz k hk
    have h4 := hd k hk'
    rcases hzk : z.val k with _ | y
    · exact absurd hzk h4
    · rw [hzk] at h2 h3
      rw [hr] at h3 ⊢
      simp only [h2, Option.bind_some] at h3 ⊢
      exact p.left_inverse r y hr' h3.symm
  · refine ⟨.cons hi .nil, .cons ?_ .nil⟩
    have h1 : i.aval = z.shape := by rw [hi.1, hsh]
    rw [h1]
    refine tellsA_new z _ fun k hk => ?_
    have hk' : inBox (fullBox x.shape) k := by rw [← hsh]; exact hk
    rw [tellsA_top hi hiv k hk', hz k hk']
  · exact ⟨.cons hi .nil, .cons ho .nil⟩

theorem bin_tells (p : Bin) (x y z : FArr) (hxy : y.shape = x.shape) (hsh : z.shape = x.shape)
    (hok : ∀ k, inBox (fullBox x.shape) k → ∃ r s, x.val k = some r ∧ y.val k = some s ∧ p.ok r s)
    (hz : ∀ k, inBox (fullBox x.shape) k → z.val k = bind2 p.f (x.val k) (y.val k))
    (hd : ∀ k, inBox (fullBox z.shape) k → z.val k ≠ none) (l r o : ACell) (hl : TellsA x l) (hr : TellsA y r)
    (ho : TellsA z o) :
    List.Forall₂ TellsA [x, y] (binA p [l, r] [o]).1 ∧ List.Forall₂ TellsA [z] (binA p [l, r] [o]).2.1 := by
  have key : ∀ k, inBox (fullBox x.shape) k → ∃ a b c, x.val k = some a ∧ y.val k = some b ∧ z.val k = some c ∧
      p.gl a c = some b ∧ p.gr b c = some a := by
    intro k hk
    obtain ⟨a, b, ha, hb, hab⟩ := hok k hk
    have h1 := hz k hk
    have h2 := hd k (by rw [hsh]; exact hk)
    rw [ha, hb] at h1
    rcases hzk : z.val k with _ | c
    · exact absurd hzk h2
    · have h3 : p.f a b = some c := by rw [hzk] at h1; exact h1.symm
      exact ⟨a, b, c, ha, hb, rfl, p.left_inverse a b c hab h3, p.right_inverse a b c hab h3⟩
  have hself : List.Forall₂ TellsA [x, y] [l, r] ∧ List.Forall₂ TellsA [z] [o] :=
    ⟨.cons hl (.cons hr .nil), .cons ho .nil⟩
  have hoz : ∀ w, topVal o = some w → ∀ k, inBox (fullBox x.shape) k → (w k).1 = z.val k := fun w hw k hk =>
    tellsA_top ho hw k (by rw [hsh]; exact hk)
  have hry : ∀ w, topVal r = some w → ∀ k, inBox (fullBox x.shape) k → (w k).1 = y.val k := fun w hw k hk =>
    tellsA_top hr hw k (by rw [hxy]; exact hk)
  simp only [binA]
  rcases hlv : topVal l with _ | a <;> rcases hrv : topVal r with _ | b <;> rcases hov : topVal o with _ | w
  · exact hself
  · exact hself
  · exact hself
  · refine ⟨.cons ?_ (.cons hr .nil), .cons ho .nil⟩
    rw [hl.1, ho.1, hsh]
    refine tellsA_full x _ fun k hk => ?_
    obtain ⟨ra, rb, rc, e1, e2, e3, e4, e5⟩ := key k hk
    simp only [hoz w hov k hk, hry b hrv k hk, e1, e2, e3, bind2, Option.bind_some, e5]
  · exact hself
  · refine ⟨.cons hl (.cons ?_ .nil), .cons ho .nil⟩
    rw [hr.1, ho.1, hsh, ← hxy]
    refine tellsA_full y _ fun k hk => ?_
    have hk' : inBox (fullBox x.shape) k := by rw [← hxy]; exact hk
    obtain ⟨ra, rb, rc, e1, e2, e3, e4, e5⟩ := key k hk'
    simp only [hoz w hov k hk', tellsA_top hl hlv k hk', e1, e2, e3, bind2, Option.bind_some, e4]
  · refine ⟨.cons hl (.cons hr .nil), .cons ?_ .nil⟩
    rw [hl.1, ← hsh]
    refine tellsA_new z _ fun k hk => ?_
    have hk' : inBox (fullBox x.shape) k := by rw [← hsh]; exact hk
    rw [tellsA_top hl hlv k hk', hry b hrv k hk', hz k hk']
  · refine ⟨.cons hl (.cons ?_ .nil), .cons ho .nil⟩
    rw [hr.1, ho.1, hsh, ← hxy]
    refine tellsA_full y _ fun k hk => ?_
    have hk' : inBox (fullBox x.shape) k := by rw [← hxy]; exact hk
    obtain ⟨ra, rb, rc, e1, e2, e3, e4, e5⟩ := key k hk'
    simp only [hoz w hov k hk', tellsA_top hl hlv k hk', e1, e2, e3, bind2, Option.bind_some, e4]

end Verif.Inverse
