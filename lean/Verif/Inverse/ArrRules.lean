import Verif.Inverse.ArrProps

/-! C72, values: the rules on arrays only produce true cells. -/
namespace Verif.Inverse

open Verif.Propagate

/-! ### `slice` -/

theorem slice_offset {st li k : List Nat} (h : List.Forall₂ (· ≤ ·) st li) (hk : inBox (sliceBox st li) k) :
    inBox (fullBox (sliceShape st li)) (offset k (sliceBox st li)) ∧ shift st (offset k (sliceBox st li)) = k := by
  induction h generalizing k with
  | nil => cases k <;> simp_all [inBox, fullBox, sliceShape, offset, shift, sliceBox]
  | @cons a b st li hab _ ih =>
    cases k with
    | nil => simp [sliceBox, inBox] at hk
    | cons i k =>
      simp only [sliceBox, List.zip_cons_cons, inBox] at hk
      obtain ⟨h1, h2⟩ := ih hk.2
      simp only [sliceShape, fullBox, sliceBox, offset, shift] at h1 h2
      simp only [sliceBox, List.zip_cons_cons, sliceShape, List.zipWith_cons_cons, fullBox, List.map_cons, offset, inBox,
        shift, h2, List.cons.injEq, and_true]
      exact ⟨⟨⟨Nat.zero_le _, by omega⟩, h1⟩, by omega⟩

theorem slice_shift {st li s k : List Nat} (h : List.Forall₂ (· ≤ ·) st li) (h' : List.Forall₂ (· ≤ ·) li s)
    (hk : inBox (fullBox (sliceShape st li)) k) : inBox (fullBox s) (shift st k) := by
  induction h generalizing k s with
  | nil => cases h'; cases k <;> simp_all [inBox, fullBox, sliceShape, shift]
  | @cons a b st li hab _ ih =>
    cases h' with
    | @cons _ c _ s hbc h2 =>
    cases k with
    | nil => simp [sliceShape, fullBox, inBox] at hk
    | cons i k =>
      simp only [sliceShape, List.zipWith_cons_cons, fullBox, List.map_cons, inBox] at hk
      have := ih h2 (k := k) (by simpa [fullBox, sliceShape] using hk.2)
      simp only [shift, fullBox] at this
      simp only [shift, List.zipWith_cons_cons, fullBox, List.map_cons, inBox]
      exact ⟨⟨Nat.zero_le _, by omega⟩, this⟩

theorem slice_within {st li s : List Nat} (h : List.Forall₂ (· ≤ ·) st li) (h' : List.Forall₂ (· ≤ ·) li s) :
    List.Forall₂ (fun (b : Sl) m => b.2 ≤ m) (sliceBox st li) s := by
  induction h generalizing s with
  | nil => cases h'; exact .nil
  | cons hab _ ih =>
    cases h' with
    | cons hbc h2 => exact .cons hbc (ih h2)

theorem slice_valid {st li : List Nat} (h : List.Forall₂ (· ≤ ·) st li) : ∀ b ∈ sliceBox st li, b.1 ≤ b.2 := by
  induction h with
  | nil => simp [sliceBox]
  | cons hab _ ih =>
    intro b hb
    simp only [sliceBox, List.zip_cons_cons, List.mem_cons] at hb
    rcases hb with rfl | hb
    · exact hab
    · exact ih b hb

theorem slice_shape (st li : List Nat) : sliceShape st li = (sliceBox st li).map (fun s => s.2 - s.1) := by
  unfold sliceShape sliceBox
  rw [List.map_zip_eq_zipWith]
  rfl

theorem slice_cell_tells (st li : List Nat) (x z : FArr) (h : List.Forall₂ (· ≤ ·) st li)
    (h' : List.Forall₂ (· ≤ ·) li x.shape) (hsh : z.shape = sliceShape st li)
    (hz : ∀ k, inBox (fullBox z.shape) k → z.val k = x.val (shift st k)) (v : List Nat → F × F)
    (hv : ∀ k, inBox (fullBox z.shape) k → (v k).1 = z.val k) :
    TellsA x ⟨x.shape, [⟨sliceBox st li, sliceShape st li, v⟩]⟩ := by
  refine ⟨rfl, ⟨?_, ?_⟩⟩
  · intro n hn
    simp only [Cell.map, List.map_cons, List.map_nil, List.mem_singleton] at hn
    subst hn
    refine ⟨slice_valid h, slice_shape st li, ?_⟩
    intro k hk
    obtain ⟨h1, h2⟩ := slice_offset h hk
    simp only [ND.map]
    rw [hv _ (by rw [hsh]; exact h1), hz _ (by rw [hsh]; exact h1), h2]
  · intro n hn
    simp only [Cell.map, List.map_cons, List.map_nil, List.mem_singleton] at hn
    subst hn
    exact slice_within h h'

theorem slice_tells (st li : List Nat) (x z : FArr) (h : List.Forall₂ (· ≤ ·) st li)
    (h' : List.Forall₂ (· ≤ ·) li x.shape) (hsh : z.shape = sliceShape st li)
    (hz : ∀ k, inBox (fullBox z.shape) k → z.val k = x.val (shift st k)) (i o : ACell) (hi : TellsA x i)
    (ho : TellsA z o) :
    List.Forall₂ TellsA [x] (sliceA st li [i] [o]).1 ∧ List.Forall₂ TellsA [z] (sliceA st li [i] [o]).2.1 := by
  simp only [sliceA]
  rcases hiv : topVal i with _ | v <;> rcases hov : topVal o with _ | w
  · exact ⟨.cons hi .nil, .cons ho .nil⟩
  · refine ⟨.cons ?_ .nil, .cons ho .nil⟩
    rw [hi.1, ho.1, hsh]
    exact slice_cell_tells st li x z h h' hsh hz w (tellsA_top ho hov)
  · refine ⟨.cons hi .nil, .cons ?_ .nil⟩
    rw [← hsh]
    refine tellsA_new z _ fun k hk => ?_
    rw [hz k hk]
    exact tellsA_top hi hiv _ (slice_shift h h' (by rw [← hsh]; exact hk))
  · exact ⟨.cons hi .nil, .cons ho .nil⟩

/-! ### `reshape` -/

theorem mem_indices_box {s k : List Nat} : k ∈ NN.indices s ↔ inBox (fullBox s) k := by
  rw [NN.mem_indices, inBox_full]

theorem ravel_indices (s : List Nat) (j : Nat) (hj : j < s.prod) :
    (NN.indices s).getD j [] ∈ NN.indices s ∧ NN.ravel s ((NN.indices s).getD j []) = j := by
  have hl : j < (NN.indices s).length := by rw [NN.length_indices]; exact hj
  have hg : (NN.indices s).getD j [] = (NN.indices s)[j] := by
    rw [List.getD_eq_getElem?_getD, List.getElem?_eq_getElem hl]; rfl
  have hmem : (NN.indices s)[j] ∈ NN.indices s := List.getElem_mem hl
  rw [hg]
  refine ⟨hmem, ?_⟩
  let x : NN.Arr := ⟨s, (List.range s.prod).map (fun i : Nat => (i : ℝ))⟩
  have hx : x.WF := by simp [NN.Arr.WF, x]
  have h1 := NN.eq_map_indices hx
  have h2 : x.data[j]? = ((NN.indices s).map x.get)[j]? := by
    have := congrArg NN.Arr.data h1
    rw [this]
  rw [List.getElem?_map (l := NN.indices s), List.getElem?_eq_getElem hl] at h2
  have h3 := NN.ravel_lt hmem
  simp only [x, List.getElem?_map, List.getElem?_range hj, Option.map_some, Option.some.injEq, NN.Arr.get,
    List.getD_eq_getElem?_getD, List.getElem?_range h3, Option.getD_some] at h2
  exact_mod_cast h2.symm

theorem reindex_mem {s t k : List Nat} (hp : t.prod = s.prod) (hk : inBox (fullBox t) k) :
    inBox (fullBox s) (reindex s t k) ∧ reindex t s (reindex s t k) = k := by
  have hk' := mem_indices_box.2 hk
  have h1 := NN.ravel_lt hk'
  obtain ⟨h2, h3⟩ := ravel_indices s (NN.ravel t k) (by omega)
  refine ⟨mem_indices_box.1 h2, ?_⟩
  unfold reindex
  rw [h3, List.getD_eq_getElem?_getD, NN.indices_ravel hk']
  rfl

theorem reshape_tells (t : List Nat) (x z : FArr) (hp : t.prod = x.shape.prod) (hsh : z.shape = t)
    (hz : ∀ k, inBox (fullBox t) k → z.val k = x.val (reindex x.shape t k)) (i o : ACell) (hi : TellsA x i)
    (ho : TellsA z o) :
    List.Forall₂ TellsA [x] (reshapeA t [i] [o]).1 ∧ List.Forall₂ TellsA [z] (reshapeA t [i] [o]).2.1 := by
  simp only [reshapeA]
  rcases hiv : topVal i with _ | v <;> rcases hov : topVal o with _ | w
  · exact ⟨.cons hi .nil, .cons ho .nil⟩
  · refine ⟨.cons ?_ .nil, .cons ho .nil⟩
    rw [hi.1, ho.1, hsh]
    refine tellsA_new x _ fun k hk => ?_
    obtain ⟨h1, h2⟩ := reindex_mem hp.symm hk
    rw [tellsA_top ho hov _ (by rw [hsh]; exact h1), hz _ h1, h2]
  · refine ⟨.cons hi .nil, .cons ?_ .nil⟩
    rw [← hsh]
    refine tellsA_new z _ fun k hk => ?_
    rw [hsh] at hk
    obtain ⟨h1, -⟩ := reindex_mem hp hk
    rw [hz k hk, hi.1, hsh, tellsA_top hi hiv _ h1]
  · exact ⟨.cons hi .nil, .cons ho .nil⟩

/-! ### `concatenate` -/

theorem inBox_getD {s k : List Nat} : inBox (fullBox s) k ↔ k.length = s.length ∧ ∀ j < s.length, k.getD j 0 < s.getD j 0 := by
  rw [inBox_full]
  constructor
  · intro h
    refine ⟨h.length_eq, ?_⟩
    induction h with
    | nil => intro j hj; simp at hj
    | cons h1 _ ih =>
      intro j hj
      cases j with
      | zero => simpa using h1
      | succ j => simpa using ih j (by simpa using hj)
  · induction s generalizing k with
    | nil => rintro ⟨h, -⟩; have : k = [] := List.length_eq_zero_iff.1 h; subst this; exact .nil
    | cons n s ih =>
      rintro ⟨h1, h2⟩
      cases k with
      | nil => simp at h1
      | cons i k =>
        refine .cons (by simpa using h2 0 (by simp)) (ih ⟨by simpa using h1, fun j hj => ?_⟩)
        simpa using h2 (j + 1) (by simpa using hj)

theorem getD_set (s : List Nat) (d m j : Nat) (hd : d < s.length) :
    (s.set d m).getD j 0 = if j = d then m else s.getD j 0 := by
  simp only [List.getD_eq_getElem?_getD, List.getElem?_set]
  by_cases h : j = d
  · subst h; simp [hd]
  · rw [if_neg (fun h' => h h'.symm), if_neg h]

theorem getD_modify (k : List Nat) (f : Nat → Nat) (d j : Nat) (hd : d < k.length) :
    (k.modify d f).getD j 0 = if j = d then f (k.getD d 0) else k.getD j 0 := by
  simp only [List.getD_eq_getElem?_getD, List.getElem?_modify]
  by_cases h : j = d
  · subst h; simp [hd]
  · rw [if_neg h]
    have h' : ¬ d = j := fun h' => h h'.symm
    simp [h']

/-- The indices of an array with size `m` along dimension `d`. -/
theorem box_set {s k : List Nat} {d m : Nat} (hd : d < s.length) : inBox (fullBox (s.set d m)) k ↔
    k.length = s.length ∧ k.getD d 0 < m ∧ ∀ j < s.length, j ≠ d → k.getD j 0 < s.getD j 0 := by
  rw [inBox_getD, List.length_set]
  refine and_congr_right fun _ => ⟨fun h => ⟨?_, fun j hj hjd => ?_⟩, fun h j hj => ?_⟩
  · have := h d hd; rwa [getD_set _ _ _ _ hd, if_pos rfl] at this
  · have := h j hj; rwa [getD_set _ _ _ _ hd, if_neg hjd] at this
  · rw [getD_set _ _ _ _ hd]
    split
    · rename_i h'; subst h'; exact h.1
    · rename_i h'; exact h.2 j hj h'

theorem box_modify {s k : List Nat} {d m m' : Nat} (f : Nat → Nat) (hd : d < s.length)
    (hk : inBox (fullBox (s.set d m)) k) (hf : f (k.getD d 0) < m') : inBox (fullBox (s.set d m')) (k.modify d f) := by
  rw [box_set hd] at hk ⊢
  obtain ⟨h1, h2, h3⟩ := hk
  have hd' : d < k.length := by omega
  refine ⟨by rw [List.length_modify, h1], ?_, fun j hj hjd => ?_⟩
  · rw [getD_modify _ _ _ _ hd', if_pos rfl]; exact hf
  · rw [getD_modify _ _ _ _ hd', if_neg hjd]; exact h3 j hj hjd

theorem modify_modify_id (k : List Nat) (d : Nat) (f g : Nat → Nat) (h : g (f (k.getD d 0)) = k.getD d 0) :
    (k.modify d f).modify d g = k := by
  apply List.ext_getElem
  · simp
  · intro j h1 h2
    simp only [List.getElem_modify]
    split
    · rename_i hj
      subst hj
      rw [List.getD_eq_getElem?_getD, List.getElem?_eq_getElem h2] at h
      simpa using h
    · rfl

theorem modify_modify_add (k : List Nat) (d m off : Nat) :
    (k.modify d (· + m)).modify d (· + off) = k.modify d (· + (off + m)) := by
  apply List.ext_getElem
  · simp
  · intro j h1 h2
    simp only [List.getElem_modify]
    split
    · omega
    · rfl

/-- The sizes along dimension `d`. -/
def sizes (d : Nat) (xs : List FArr) : Nat := (xs.map (fun x => x.shape.getD d 0)).sum

theorem cat_forward (d : Nat) (s : List Nat) (hd : d < s.length) (xs : List FArr) (is : List ACell)
    (vs : List (List Nat → F × F)) (hs : ∀ x ∈ xs, x.shape = s.set d (x.shape.getD d 0))
    (hi : List.Forall₂ TellsA xs is) (hv : is.mapM topVal = some vs) (k : List Nat)
    (hk : inBox (fullBox (s.set d (sizes d xs))) k) :
    catVal d (List.zipWith (fun (c : ACell) v => (c.aval.getD d 0, fun k => (v k).1)) is vs) k =
      catVal d (xs.map (fun x => (x.shape.getD d 0, x.val))) k := by
  induction hi generalizing vs k with
  | nil => simp at hv; subst hv; rfl
  | @cons x c xs is h1 h2 ih =>
    simp only [List.mapM_cons, Option.bind_eq_bind, Option.bind_eq_some_iff, Option.pure_def, Option.some.injEq] at hv
    obtain ⟨v, hv1, vs, hv2, rfl⟩ := hv
    have hx := hs x (by simp)
    simp only [List.zipWith_cons_cons, List.map_cons, catVal, h1.1]
    by_cases hlt : k.getD d 0 < x.shape.getD d 0
    · rw [if_pos hlt, if_pos hlt]
      refine tellsA_top h1 hv1 k ?_
      rw [hx, box_set hd]
      rw [box_set hd] at hk
      exact ⟨hk.1, hlt, hk.2.2⟩
    · rw [if_neg hlt, if_neg hlt]
      refine ih vs (fun y hy => hs y (by simp [hy])) hv2 _ (box_modify _ hd hk ?_)
      have := (box_set hd).1 hk |>.2.1
      simp only [sizes, List.map_cons, List.sum_cons] at this ⊢
      omega

theorem cat_backward (d : Nat) (s : List Nat) (hd : d < s.length) (w : List Nat → F × F) (oshape : List Nat)
    (hos : oshape = s.set d (oshape.getD d 0)) (xs : List FArr) (is : List ACell) (off : Nat)
    (hs : ∀ x ∈ xs, x.shape = s.set d (x.shape.getD d 0))
    (hi : List.Forall₂ TellsA xs is) (hoff : off + sizes d xs = oshape.getD d 0)
    (hw : ∀ k, inBox (fullBox (s.set d (sizes d xs))) k →
      (w (k.modify d (· + off))).1 = catVal d (xs.map (fun x => (x.shape.getD d 0, x.val))) k) :
    List.Forall₂ TellsA xs (splitA d oshape w off is) := by
  have hset : ∀ m, oshape.set d m = s.set d m := by
    intro m; rw [hos, List.set_set]
  have hhead : ∀ (x : FArr) (xs : List FArr), x.shape = s.set d (x.shape.getD d 0) →
      (∀ k, inBox (fullBox (s.set d (sizes d (x :: xs)))) k →
        (w (k.modify d (· + off))).1 = catVal d ((x :: xs).map (fun x => (x.shape.getD d 0, x.val))) k) →
      TellsA x (fullCell x.shape (oshape.set d (x.shape.getD d 0)) (fun k => w (k.modify d (· + off)))) := by
    intro x xs hx hw
    rw [hset, ← hx]
    refine tellsA_full x _ fun k hk => ?_
    rw [hx, box_set hd] at hk
    have hk' : inBox (fullBox (s.set d (sizes d (x :: xs)))) k := by
      rw [box_set hd]
      refine ⟨hk.1, ?_, hk.2.2⟩
      simp only [sizes, List.map_cons, List.sum_cons]
      omega
    rw [hw k hk']
    simp only [List.map_cons, catVal]
    rw [if_pos hk.2.1]
  induction hi generalizing off with
  | nil => exact .nil
  | @cons x c xs is h1 h2 ih =>
    have hx := hs x (by simp)
    cases h2 with
    | nil =>
      simp only [splitA]
      refine .cons ?_ .nil
      have : oshape.getD d 0 - off = x.shape.getD d 0 := by
        simp only [sizes, List.map_cons, List.map_nil, List.sum_cons, List.sum_nil] at hoff; omega
      rw [this, h1.1]
      exact hhead x [] hx hw
    | @cons x' c' xs is h3 h4 =>
      simp only [splitA]
      refine .cons ?_ ?_
      · rw [h1.1]
        exact hhead x (x' :: xs) hx hw
      · have hw' : ∀ k, inBox (fullBox (s.set d (sizes d (x' :: xs)))) k →
            (w (k.modify d (· + (off + x.shape.getD d 0)))).1 =
              catVal d ((x' :: xs).map (fun x => (x.shape.getD d 0, x.val))) k := by
          intro k hk
          have hkl : d < k.length := by rw [(box_set hd).1 hk |>.1]; exact hd
          have hk2 : inBox (fullBox (s.set d (sizes d (x :: x' :: xs)))) (k.modify d (· + x.shape.getD d 0)) := by
            refine box_modify _ hd hk ?_
            have := (box_set hd).1 hk |>.2.1
            simp only [sizes, List.map_cons, List.sum_cons] at this ⊢
            omega
          have := hw _ hk2
          rw [modify_modify_add] at this
          rw [this]
          conv_lhs => rw [List.map_cons]
          simp only [catVal]
          rw [getD_modify _ _ _ _ hkl, if_pos rfl, if_neg (by omega), modify_modify_id _ _ _ _ (by simp)]
        rw [h1.1]
        have hhead' : ∀ (x_1 : FArr) (xs_1 : List FArr), x_1.shape = s.set d (x_1.shape.getD d 0) →
            (∀ k, inBox (fullBox (s.set d (sizes d (x_1 :: xs_1)))) k →
              (w (k.modify d (· + (off + x.shape.getD d 0)))).1 =
                catVal d ((x_1 :: xs_1).map (fun x => (x.shape.getD d 0, x.val))) k) →
            TellsA x_1 (fullCell x_1.shape (oshape.set d (x_1.shape.getD d 0))
              (fun k => w (k.modify d (· + (off + x.shape.getD d 0))))) := by
          intro y ys hy hw
          rw [hset, ← hy]
          refine tellsA_full y _ fun k hk => ?_
          rw [hy, box_set hd] at hk
          have hk' : inBox (fullBox (s.set d (sizes d (y :: ys)))) k := by
            rw [box_set hd]
            refine ⟨hk.1, ?_, hk.2.2⟩
            simp only [sizes, List.map_cons, List.sum_cons]
            omega
          rw [hw k hk']
          simp only [List.map_cons, catVal]
          rw [if_pos hk.2.1]
        refine ih (off + x.shape.getD d 0) (fun y hy => hs y (by simp [hy])) ?_ hw' hhead'
        simp only [sizes, List.map_cons, List.sum_cons] at hoff ⊢
        omega

theorem catShape_eq (d : Nat) (s : List Nat) (ss : List (List Nat)) (hd : d < s.length) (xs : List FArr)
    (hx : xs.map (·.shape) = s :: ss) : catShape d (s :: ss) = s.set d (sizes d xs) := by
  simp only [catShape, sizes]
  rw [← hx, List.map_map]
  rfl

theorem forall2_aval {xs : List FArr} {is : List ACell} (h : List.Forall₂ TellsA xs is) :
    is.map (·.aval) = xs.map (·.shape) := by
  induction h with
  | nil => rfl
  | cons h1 _ ih => simp [h1.1, ih]

theorem cat_tells (d : Nat) (s : List Nat) (ss : List (List Nat)) (xs : List FArr) (z : FArr)
    (hx : xs.map (·.shape) = s :: ss) (hd : d < s.length) (hss : ∀ t ∈ ss, ∃ m, t = s.set d m)
    (hsh : z.shape = catShape d (s :: ss))
    (hz : ∀ k, inBox (fullBox z.shape) k → z.val k = catVal d (xs.map (fun x => (x.shape.getD d 0, x.val))) k)
    (is : List ACell) (o : ACell) (hi : List.Forall₂ TellsA xs is) (ho : TellsA z o) :
    List.Forall₂ TellsA xs (catA d is [o]).1 ∧ List.Forall₂ TellsA [z] (catA d is [o]).2.1 := by
  have hs : ∀ x ∈ xs, x.shape = s.set d (x.shape.getD d 0) := by
    intro x hxm
    have : x.shape ∈ s :: ss := by rw [← hx]; exact List.mem_map.2 ⟨x, hxm, rfl⟩
    rcases List.mem_cons.1 this with h | h
    · rw [h]
      apply List.ext_getElem
      · simp
      · intro j h1 h2
        rw [List.getElem_set]
        split
        · rename_i hj; subst hj
          rw [List.getD_eq_getElem?_getD, List.getElem?_eq_getElem h1]; rfl
        · rfl
    · obtain ⟨m, hm⟩ := hss _ h
      rw [hm, getD_set _ _ _ _ hd, if_pos rfl]
  have hcs : z.shape = s.set d (sizes d xs) := by rw [hsh]; exact catShape_eq d s ss hd xs hx
  simp only [catA]
  rcases hiv : is.mapM topVal with _ | vs
  · simp only
    rcases hov : topVal o with _ | w
    · exact ⟨hi, .cons ho .nil⟩
    · refine ⟨?_, .cons ho .nil⟩
      have hg : o.aval.getD d 0 = sizes d xs := by rw [ho.1, hcs, getD_set _ _ _ _ hd, if_pos rfl]
      refine cat_backward d s hd w o.aval ?_ xs is 0 hs hi (by rw [hg, Nat.zero_add]) ?_
      · rw [hg, ho.1, hcs]
      · intro k hk
        have hk' : inBox (fullBox z.shape) k := by rw [hcs]; exact hk
        rw [← hz k hk', ← tellsA_top ho hov k hk']
        have : k.modify d (· + 0) = k := by
          apply List.ext_getElem
          · simp
          · intro j h1 h2; simp [List.getElem_modify]
        rw [this]
  · refine ⟨hi, .cons ?_ .nil⟩
    rw [forall2_aval hi, hx, ← hsh]
    refine tellsA_new z _ fun k hk => ?_
    rw [hz k hk]
    exact cat_forward d s hd xs is vs hs hi hiv k (by rw [← hcs]; exact hk)

/-! ### `tie_all`, `sow`, default rule -/

theorem tie_tells {jn : ACell → ACell → ACell} (hj : ∀ a b, Joins a b (jn a b)) (xs zs : List FArr)
    (hz : List.Forall₂ FArr.Same xs zs) (is os : List ACell) (hi : List.Forall₂ TellsA xs is)
    (ho : List.Forall₂ TellsA zs os) :
    List.Forall₂ TellsA xs (List.zipWith jn is os) ∧ List.Forall₂ TellsA zs (List.zipWith jn is os) := by
  induction hz generalizing is os with
  | nil => cases hi; cases ho; exact ⟨.nil, .nil⟩
  | cons h1 _ ih =>
    cases hi with | cons h2 h3 =>
    cases ho with | cons h4 h5 =>
    obtain ⟨r1, r2⟩ := ih _ _ h3 h5
    exact ⟨.cons (tellsA_join hj _ _ _ h2 (tellsA_same h1.symm h4)) r1,
      .cons (tellsA_same h1 (tellsA_join hj _ _ _ h2 (tellsA_same h1.symm h4))) r2⟩

theorem sow_tells {jn : ACell → ACell → ACell} (hj : ∀ a b, Joins a b (jn a b)) (xs zs : List FArr)
    (hz : List.Forall₂ FArr.Same xs zs) (is os : List ACell) (hi : List.Forall₂ TellsA xs is)
    (ho : List.Forall₂ TellsA zs os) :
    List.Forall₂ TellsA xs (sowA jn is os).1 ∧ List.Forall₂ TellsA zs (sowA jn is os).2.1 := by
  unfold sowA
  rcases hv : is.mapM topVal with _ | vs
  · exact tie_tells hj xs zs hz is os hi ho
  · simp only
    split
    · refine ⟨hi, ?_⟩
      clear ho
      induction hz generalizing is vs with
      | nil => cases hi; exact .nil
      | cons h1 _ ih =>
        cases hi with | cons h2 h3 =>
        simp only [List.mapM_cons, Option.bind_eq_bind, Option.bind_eq_some_iff, Option.pure_def, Option.some.injEq] at hv
        obtain ⟨v, hv1, vs, hv2, rfl⟩ := hv
        refine .cons (tellsA_same h1 ?_) (ih _ h3 vs hv2)
        show TellsA _ (newCell _ _)
        rw [h2.1]
        exact tellsA_new _ _ (tellsA_top h2 hv1)
    · exact tie_tells hj xs zs hz is os hi ho

theorem mapM_same (xs : List FArr) (is : List ACell) (vs : List (List Nat → F × F)) (hi : List.Forall₂ TellsA xs is)
    (hv : is.mapM topVal = some vs) :
    List.Forall₂ FArr.Same xs (List.zipWith (fun (c : ACell) v => (⟨c.aval, fun k => (v k).1⟩ : FArr)) is vs) := by
  induction hi generalizing vs with
  | nil => simp at hv; subst hv; exact .nil
  | cons h1 _ ih =>
    simp only [List.mapM_cons, Option.bind_eq_bind, Option.bind_eq_some_iff, Option.pure_def, Option.some.injEq] at hv
    obtain ⟨v, hv1, vs, hv2, rfl⟩ := hv
    exact .cons ⟨h1.1.symm, fun k hk => (tellsA_top h1 hv1 k hk).symm⟩ (ih vs hv2)

theorem forall2_same_trans {as bs cs : List FArr} (h1 : List.Forall₂ FArr.Same as bs)
    (h2 : List.Forall₂ FArr.Same as cs) : List.Forall₂ FArr.Same bs cs := by
  induction h1 generalizing cs with
  | nil => cases h2; exact .nil
  | cons h3 _ ih =>
    cases h2 with | cons h4 h5 =>
    refine .cons ⟨h3.1.symm.trans h4.1, fun k hk => ?_⟩ (ih h5)
    rw [← h3.1] at hk
    rw [← h3.2 k hk, h4.2 k hk]

theorem def_tells (h : List FArr → List FArr)
    (hok : ∀ xs ys, List.Forall₂ FArr.Same xs ys → List.Forall₂ FArr.Same (h xs) (h ys)) (xs zs : List FArr)
    (hz : List.Forall₂ FArr.Same (h xs) zs) (is os : List ACell) (hi : List.Forall₂ TellsA xs is)
    (ho : List.Forall₂ TellsA zs os) :
    List.Forall₂ TellsA xs (defA h is os).1 ∧ List.Forall₂ TellsA zs (defA h is os).2.1 := by
  unfold defA
  split
  · rcases hv : is.mapM topVal with _ | vs
    · exact ⟨hi, ho⟩
    · refine ⟨hi, ?_⟩
      have h1 := forall2_same_trans hz (hok _ _ (mapM_same xs is vs hi hv))
      clear hz ho
      simp only
      generalize h (List.zipWith (fun (c : ACell) v => (⟨c.aval, fun k => (v k).1⟩ : FArr)) is vs) = ws at h1
      induction h1 with
      | nil => exact .nil
      | cons h2 _ ih =>
        refine .cons (tellsA_same h2.symm ?_) ih
        exact tellsA_new _ _ (fun _ _ => rfl)
  · split <;> exact ⟨hi, ho⟩

/-! ### All operations -/

/-- On a branch of the inverse the rule of an operation turns true cells into true cells. -/
theorem AOp.rule_tells {jn : ACell → ACell → ACell} (hj : ∀ a b, Joins a b (jn a b)) (op : AOp) (xs zs : List FArr)
    (hty : op.Typed (xs.map (·.shape)) (zs.map (·.shape))) (hok : op.Ok xs)
    (he : List.Forall₂ FArr.Same (op.sem xs) zs)
    (hd : ∀ z ∈ zs, ∀ k, inBox (fullBox z.shape) k → z.val k ≠ none)
    (is os : List ACell) (hi : List.Forall₂ TellsA xs is) (ho : List.Forall₂ TellsA zs os) :
    List.Forall₂ TellsA xs (op.rule jn is os).1 ∧ List.Forall₂ TellsA zs (op.rule jn is os).2.1 := by
  cases op with
  | un p =>
    obtain _ | ⟨x, _ | ⟨x', xs⟩⟩ := xs
    · exact absurd hty id
    · cases he with | @cons _ z _ _ h1 h2 =>
      cases h2
      cases hi with | cons hi h2 =>
      cases h2
      cases ho with | cons ho h2 =>
      cases h2
      exact un_tells p x z hty.1 h1.1.symm hok (fun k hk => (h1.2 k hk).symm) (hd z (by simp)) _ _ hi ho
    · exact absurd hty id
  | bin p =>
    obtain _ | ⟨x, _ | ⟨y, _ | ⟨x', xs⟩⟩⟩ := xs
    · exact absurd hty id
    · exact absurd hty id
    · cases he with | @cons _ z _ _ h1 h2 =>
      cases h2
      cases hi with | cons hx h2 =>
      cases h2 with | cons hy h2 =>
      cases h2
      cases ho with | cons ho h2 =>
      cases h2
      exact bin_tells p x y z hty.1 h1.1.symm hok (fun k hk => (h1.2 k hk).symm) (hd z (by simp)) _ _ _ hx hy ho
    · exact absurd hty id
  | slice st li =>
    obtain _ | ⟨x, _ | ⟨x', xs⟩⟩ := xs
    · exact absurd hty id
    · cases he with | @cons _ z _ _ h1 h2 =>
      cases h2
      cases hi with | cons hi h2 =>
      cases h2
      cases ho with | cons ho h2 =>
      cases h2
      exact slice_tells st li x z hty.1 hty.2.1 h1.1.symm
        (fun k hk => (h1.2 k (by show inBox (fullBox (sliceShape st li)) k; rw [← h1.1] at hk; exact hk)).symm) _ _ hi ho
    · exact absurd hty id
  | cat d =>
    obtain _ | ⟨x, xs⟩ := xs
    · exact absurd hty id
    · cases he with | @cons _ z _ _ h1 h2 =>
      cases h2
      cases ho with | cons ho h2 =>
      cases h2
      refine cat_tells d x.shape (xs.map FArr.shape) (x :: xs) z rfl hty.1 hty.2.1 h1.1.symm ?_ is _ hi ho
      intro k hk
      exact (h1.2 k (by rw [h1.1]; exact hk)).symm
  | reshape t =>
    obtain _ | ⟨x, _ | ⟨x', xs⟩⟩ := xs
    · exact absurd hty id
    · cases he with | @cons _ z _ _ h1 h2 =>
      cases h2
      cases hi with | cons hi h2 =>
      cases h2
      cases ho with | cons ho h2 =>
      cases h2
      exact reshape_tells t x z hty.1 h1.1.symm (fun k hk => (h1.2 k hk).symm) _ _ hi ho
    · exact absurd hty id
  | tie => exact tie_tells hj xs zs he is os hi ho
  | sow => exact sow_tells hj xs zs he is os hi ho
  | other h => exact def_tells h hok xs zs he is os hi ho

/-- Every cell of every state of a run is true of the execution that produced the outputs. -/
theorem array_true {jn : ACell → ACell → ACell} (hj : ∀ a b, Joins a b (jn a b)) (P : AProg)
    (val : Nat → List Nat → ℝ) (hex : P.Executes val) (hty : P.Typed val)
    (hok : ∀ q ∈ P.eqns, q.1.Ok (q.2.1.map (P.arr val))) (s0 s : St ACell Bool)
    (h0 : Init (aOps jn P.shp) (P.jaxpr jn) (P.consts.map (fun c => newCell c.2.shape c.2.val))
      (P.invars.map (fun x => ⟨P.shp x, []⟩))
      ((P.outvars.map (P.arr val)).map (fun y => newCell y.shape y.val)) s0)
    (hs : Steps (aOps jn P.shp) (P.jaxpr jn) s0 s) : ∀ x, TellsA (P.arr val (.var x)) (s.env x) := by
  refine propagate_sound (aOps jn P.shp) (P.jaxpr jn) (fun x => TellsA (P.arr val (.var x))) TellsA ?_ _ _ _ ?_ ?_ ?_ s0 s h0 hs
  · refine ⟨fun x a b ha hb => tellsA_join hj _ a b ha hb, fun x => tellsA_bottom _, fun v => tellsA_new v _ (fun _ _ => rfl), ?_⟩
    intro q' hq' i o hi ho
    simp only [AProg.jaxpr, List.mem_map] at hq'
    obtain ⟨q, hq, rfl⟩ := hq'
    have conv : ∀ (R : Atom FArr → ACell → Prop), (∀ a c, R a c → TellsA (P.arr val a) c) →
        ∀ (as : List (Atom FArr)) (cs : List ACell), List.Forall₂ R as cs →
        List.Forall₂ TellsA (as.map (P.arr val)) cs := by
      intro R hR as cs hh
      induction hh with
      | nil => exact .nil
      | @cons a c as cs h1 h2 ih => exact .cons (hR _ _ h1) ih
    have hnone : ∀ z ∈ q.2.2.map (P.arr val), ∀ k, inBox (fullBox z.shape) k → z.val k ≠ none := by
      intro z hz k _
      obtain ⟨a, ha, rfl⟩ := List.mem_map.1 hz
      cases a with
      | lit v => exact absurd rfl (hty.vars q hq _ ha v)
      | var x => simp [AProg.arr]
      | drop x => simp [AProg.arr]
    have ht := hty.eqns q hq
    have e1 : q.2.1.map (fun a => (P.arr val a).shape) = (q.2.1.map (P.arr val)).map (·.shape) := by rw [List.map_map]; rfl
    have e2 : q.2.2.map (fun a => (P.arr val a).shape) = (q.2.2.map (P.arr val)).map (·.shape) := by rw [List.map_map]; rfl
    rw [e1, e2] at ht
    obtain ⟨r1, r2⟩ := q.1.rule_tells hj _ _ ht (hok q hq) (hex.eqns q hq) hnone i o
      (conv _ (by intro a c hac; cases a <;> exact hac) _ _ hi) (conv _ (by intro a c hac; cases a <;> exact hac) _ _ ho)
    have fin : ∀ (as : List (Atom FArr)) (cs : List ACell), List.Forall₂ TellsA (as.map (P.arr val)) cs →
        ∀ (k x : Nat) (c : ACell), as[k]? = some (Atom.var x) → cs[k]? = some c → TellsA (P.arr val (.var x)) c := by
      intro as
      induction as with
      | nil => intro cs _ k x c h1; simp at h1
      | cons a as ih =>
        intro cs hh k x c h1 h2
        cases hh with | cons h3 h4 =>
        cases k with
        | zero => simp at h1 h2; subst h1 h2; exact h3
        | succ k => exact ih _ h4 k x c (by simpa using h1) (by simpa using h2)
    exact ⟨fin _ _ r1, fin _ _ r2⟩
  · intro k x c h1 h2
    simp only [AProg.jaxpr, List.getElem?_map] at h1 h2
    rcases hk : P.consts[k]? with _ | a <;> rw [hk] at h1 h2 <;> simp at h1 h2
    subst h2
    have h3 := hex.consts a (List.mem_of_getElem? hk)
    rw [h1] at h3
    exact tellsA_same h3 (tellsA_new _ _ (fun _ _ => rfl))
  · intro k x c h1 h2
    simp only [AProg.jaxpr, List.getElem?_map] at h1 h2
    rcases hk : P.invars[k]? with _ | a <;> rw [hk] at h1 h2 <;> simp at h1 h2
    subst h2 h1
    exact tellsA_bottom _
  · intro k x c h1 h2
    rw [List.map_map, List.getElem?_map] at h2
    have : P.outvars[k]? = some (Atom.var x) := h1
    rw [this] at h2
    simp at h2
    subst h2
    exact tellsA_new _ _ (fun _ _ => rfl)

/-- **C72**, values.  Any program on arrays over the registered elementwise and binary primitives, `slice`, `concatenate`,
`reshape`, `convert_element_type`, `tie_all`, `sow` and primitives without inverse, with any shapes and any sharing of
variables: if `val` is an execution of it with every entry on the branch the registered inverse chooses, then every
run of `inverse` on the outputs of that execution, in any order of propagation and whatever order the sets of slices
are iterated in, either fails or returns arrays whose entries are exactly those of the inputs. -/
theorem C72_values {jn : ACell → ACell → ACell} (hj : ∀ a b, Joins a b (jn a b)) (P : AProg)
    (val : Nat → List Nat → ℝ) (hex : P.Executes val) (hty : P.Typed val)
    (hok : ∀ q ∈ P.eqns, q.1.Ok (q.2.1.map (P.arr val))) (res : List (List Nat → F × F))
    (h : ArrayRun jn P (P.outvars.map (P.arr val)) (some res)) :
    List.Forall₂ (fun x v => ∀ k, inBox (fullBox (P.shp x)) k → (v k).1 = some (val x k)) P.invars res := by
  obtain ⟨s0, s, h0, hs, -, hres⟩ := h
  have ht := array_true hj P val hex hty hok s0 s h0 hs
  clear h0 hs
  generalize P.invars = inv at hres ⊢
  induction inv generalizing res with
  | nil => simp at hres; subst hres; exact .nil
  | cons x xs ih =>
    replace hres := hres.symm
    simp only [List.map_cons, List.mapM_cons, Option.bind_eq_bind, Option.bind_eq_some_iff, Option.pure_def,
      Option.some.injEq] at hres
    obtain ⟨v, hv1, vs, hv2, rfl⟩ := hres
    exact .cons (fun k hk => tellsA_top (ht x) hv1 k hk) (ih vs hv2.symm)

end Verif.Inverse
