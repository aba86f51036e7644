import Verif.Inverse.ArrRules

/-! Cells whose slices cut the array along one axis only: their joins behave like joins of intervals. -/
namespace Verif.Inverse

variable {V : Type}

/-- The box that is cut to `s` along axis `d`. -/
def slab (A : List Nat) (d : Nat) (s : Sl) : List Sl := (fullBox A).set d s

/-- The bounds of a slice along axis `d`. -/
def bd (d : Nat) (n : ND V) : Sl := n.slices.getD d (0, 1)

/-- A non-empty slice that is cut along axis `d` only. -/
structure IsSlab (A : List Nat) (d : Nat) (n : ND V) : Prop where
  box : n.slices = slab A d (bd d n)
  lt : (bd d n).1 < (bd d n).2
  le : (bd d n).2 ≤ A.getD d 1
  shape : n.shape = n.slices.map (fun s => s.2 - s.1)

/-- `d` is an axis of arrays of shape `A` (any number for scalars), which have entries. -/
structure Axis (A : List Nat) (d : Nat) : Prop where
  ax : d < A.length ∨ A = []
  pos : ∀ m ∈ A, 0 < m

/-- All slices are such slices. -/
structure Slabs (A : List Nat) (d : Nat) (c : Cell V) : Prop where
  aval : c.aval = A
  slabs : ∀ n ∈ c.slices, IsSlab A d n

theorem fullBox_length (A : List Nat) : (fullBox A).length = A.length := by simp [fullBox]

theorem slab_getD (A : List Nat) (d : Nat) (s : Sl) (hd : d < A.length) : (slab A d s).getD d (0, 1) = s := by
  unfold slab
  rw [List.getD_eq_getElem?_getD, List.getElem?_set]
  simp [fullBox_length, hd]

theorem slab_nil (d : Nat) (s : Sl) : slab [] d s = [] := by simp [slab, fullBox]

theorem bd_nil {d : Nat} {n : ND V} (h : IsSlab [] d n) : bd d n = (0, 1) := by
  unfold bd; rw [h.box, slab_nil]; simp

theorem fullBox_slab {A : List Nat} {d : Nat} (h : Axis A d) : fullBox A = slab A d (0, A.getD d 1) := by
  rcases h.ax with hd | rfl
  · unfold slab
    apply List.ext_getElem?
    intro j
    rw [List.getElem?_set]
    split
    · rename_i hj; subst hj
      simp [fullBox_length, hd, fullBox, List.getD_eq_getElem?_getD]
    · rfl
  · rfl

theorem inBox_set {A k : List Nat} {d : Nat} {s : Sl} (hd : d < A.length) (hs : s.2 ≤ A.getD d 1) :
    inBox (slab A d s) k ↔ inBox (fullBox A) k ∧ s.1 ≤ k.getD d 0 ∧ k.getD d 0 < s.2 := by
  unfold slab
  induction A generalizing d k with
  | nil => simp at hd
  | cons m A ih =>
    rcases k with _ | ⟨i, k⟩
    · cases d <;> simp [fullBox, inBox]
    · cases d with
      | zero =>
        simp only [fullBox, List.map_cons, List.set_cons_zero, inBox, List.getD_cons_zero] at hs ⊢
        constructor
        · rintro ⟨⟨a, b⟩, c⟩; exact ⟨⟨⟨by omega, by omega⟩, c⟩, a, b⟩
        · rintro ⟨⟨-, c⟩, a, b⟩; exact ⟨⟨a, b⟩, c⟩
      | succ d =>
        simp only [fullBox, List.map_cons, List.set_cons_succ, inBox, List.getD_cons_succ] at hs ⊢
        have := ih (k := k) (d := d) (by simpa using hd) hs
        simp only [fullBox] at this
        rw [this]
        tauto

theorem inBox_slab {A k : List Nat} {d : Nat} {n : ND V} (hA : Axis A d) (h : IsSlab A d n) :
    inBox n.slices k ↔ inBox (fullBox A) k ∧ (bd d n).1 ≤ k.getD d 0 ∧ k.getD d 0 < (bd d n).2 := by
  rcases hA.ax with hd | rfl
  · rw [h.box]; exact inBox_set hd h.le
  · rw [bd_nil h, h.box, slab_nil]
    rcases k with _ | ⟨i, k⟩ <;> simp [fullBox, inBox]

theorem slab_within {A : List Nat} {d : Nat} {n : ND V} (hA : Axis A d) (h : IsSlab A d n) :
    List.Forall₂ (fun (s : Sl) m => s.2 ≤ m) n.slices A ∧ ∀ s ∈ n.slices, s.1 ≤ s.2 := by
  rw [h.box]
  have h1 := h.le
  have h2 := h.lt
  generalize bd d n = s at h1 h2
  unfold slab
  clear h
  obtain ⟨hd, hpos⟩ := hA
  clear hpos
  induction A generalizing d with
  | nil => simp [fullBox]
  | cons m A ih =>
    have key : ∀ B : List Nat, List.Forall₂ (fun (s : Sl) m => s.2 ≤ m) (fullBox B) B ∧ ∀ s ∈ fullBox B, s.1 ≤ s.2 := by
      intro B
      induction B with
      | nil => simp [fullBox]
      | cons b B ih => exact ⟨.cons (le_refl _) ih.1, by simp [fullBox]⟩
    cases d with
    | zero =>
      simp only [fullBox, List.map_cons, List.set_cons_zero, List.getD_cons_zero] at h1 ⊢
      refine ⟨.cons h1 (key A).1, ?_⟩
      intro t ht
      rcases List.mem_cons.1 ht with rfl | ht
      · omega
      · exact (key A).2 t ht
    | succ d =>
      simp only [fullBox, List.map_cons, List.set_cons_succ, List.getD_cons_succ] at h1 ⊢
      have := ih (d := d) h1 (by
        rcases hd with hd | hd
        · left; simpa using hd
        · simp at hd)
      refine ⟨.cons (le_refl _) this.1, ?_⟩
      intro t ht
      rcases List.mem_cons.1 ht with rfl | ht
      · simp
      · exact this.2 t ht

/-- The interval of a slab. -/
def sh (d : Nat) (n : ND V) : ND Unit := ⟨[bd d n], [(bd d n).2 - (bd d n).1], fun _ => ()⟩

/-- The intervals of a cell. -/
def shC (A : List Nat) (d : Nat) (c : Cell V) : Cell Unit := ⟨[A.getD d 1], c.slices.map (sh d)⟩

theorem bnd_sh (d : Nat) (n : ND V) : bnd (sh d n) = bd d n := rfl

theorem sh_piece {A : List Nat} {d : Nat} {n : ND V} (h : IsSlab A d n) : Piece (sh d n) := ⟨rfl, h.lt⟩

theorem sh_faithful {A : List Nat} {d : Nat} {n : ND V} (h : IsSlab A d n) : Faithful (fun _ => ()) (sh d n) :=
  ⟨by intro s hs; simp only [sh, List.mem_singleton] at hs; subst hs; exact Nat.le_of_lt h.lt, rfl, fun _ _ => rfl⟩

theorem sh_wf {A : List Nat} {d : Nat} {c : Cell V} (h : Slabs A d c) : WF (fun _ => ()) (shC A d c) := by
  constructor <;> intro n hn <;> simp only [shC, List.mem_map] at hn <;> obtain ⟨m, hm, rfl⟩ := hn
  · exact sh_faithful (h.slabs m hm)
  · exact .cons (h.slabs m hm).le .nil

theorem slab_key {A : List Nat} {d : Nat} {m n : ND V} (hm : IsSlab A d m) (hn : IsSlab A d n) :
    m.slices = n.slices ↔ bd d m = bd d n := by
  constructor
  · intro h; unfold bd; rw [h]
  · intro h; rw [hm.box, hn.box, h]

theorem hasKey_sh {A : List Nat} {d : Nat} (l : List (ND V)) (n : ND V) (hl : ∀ m ∈ l, IsSlab A d m) (hn : IsSlab A d n) :
    hasKey (l.map (sh d)) (sh d n) = hasKey l n := by
  rw [Bool.eq_iff_iff, hasKey_iff, hasKey_iff]
  constructor
  · rintro ⟨m, hm, h⟩
    obtain ⟨m', hm', rfl⟩ := List.mem_map.1 hm
    exact ⟨m', hm', (slab_key (hl m' hm') hn).2 (by simpa [sh] using h)⟩
  · rintro ⟨m, hm, h⟩
    exact ⟨sh d m, List.mem_map_of_mem hm, by simp [sh, (slab_key (hl m hm) hn).1 h]⟩

theorem setAdd_sh {A : List Nat} {d : Nat} (l : List (ND V)) (n : ND V) (hl : ∀ m ∈ l, IsSlab A d m) (hn : IsSlab A d n) :
    (setAdd l n).map (sh d) = setAdd (l.map (sh d)) (sh d n) := by
  unfold setAdd
  rw [hasKey_sh l n hl hn]
  split <;> simp

theorem ndLtGo_refl (acc : Bool) (l : List Sl) : ndLtGo acc l l = acc := by
  induction l with
  | nil => rfl
  | cons s l ih => simp only [ndLtGo, if_true]; exact ih

theorem ndLtGo_set (acc : Bool) (l : List Sl) (d : Nat) (s t : Sl) (hd : d < l.length) :
    ndLtGo acc (l.set d s) (l.set d t) = ndLtGo acc [s] [t] := by
  induction l generalizing d with
  | nil => simp at hd
  | cons a l ih =>
    cases d with
    | zero =>
      simp only [List.set_cons_zero, ndLtGo]
      split
      · exact ndLtGo_refl _ _
      · split
        · rfl
        · exact ndLtGo_refl _ _
    | succ d =>
      simp only [List.set_cons_succ]
      rw [ndLtGo, if_pos rfl]
      exact ih d (by simpa using hd)

theorem ndLt_sh {A : List Nat} {d : Nat} {m n : ND V} (hA : Axis A d) (hm : IsSlab A d m) (hn : IsSlab A d n) :
    ndLt (sh d m) (sh d n) = ndLt m n := by
  unfold ndLt
  rcases hA.ax with hd | rfl
  · rw [hm.box, hn.box]
    exact (ndLtGo_set false _ d _ _ (by rw [fullBox_length]; exact hd)).symm
  · rw [hm.box, hn.box, slab_nil, slab_nil]
    simp only [sh, bd_nil hm, bd_nil hn]
    rfl

theorem canConcat_refl (l : List Sl) (d : Nat) (hl : ∀ s ∈ l, s.1 < s.2) (hd : d < l.length) : canConcat l l d = false := by
  induction l generalizing d with
  | nil => simp at hd
  | cons s l ih =>
    have h1 := hl s (by simp)
    cases d with
    | zero => simp only [canConcat, Bool.and_eq_false_iff, beq_eq_false_iff_ne]; left; omega
    | succ d => simp only [canConcat, Bool.and_eq_false_iff]; right; exact ih d (fun t ht => hl t (by simp [ht])) (by simpa using hd)

theorem canConcat_set (l : List Sl) (d d' : Nat) (s t : Sl) (hl : ∀ s ∈ l, s.1 < s.2) (hd : d < l.length)
    (hd' : d' < l.length) : canConcat (l.set d s) (l.set d t) d' = (d' == d && s.2 == t.1) := by
  induction l generalizing d d' with
  | nil => simp at hd
  | cons a l ih =>
    have ha := hl a (by simp)
    cases d with
    | zero =>
      cases d' with
      | zero => simp [canConcat]
      | succ d' =>
        simp only [List.set_cons_zero, canConcat]
        rw [canConcat_refl l d' (fun t ht => hl t (by simp [ht])) (by simpa using hd')]
        simp
    | succ d =>
      cases d' with
      | zero =>
        have : (a.2 == a.1) = false := by rw [beq_eq_false_iff_ne]; omega
        simp [List.set_cons_succ, canConcat, this]
      | succ d' =>
        simp only [List.set_cons_succ, canConcat, BEq.rfl, Bool.true_and]
        rw [ih d d' (fun t ht => hl t (by simp [ht])) (by simpa using hd) (by simpa using hd')]
        have : (d' + 1 == d + 1) = (d' == d) := by rw [Bool.eq_iff_iff]; simp
        rw [this]

theorem firstDim_slab {A : List Nat} {d : Nat} {m n : ND V} (hA : Axis A d) (hm : IsSlab A d m) (hn : IsSlab A d n) :
    firstDim A.length m n = if (bd d m).2 = (bd d n).1 then some d else none := by
  unfold firstDim
  have hpos : ∀ s ∈ fullBox A, s.1 < s.2 := by
    intro s hs
    simp only [fullBox, List.mem_map] at hs
    obtain ⟨k, hk, rfl⟩ := hs
    exact hA.pos k hk
  rcases hA.ax with hd | rfl
  · have e : ∀ d' < A.length, canConcat m.slices n.slices d' = (d' == d && (bd d m).2 == (bd d n).1) := by
      intro d' hd'
      rw [hm.box, hn.box]
      exact canConcat_set _ _ _ _ _ hpos (by rw [fullBox_length]; exact hd) (by rw [fullBox_length]; exact hd')
    split
    · rename_i he
      rcases hf : (List.range A.length).find? (fun d' => canConcat m.slices n.slices d') with _ | d'
      · rw [List.find?_eq_none] at hf
        have := hf d (List.mem_range.2 hd)
        rw [e d hd] at this
        simp [he] at this
      · have h1 := List.find?_some hf
        have h2 := List.mem_range.1 (List.mem_of_find?_eq_some hf)
        rw [e d' h2] at h1
        simp only [Bool.and_eq_true, beq_iff_eq] at h1
        rw [h1.1]
    · rename_i he
      rw [List.find?_eq_none]
      intro d' hd'
      rw [e d' (List.mem_range.1 hd')]
      simp [he]
  · simp [bd_nil hm, bd_nil hn]

theorem concatSlices_set (l : List Sl) (d : Nat) (s t : Sl) (hd : d < l.length) :
    concatSlices (l.set d s) (l.set d t) d = l.set d (s.1, t.2) := by
  induction l generalizing d with
  | nil => simp at hd
  | cons a l ih =>
    cases d with
    | zero => rfl
    | succ d => simp only [List.set_cons_succ, concatSlices]; rw [ih d (by simpa using hd)]

theorem concat_slab {A : List Nat} {d : Nat} {m n : ND V} (hA : Axis A d) (hd : d < A.length) (hm : IsSlab A d m)
    (hn : IsSlab A d n) (he : (bd d m).2 = (bd d n).1) :
    IsSlab A d (concat m n d) ∧ sh d (concat m n d) = concat (sh d m) (sh d n) 0 := by
  have h1 := hm.lt
  have h2 := hn.lt
  have h3 := hn.le
  have hbox : (concat m n d).slices = slab A d ((bd d m).1, (bd d n).2) := by
    show concatSlices m.slices n.slices d = _
    rw [hm.box, hn.box]
    exact concatSlices_set _ _ _ _ (by rw [fullBox_length]; exact hd)
  have hbd : bd d (concat m n d) = ((bd d m).1, (bd d n).2) := by
    unfold bd
    rw [hbox]
    exact slab_getD A d _ hd
  have hcan : canConcat m.slices n.slices d = true := by
    have := firstDim_slab hA hm hn
    rw [if_pos he] at this
    exact (firstDim_some this).1
  refine ⟨⟨by rw [hbd]; exact hbox, by rw [hbd]; simp only; omega, by rw [hbd]; exact h3, ?_⟩, ?_⟩
  · have := (shape_concat m.slices n.slices d hcan (by rw [hm.box]; simp [slab, fullBox_length, hd])
      (slab_within hA hm).2 (slab_within hA hn).2).1
    show concatShape m.shape n.shape d = _
    rw [hm.shape, hn.shape]
    exact this
  · unfold sh
    rw [hbd]
    simp only [concat, concatSlices, concatShape, ND.mk.injEq, true_and]
    refine ⟨?_, trivial⟩
    congr 1
    omega

theorem mergeGo_sh {A : List Nat} {d : Nat} (hA : Axis A d) (acc : List (ND V)) (a : ND V) (rest : List (ND V))
    (hacc : ∀ m ∈ acc, IsSlab A d m) (ha : IsSlab A d a) (hr : ∀ m ∈ rest, IsSlab A d m) :
    (mergeGo A.length acc a rest).map (sh d) = mergeGo 1 (acc.map (sh d)) (sh d a) (rest.map (sh d)) ∧
    ∀ m ∈ mergeGo A.length acc a rest, IsSlab A d m := by
  have hadd : ∀ (l : List (ND V)) (n : ND V), (∀ m ∈ l, IsSlab A d m) → IsSlab A d n → ∀ m ∈ setAdd l n, IsSlab A d m := by
    intro l n hl hn m hm
    rcases mem_setAdd hm with h | rfl
    · exact hl m h
    · exact hn
  induction rest generalizing acc a with
  | nil => exact ⟨setAdd_sh acc a hacc ha, hadd acc a hacc ha⟩
  | cons n rest ih =>
    have hn := hr n (by simp)
    simp only [mergeGo, List.map_cons]
    have hc : firstDim 1 (sh d a) (sh d n) = if (bd d a).2 = (bd d n).1 then some 0 else none :=
      canConcat_piece (sh_piece ha) (sh_piece hn)
    rw [firstDim_slab hA ha hn, hc]
    by_cases he : (bd d a).2 = (bd d n).1
    · rw [if_pos he, if_pos he]
      simp only
      have hd : d < A.length := by
        rcases hA.ax with hd | rfl
        · exact hd
        · rw [bd_nil ha, bd_nil hn] at he; simp at he
      obtain ⟨c1, c2⟩ := concat_slab hA hd ha hn he
      rw [← c2]
      exact ih acc _ hacc c1 (fun m hm => hr m (by simp [hm]))
    · rw [if_neg he, if_neg he]
      simp only
      rw [← setAdd_sh acc a hacc ha]
      exact ih _ n (hadd acc a hacc ha) hn (fun m hm => hr m (by simp [hm]))

theorem top_sh {A : List Nat} {d : Nat} (hA : Axis A d) {c : Cell V} (hc : Slabs A d c) : (shC A d c).top = c.top := by
  unfold Cell.top shC
  rcases hs : c.slices with _ | ⟨n, _ | ⟨m, l⟩⟩
  · rfl
  · have hn := hc.slabs n (by rw [hs]; simp)
    have h1 := hn.lt
    have h2 := hn.le
    simp only [List.map_cons, List.map_nil, sh, hc.aval]
    rw [Bool.eq_iff_iff]
    simp only [beq_iff_eq, List.cons.injEq, and_true]
    rw [hn.shape, hn.box]
    rcases hA.ax with hd | rfl
    · unfold slab
      have : (List.map (fun s : Sl => s.2 - s.1) ((fullBox A).set d (bd d n))) = A.set d ((bd d n).2 - (bd d n).1) := by
        rw [List.map_set]
        congr 1
        simp [fullBox, Function.comp_def]
      rw [this]
      constructor
      · intro h
        rw [h]
        apply List.ext_getElem?
        intro j
        rw [List.getElem?_set]
        split
        · rename_i hj; subst hj; simp [hd, List.getD_eq_getElem?_getD]
        · rfl
      · intro h
        have : (A.set d ((bd d n).2 - (bd d n).1)).getD d 1 = A.getD d 1 := by rw [h]
        rw [← this]
        simp [List.getD_eq_getElem?_getD, hd]
    · rw [slab_nil, bd_nil hn]; simp
  · rfl

theorem bottom_sh (A : List Nat) (d : Nat) (c : Cell V) : (shC A d c).bottom = c.bottom := by
  unfold Cell.bottom shC; simp

theorem all_sh {d : Nat} (l : List (ND V)) (p : ND V → Bool) (q : ND Unit → Bool) (h : ∀ n ∈ l, q (sh d n) = p n) :
    (l.map (sh d)).all q = l.all p := by
  induction l with
  | nil => rfl
  | cons n l ih =>
    simp only [List.map_cons, List.all_cons]
    rw [h n (by simp), ih (fun m hm => h m (by simp [hm]))]

theorem any_sh {d : Nat} (l : List (ND V)) (p : ND V → Bool) (q : ND Unit → Bool) (h : ∀ n ∈ l, q (sh d n) = p n) :
    (l.map (sh d)).any q = l.any p := by
  induction l with
  | nil => rfl
  | cons n l ih =>
    simp only [List.map_cons, List.any_cons]
    rw [h n (by simp), ih (fun m hm => h m (by simp [hm]))]

theorem eq_sh {A : List Nat} {d : Nat} {a b : Cell V} (ha : Slabs A d a) (hb : Slabs A d b) :
    (shC A d a).eq (shC A d b) = a.eq b := by
  unfold Cell.eq
  rw [ha.aval, hb.aval]
  have h1 : (shC A d a).slices.all (hasKey (shC A d b).slices) = a.slices.all (hasKey b.slices) :=
    all_sh _ _ _ (fun n hn => hasKey_sh b.slices n hb.slabs (ha.slabs n hn))
  have h2 : (shC A d b).slices.all (hasKey (shC A d a).slices) = b.slices.all (hasKey a.slices) :=
    all_sh _ _ _ (fun n hn => hasKey_sh a.slices n ha.slabs (hb.slabs n hn))
  rw [h1, h2]
  simp [shC]

theorem lt_sh {A : List Nat} {d : Nat} (hA : Axis A d) {a b : Cell V} (ha : Slabs A d a) (hb : Slabs A d b) :
    (shC A d a).lt (shC A d b) = a.lt b := by
  unfold Cell.lt
  rw [top_sh hA ha, bottom_sh]
  congr 1
  refine all_sh _ _ _ fun n hn => ?_
  exact any_sh _ _ _ fun m hm => ndLt_sh hA (ha.slabs n hn) (hb.slabs m hm)

theorem lexLe_refl (l : List Nat) : lexLe l l = true := by
  induction l with
  | nil => rfl
  | cons a l ih => simp [lexLe, ih]

theorem lexLe_set (l : List Nat) (d a b : Nat) (hd : d < l.length) : lexLe (l.set d a) (l.set d b) = lexLe [a] [b] := by
  induction l generalizing d with
  | nil => simp at hd
  | cons x l ih =>
    cases d with
    | zero => simp [lexLe, lexLe_refl]
    | succ d => simp only [List.set_cons_succ, lexLe]; rw [ih d (by simpa using hd)]; simp [lexLe]

theorem lexLe_sh {A : List Nat} {d : Nat} {m n : ND V} (hA : Axis A d) (hm : IsSlab A d m) (hn : IsSlab A d n) :
    lexLe (starts (sh d m).slices) (starts (sh d n).slices) = lexLe (starts m.slices) (starts n.slices) := by
  rw [hm.box, hn.box]
  rcases hA.ax with hd | rfl
  · unfold slab starts
    rw [List.map_set, List.map_set, lexLe_set _ _ _ _ (by simp [fullBox, hd])]
    rfl
  · rw [slab_nil, slab_nil]
    simp [sh, bd_nil hm, bd_nil hn, starts, lexLe]

theorem union_sh {A : List Nat} {d : Nat} {a b : Cell V} (ha : Slabs A d a) (hb : Slabs A d b) :
    (unionSlices a.slices b.slices).map (sh d) = unionSlices (shC A d a).slices (shC A d b).slices := by
  unfold unionSlices
  rw [List.map_append]
  congr 1
  show _ = List.filter _ (b.slices.map (sh d))
  rw [List.filter_map]
  congr 1
  refine List.filter_congr fun n hn => ?_
  simp only [Function.comp]
  congr 1
  exact (hasKey_sh a.slices n ha.slabs (hb.slabs n hn)).symm

/-- The join of slabs is the join of their intervals. -/
theorem Joins.sh {A : List Nat} {d : Nat} (hA : Axis A d) {a b c : Cell V} (ha : Slabs A d a) (hb : Slabs A d b)
    (h : Joins a b c) : Slabs A d c ∧ Joins (shC A d a) (shC A d b) (shC A d c) := by
  cases h with
  | otherTop h => exact ⟨hb, .otherTop (by rw [top_sh hA hb]; exact h)⟩
  | otherBottom h1 h2 => exact ⟨ha, .otherBottom (by rw [top_sh hA hb]; exact h1) (by rw [bottom_sh]; exact h2)⟩
  | same h1 h2 h3 =>
    exact ⟨ha, .same (by rw [top_sh hA hb]; exact h1) (by rw [bottom_sh]; exact h2) (by rw [eq_sh ha hb]; exact h3)⟩
  | below h1 h2 h3 h4 =>
    exact ⟨ha, .below (by rw [top_sh hA hb]; exact h1) (by rw [bottom_sh]; exact h2) (by rw [eq_sh ha hb]; exact h3)
      (by rw [lt_sh hA hb ha]; exact h4)⟩
  | above h1 h2 h3 h4 h5 =>
    exact ⟨hb, .above (by rw [top_sh hA hb]; exact h1) (by rw [bottom_sh]; exact h2) (by rw [eq_sh ha hb]; exact h3)
      (by rw [lt_sh hA hb ha]; exact h4) (by rw [lt_sh hA ha hb]; exact h5)⟩
  | merge h1 h2 h3 h4 h5 n rest hperm hsort =>
    have hall : ∀ m ∈ n :: rest, IsSlab A d m := by
      intro m hm
      rcases mem_union (hperm.subset hm) with h | h
      · exact ha.slabs m h
      · exact hb.slabs m h
    obtain ⟨g1, g2⟩ := mergeGo_sh hA [] n rest (by simp) (hall n (by simp)) (fun m hm => hall m (by simp [hm]))
    have hal : a.aval.length = A.length := by rw [ha.aval]
    refine ⟨⟨ha.aval, by rw [hal]; exact g2⟩, ?_⟩
    have := Joins.merge (a := shC A d a) (b := shC A d b) (by rw [top_sh hA hb]; exact h1) (by rw [bottom_sh]; exact h2)
      (by rw [eq_sh ha hb]; exact h3) (by rw [lt_sh hA hb ha]; exact h4) (by rw [lt_sh hA ha hb]; exact h5)
      (Verif.Inverse.sh d n) (rest.map (Verif.Inverse.sh d)) (by
        rw [← union_sh ha hb, ← List.map_cons]
        exact hperm.map _) (by
        rw [← List.map_cons, List.pairwise_map]
        refine hsort.imp_of_mem ?_
        intro m k hm hk hle
        rw [lexLe_sh hA (hall m hm) (hall k hk)]; exact hle)
    have e : shC A d ⟨a.aval, mergeGo a.aval.length [] n rest⟩ =
        ⟨(shC A d a).aval, mergeGo (shC A d a).aval.length [] (Verif.Inverse.sh d n) (rest.map (Verif.Inverse.sh d))⟩ := by
      unfold shC
      rw [hal]
      simp only [Cell.mk.injEq, true_and]
      exact g1
    rw [e]
    exact this

theorem covers_sh {A : List Nat} {d : Nat} (hA : Axis A d) {c : Cell V} (hc : Slabs A d c) (k : List Nat) :
    Covers c.slices k ↔ inBox (fullBox A) k ∧ Covers (shC A d c).slices [k.getD d 0] := by
  unfold Covers shC
  constructor
  · rintro ⟨n, hn, h⟩
    rw [inBox_slab hA (hc.slabs n hn)] at h
    exact ⟨h.1, sh d n, List.mem_map_of_mem hn, by simpa [sh, inBox] using h.2⟩
  · rintro ⟨h, m, hm, h'⟩
    obtain ⟨n, hn, rfl⟩ := List.mem_map.1 hm
    refine ⟨n, hn, ?_⟩
    rw [inBox_slab hA (hc.slabs n hn)]
    exact ⟨h, by simpa [sh, inBox] using h'⟩

theorem slabs_join_covers {A : List Nat} {d : Nat} (hA : Axis A d) {a b c : Cell V} (ha : Slabs A d a) (hb : Slabs A d b)
    (h : Joins a b c) (k : List Nat) : Covers c.slices k ↔ Covers a.slices k ∨ Covers b.slices k := by
  obtain ⟨h1, h2⟩ := h.sh hA ha hb
  rw [covers_sh hA h1, covers_sh hA ha, covers_sh hA hb,
    join_coverage_1d (fun _ => ()) _ _ _ (A.getD d 1) rfl rfl (sh_wf ha) (sh_wf hb) h2]
  tauto

end Verif.Inverse
