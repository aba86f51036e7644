import Verif.Inverse.ArrSlab

/-! Reading entries of cells, and what joining a slice does to them. -/
namespace Verif.Inverse

variable {V : Type}

open Classical in
/-- The entry of a cell at an index: that of the first slice with this index. -/
noncomputable def look (c : Cell V) (k : List Nat) : Option V :=
  (c.slices.find? (fun n => decide (inBox n.slices k))).map (fun n => n.val (offset k n.slices))

theorem look_none {c : Cell V} {k : List Nat} : look c k = none ↔ ¬ Covers c.slices k := by
  unfold look Covers
  rw [Option.map_eq_none_iff, List.find?_eq_none]
  constructor
  · rintro h ⟨n, hn, hb⟩; exact h n hn (by simpa using hb)
  · intro h n hn hb; exact h ⟨n, hn, by simpa using hb⟩

theorem look_ne_none {c : Cell V} {k : List Nat} : look c k ≠ none ↔ Covers c.slices k := by
  rw [ne_eq, look_none, not_not]

theorem look_wf {E : List Nat → V} {c : Cell V} (h : WF E c) {k : List Nat} (hk : Covers c.slices k) :
    look c k = some (E k) := by
  obtain ⟨v, h1⟩ := Option.ne_none_iff_exists'.1 (look_ne_none.2 hk)
  rw [h1]
  unfold look at h1
  obtain ⟨n, hf, hn⟩ := Option.map_eq_some_iff.1 h1
  have h2 := List.find?_some hf
  rw [← hn, (h.faithful n (List.mem_of_find?_eq_some hf)).val k (by simpa using h2)]

/-- A cell that is in order: slabs that do not touch, with consistent entries. -/
structure Good (A : List Nat) (d : Nat) (c : Cell V) : Prop where
  slabs : Slabs A d c
  tidy : Tidy (shC A d c)
  wf : ∃ E, WF E c

theorem exists_index {A : List Nat} {d : Nat} (hA : Axis A d) (j : Nat) (hj : j < A.getD d 1) :
    ∃ k, inBox (fullBox A) k ∧ k.getD d 0 = j := by
  rcases hA.ax with hd | rfl
  · refine ⟨(List.replicate A.length 0).set d j, ?_, by simp [List.getD_eq_getElem?_getD, hd]⟩
    rw [inBox_getD]
    refine ⟨by simp, fun i hi => ?_⟩
    rw [List.getD_eq_getElem?_getD, List.getElem?_set]
    split
    · rename_i h; subst h
      simp only [List.length_replicate, hd, if_true, Option.getD_some]
      rw [List.getD_eq_getElem?_getD, List.getElem?_eq_getElem hd] at hj ⊢
      simpa using hj
    · rw [List.getElem?_replicate, if_pos hi, List.getD_eq_getElem?_getD, List.getElem?_eq_getElem hi]
      exact hA.pos _ (List.getElem_mem hi)
  · refine ⟨[], by simp [fullBox, inBox], ?_⟩
    simp at hj ⊢; omega

theorem slab_faithful {A : List Nat} {d : Nat} {p : ND V} (hA : Axis A d) (hp : IsSlab A d p) :
    Faithful (fun k => p.val (offset k p.slices)) p :=
  ⟨(slab_within hA hp).2, hp.shape, fun _ _ => rfl⟩

theorem slabs_one {A : List Nat} {d : Nat} {p : ND V} (hp : IsSlab A d p) : Slabs A d ⟨A, [p]⟩ :=
  ⟨rfl, fun n hn => by simp only [List.mem_singleton] at hn; subst hn; exact hp⟩

theorem good_one {A : List Nat} {d : Nat} {p : ND V} (hA : Axis A d) (hp : IsSlab A d p) : Good A d ⟨A, [p]⟩ := by
  refine ⟨slabs_one hp, ⟨by simp [Gaps, shC], ?_⟩, fun k => p.val (offset k p.slices), ⟨?_, ?_⟩⟩
  · intro n hn; simp only [shC, List.map_cons, List.map_nil, List.mem_singleton] at hn; subst hn; exact sh_piece hp
  · intro n hn; simp only [List.mem_singleton] at hn; subst hn; exact slab_faithful hA hp
  · intro n hn; simp only [List.mem_singleton] at hn; subst hn; exact (slab_within hA hp).1

theorem good_bottom (A : List Nat) (d : Nat) (E : List Nat → V) : Good A d (⟨A, []⟩ : Cell V) :=
  ⟨⟨rfl, by simp⟩, ⟨by simp [shC, Gaps], by simp [shC]⟩, E, ⟨by simp, by simp⟩⟩

theorem new_slab {A : List Nat} {d : Nat} (hA : Axis A d) (v : List Nat → V) : IsSlab A d (ND.new A v) := by
  have hb : (ND.new A v).slices = slab A d (0, A.getD d 1) := fullBox_slab hA
  have hl : 0 < A.getD d 1 := by
    rcases hA.ax with hd | rfl
    · rw [List.getD_eq_getElem?_getD, List.getElem?_eq_getElem hd]; exact hA.pos _ (List.getElem_mem hd)
    · simp
  have hbd : bd d (ND.new A v) = (0, A.getD d 1) := by
    rcases hA.ax with hd | rfl
    · unfold bd; rw [hb]; exact slab_getD A d _ hd
    · simp [bd, ND.new]
  exact ⟨by rw [hbd]; exact hb, by rw [hbd]; exact hl, by rw [hbd], by simp [ND.new, Function.comp_def]⟩

/-- Joining a slice that is not known yet. -/
theorem good_join {A : List Nat} {d : Nat} (hA : Axis A d) {a c : Cell V} {p : ND V} (ha : Good A d a)
    (hp : IsSlab A d p) (hd : ∀ k, Covers a.slices k → ¬ inBox p.slices k) (h : Joins a ⟨A, [p]⟩ c) :
    Good A d c ∧ (∀ k, inBox p.slices k → look c k = some (p.val (offset k p.slices))) ∧
      ∀ k, ¬ inBox p.slices k → look c k = look a k := by
  classical
  obtain ⟨h1, h2⟩ := h.sh hA ha.slabs (slabs_one hp)
  have hdis : ∀ m ∈ (shC A d a).slices, Disj m (sh d p) := by
    intro m hm
    obtain ⟨n, hn, rfl⟩ := List.mem_map.1 hm
    by_contra hne
    simp only [Disj, bnd_sh, not_or, Nat.not_le] at hne
    have hn' := ha.slabs.slabs n hn
    have l1 := hn'.lt
    have l2 := hp.lt
    have l3 := hp.le
    have l4 := hn'.le
    obtain ⟨k, k1, k2⟩ := exists_index hA (max (bd d n).1 (bd d p).1) (by omega)
    refine hd k ⟨n, hn, ?_⟩ ?_
    · rw [inBox_slab hA hn', k2]; exact ⟨k1, by omega, by omega⟩
    · rw [inBox_slab hA hp, k2]; exact ⟨k1, by omega, by omega⟩
  have htidy := join_tidy _ _ _ (A.getD d 1) rfl (sh d p) rfl ha.tidy (sh_piece hp) hdis h2
  obtain ⟨E, hE⟩ := ha.wf
  let E' : List Nat → V := fun k => if inBox p.slices k then p.val (offset k p.slices) else E k
  have hwa : WF E' a := by
    refine ⟨fun n hn => ?_, hE.within⟩
    obtain ⟨f1, f2, f3⟩ := hE.faithful n hn
    refine ⟨f1, f2, fun k hk => ?_⟩
    rw [f3 k hk]
    show E k = if inBox p.slices k then _ else E k
    rw [if_neg (hd k ⟨n, hn, hk⟩)]
  have hwb : WF E' (⟨A, [p]⟩ : Cell V) := by
    refine ⟨fun n hn => ?_, fun n hn => ?_⟩ <;> simp only [List.mem_singleton] at hn <;> subst hn
    · obtain ⟨f1, f2, f3⟩ := slab_faithful hA hp
      refine ⟨f1, f2, fun k hk => ?_⟩
      show _ = if inBox n.slices k then _ else E k
      rw [if_pos hk]
    · exact (slab_within hA hp).1
  have hwc := (join_faithful E' a _ c (by rw [ha.slabs.aval]) hwa hwb h).1
  have hcov := slabs_join_covers hA ha.slabs (slabs_one hp) h
  refine ⟨⟨h1, htidy, E', hwc⟩, fun k hk => ?_, fun k hk => ?_⟩
  · rw [look_wf hwc ((hcov k).2 (.inr ⟨p, by simp, hk⟩))]
    show some (if inBox p.slices k then _ else E k) = _
    rw [if_pos hk]
  · by_cases hck : Covers a.slices k
    · rw [look_wf hwc ((hcov k).2 (.inl hck)), look_wf hE hck]
      show some (if inBox p.slices k then _ else E k) = _
      rw [if_neg hk]
    · rw [look_none.2 hck, look_none, hcov]
      rintro (h' | ⟨n, hn, h'⟩)
      · exact hck h'
      · simp only [List.mem_singleton] at hn; subst hn; exact hk h'

/-- Joining a whole array. -/
theorem join_full {A : List Nat} {a c : Cell V} {v : List Nat → V} (h : Joins a ⟨A, [ND.new A v]⟩ c) :
    c = ⟨A, [ND.new A v]⟩ := by
  have ht : (⟨A, [ND.new A v]⟩ : Cell V).top = true := by simp [Cell.top, ND.new]
  cases h with
  | otherTop => rfl
  | otherBottom h1 => exact absurd h1 (by rw [ht]; simp)
  | same h1 => rw [ht] at h1; cases h1
  | below h1 => rw [ht] at h1; cases h1
  | above h1 => rfl
  | merge h1 => rw [ht] at h1; cases h1

theorem look_new {A k : List Nat} {v : List Nat → V} (hk : inBox (fullBox A) k) :
    look ⟨A, [ND.new A v]⟩ k = some (v k) := by
  unfold look
  have hb : (ND.new A v).slices = fullBox A := rfl
  rw [List.find?_cons_of_pos (by rw [hb]; simpa using hk), Option.map_some, hb, offset_full hk]
  rfl

theorem join_self {c c' : Cell V} (h : Joins c c c') : c' = c := by
  cases h with
  | otherTop => rfl
  | otherBottom => rfl
  | same => rfl
  | below => rfl
  | above => rfl
  | merge h1 h2 h3 =>
    exfalso
    have : c.eq c = true := by
      unfold Cell.eq
      simp only [BEq.rfl, Bool.true_and, Bool.and_self, List.all_eq_true]
      intro n hn
      exact (hasKey_iff _ _).2 ⟨n, hn, rfl⟩
    rw [this] at h3; cases h3

theorem slabs_top_covers {A : List Nat} {d : Nat} (hA : Axis A d) {c : Cell V} (hc : Slabs A d c) (ht : c.top = true)
    {k : List Nat} (hk : inBox (fullBox A) k) : Covers c.slices k := by
  rw [covers_sh hA hc]
  refine ⟨hk, top_covers (fun _ => ()) _ (sh_wf hc) (by rw [top_sh hA hc]; exact ht) _ ?_⟩
  show inBox [(0, A.getD d 1)] [k.getD d 0]
  simp only [inBox, and_true]
  refine ⟨Nat.zero_le _, ?_⟩
  rcases hA.ax with hd | rfl
  · have := (inBox_getD.1 hk).2 d hd
    have e : A.getD d 1 = A.getD d 0 := by simp [List.getD_eq_getElem?_getD, List.getElem?_eq_getElem hd]
    rw [e]; exact this
  · rcases k with _ | ⟨i, k⟩ <;> simp [fullBox, inBox] at hk ⊢

/-- In a tidy cell, an interval that is covered lies within one slice. -/
theorem tidy_cover (c : Cell Unit) (hc : Tidy c) (l r : Nat) (hlr : l < r)
    (h : ∀ i, l ≤ i → i < r → Covers c.slices [i]) : ∃ m ∈ c.slices, (bnd m).1 ≤ l ∧ r ≤ (bnd m).2 := by
  have cov : ∀ i, l ≤ i → i < r → ∃ m ∈ c.slices, (bnd m).1 ≤ i ∧ i < (bnd m).2 := by
    intro i h1 h2
    obtain ⟨m, hm, hb⟩ := h i h1 h2
    rw [(hc.2 m hm).1] at hb
    exact ⟨m, hm, by simpa [inBox] using hb⟩
  obtain ⟨m, hm, h1, h2⟩ := cov l (le_refl _) hlr
  refine ⟨m, hm, h1, ?_⟩
  by_contra hlt
  obtain ⟨k, hk, h3, h4⟩ := cov (bnd m).2 (by omega) (by omega)
  have hg := hc.1
  unfold Gaps at hg
  obtain ⟨i, hi, rfl⟩ := List.mem_iff_getElem.1 hm
  obtain ⟨j, hj, rfl⟩ := List.mem_iff_getElem.1 hk
  rw [List.pairwise_iff_getElem] at hg
  rcases Nat.lt_trichotomy i j with hij | hij | hij
  · have := hg i j hi hj hij; omega
  · subst hij; omega
  · have h5 := hg j i hj hi hij
    have h6 := (hc.2 _ hm).2
    omega

theorem good_top {A : List Nat} {d : Nat} (hA : Axis A d) {c : Cell V} (hc : Good A d c)
    (h : ∀ k, inBox (fullBox A) k → Covers c.slices k) : c.top = true := by
  rw [← top_sh hA hc.slabs]
  have hcov : ∀ i, i < A.getD d 1 → Covers (shC A d c).slices [i] := by
    intro i hi
    obtain ⟨k, k1, k2⟩ := exists_index hA i hi
    have := ((covers_sh hA hc.slabs k).1 (h k k1)).2
    rwa [k2] at this
  have hl : 0 < A.getD d 1 := (new_slab hA (fun _ => ())).lt.trans_le (new_slab hA (fun _ => ())).le |>.trans_le' (Nat.zero_le _)
  obtain ⟨m, hm, h1, h2⟩ := tidy_cover _ hc.tidy 0 (A.getD d 1) hl (fun i _ hi => hcov i hi)
  have hle : ∀ n ∈ (shC A d c).slices, (bnd n).2 ≤ A.getD d 1 := by
    intro n hn
    obtain ⟨n', hn', rfl⟩ := List.mem_map.1 hn
    exact (hc.slabs.slabs n' hn').le
  have hone : ∀ n ∈ (shC A d c).slices, n = m := by
    intro n hn
    obtain ⟨i, hi, rfl⟩ := List.mem_iff_getElem.1 hm
    obtain ⟨j, hj, rfl⟩ := List.mem_iff_getElem.1 hn
    have hg := hc.tidy.1
    unfold Gaps at hg
    rw [List.pairwise_iff_getElem] at hg
    have l1 := (hc.tidy.2 _ hn).2
    have l2 := hle _ hn
    rcases Nat.lt_trichotomy i j with hij | hij | hij
    · have := hg i j hi hj hij; omega
    · subst hij; rfl
    · have := hg j i hj hi hij; omega
  have hg := hc.tidy.1
  unfold Gaps at hg
  have hlm := hle m hm
  have haval : (shC A d c).aval = [A.getD d 1] := rfl
  have hfa := (sh_wf hc.slabs).faithful m hm
  unfold Cell.top
  rcases hs : (shC A d c).slices with _ | ⟨n, _ | ⟨n', l⟩⟩
  · rw [hs] at hm; simp at hm
  · have : n = m := hone n (by rw [hs]; simp)
    subst this
    simp only [haval, beq_iff_eq]
    rw [hfa.shape, (hc.tidy.2 n hm).1]
    simp only [List.map_cons, List.map_nil, List.cons.injEq, and_true]
    omega
  · exfalso
    have e1 : n = m := hone n (by rw [hs]; simp)
    have e2 : n' = m := hone n' (by rw [hs]; simp)
    rw [hs, List.pairwise_cons] at hg
    have := hg.1 n' (by simp)
    rw [e1, e2] at this
    have := (hc.tidy.2 m hm).2
    omega

theorem lexLe_antisymm {a b : List Nat} (h1 : lexLe a b = true) (h2 : lexLe b a = true) : a = b := by
  induction a generalizing b with
  | nil => cases b with
    | nil => rfl
    | cons y b => simp [lexLe] at h2
  | cons x a ih =>
    cases b with
    | nil => simp [lexLe] at h1
    | cons y b =>
      simp only [lexLe, Bool.or_eq_true, decide_eq_true_eq, Bool.and_eq_true, beq_iff_eq] at h1 h2
      have hxy : x = y := by omega
      subst hxy
      rw [ih (b := b) (by rcases h1 with h | h; · omega
                          · exact h.2) (by rcases h2 with h | h; · omega
                                           · exact h.2)]

/-- Merging a tidy list does nothing. -/
theorem mergeGo_tidy {A : List Nat} {d : Nat} (hA : Axis A d) (acc : List (ND V)) (a : ND V) (rest : List (ND V))
    (hs : ∀ m ∈ acc ++ a :: rest, IsSlab A d m)
    (hg : (acc ++ a :: rest).Pairwise (fun m k => (bd d m).2 < (bd d k).1)) :
    mergeGo A.length acc a rest = acc ++ a :: rest := by
  have hadd : setAdd acc a = acc ++ [a] := by
    unfold setAdd
    rw [if_neg]
    intro hk
    obtain ⟨m, hm, he⟩ := (hasKey_iff _ _).1 hk
    have h1 := (List.pairwise_append.1 hg).2.2 m hm a (by simp)
    have h2 := (slab_key (hs m (by simp [hm])) (hs a (by simp))).1 he
    rw [h2] at h1
    have := (hs a (by simp)).lt
    omega
  induction rest generalizing acc a with
  | nil => exact hadd
  | cons n rest ih =>
    have h1 : (bd d a).2 < (bd d n).1 :=
      (List.pairwise_cons.1 (List.pairwise_append.1 hg).2.1).1 n (by simp)
    simp only [mergeGo]
    rw [firstDim_slab hA (hs a (by simp)) (hs n (by simp)), if_neg (by omega)]
    simp only
    rw [hadd]
    have e : acc ++ a :: n :: rest = (acc ++ [a]) ++ n :: rest := by simp
    rw [e] at hs hg ⊢
    refine ih _ n hs hg ?_
    unfold setAdd
    rw [if_neg]
    intro hk
    obtain ⟨m, hm, he⟩ := (hasKey_iff _ _).1 hk
    have h1 := (List.pairwise_append.1 hg).2.2 m hm n (by simp)
    have h2 := (slab_key (hs m (by simp at hm ⊢; tauto)) (hs n (by simp))).1 he
    rw [h2] at h1
    have := (hs n (by simp)).lt
    omega

/-- Joining a slice that is already known to a cell that is not complete changes nothing. -/
theorem join_absorbed {A : List Nat} {d : Nat} (hA : Axis A d) {a c : Cell V} {p : ND V} (ha : Good A d a)
    (hp : IsSlab A d p) (hd : ∀ k, inBox p.slices k → Covers a.slices k) (ht : a.top = false)
    (h : Joins a ⟨A, [p]⟩ c) : c = a := by
  have hlt := hp.lt
  have hle := hp.le
  obtain ⟨m', hm', h1, h2⟩ := tidy_cover _ ha.tidy (bd d p).1 (bd d p).2 hlt (by
    intro i hi1 hi2
    obtain ⟨k, k1, k2⟩ := exists_index hA i (by omega)
    have := ((covers_sh hA ha.slabs k).1 (hd k (by rw [inBox_slab hA hp, k2]; exact ⟨k1, hi1, hi2⟩))).2
    rwa [k2] at this)
  obtain ⟨m, hm, rfl⟩ := List.mem_map.1 hm'
  rw [bnd_sh] at h1 h2
  have hms := ha.slabs.slabs m hm
  have hgap : a.slices.Pairwise (fun m k => (bd d m).2 < (bd d k).1) := by
    have := ha.tidy.1
    unfold Gaps shC at this
    rw [List.pairwise_map] at this
    exact this
  cases h with
  | otherTop hbt =>
    exfalso
    rw [← top_sh hA (slabs_one hp)] at hbt
    have hfull := fun k hk => slabs_top_covers hA (slabs_one hp) (by rw [← top_sh hA (slabs_one hp)]; exact hbt) (k := k) hk
    have := good_top hA ha (fun k hk => by
      obtain ⟨n, hn, hb⟩ := hfull k hk
      simp only [List.mem_singleton] at hn
      subst hn; exact hd k hb)
    rw [this] at ht; cases ht
  | otherBottom => rfl
  | same => rfl
  | below => rfl
  | above h1' h2' h3' h4' h5 =>
    exfalso
    unfold Cell.lt at h5
    split at h5
    · cases h5
    · have := List.all_eq_true.1 h5 m hm
      simp only [List.any_cons, List.any_nil, Bool.or_false] at this
      rw [← ndLt_sh hA hms hp] at this
      have := ndLt_one this
      simp only [slLt, gt_iff_lt, ge_iff_le, Bool.or_eq_true, Bool.and_eq_true, decide_eq_true_eq] at this
      omega
  | merge h1' h2' h3' h4' h5' n rest hperm hsort =>
    have hkey : hasKey a.slices p = true := by
      rw [hasKey_iff]
      refine ⟨m, hm, (slab_key hms hp).2 ?_⟩
      by_contra hne
      have hbt : ndLt p m = true := by
        rw [← ndLt_sh hA hp hms]
        show ndLtGo false [bd d p] [bd d m] = true
        have e1 : ¬ (bd d p = bd d m) := fun h => hne h.symm
        have e2 : slLt (bd d p) (bd d m) = true := by
          simp only [slLt, gt_iff_lt, ge_iff_le, Bool.or_eq_true, Bool.and_eq_true, decide_eq_true_eq]
          by_contra hcon
          apply hne
          ext <;> omega
        have e3 : slLt (bd d m) (bd d p) = false := by
          rw [← Bool.not_eq_true]
          simp only [slLt, gt_iff_lt, ge_iff_le, Bool.or_eq_true, Bool.and_eq_true, decide_eq_true_eq]
          omega
        simp [ndLtGo, e1, e2, e3]
      have hlt' : (⟨A, [p]⟩ : Cell V).lt a = true := by
        unfold Cell.lt
        have hab : a.bottom = false := by
          unfold Cell.bottom
          rcases hs : a.slices with _ | ⟨x, l⟩
          · rw [hs] at hm; simp at hm
          · rfl
        rw [h1', hab]
        simp only [Bool.or_self, Bool.false_eq_true, if_false, List.all_cons, List.all_nil, Bool.and_true]
        exact List.any_eq_true.2 ⟨m, hm, hbt⟩
      rw [hlt'] at h4'; cases h4'
    have hu : unionSlices a.slices [p] = a.slices := by simp [unionSlices, hkey]
    have hperm' : (n :: rest).Perm a.slices := by
      have := hperm
      simp only at this
      rwa [hu] at this
    have hsa : a.slices.Pairwise (fun m k => lexLe (starts m.slices) (starts k.slices) = true) := by
      refine hgap.imp_of_mem ?_
      intro x y hx hy hxy
      rw [← lexLe_sh hA (ha.slabs.slabs x hx) (ha.slabs.slabs y hy)]
      have := (ha.slabs.slabs x hx).lt
      simp only [sh, starts, List.map_cons, List.map_nil, lexLe, Bool.or_eq_true, decide_eq_true_eq]
      left; omega
    have heq : n :: rest = a.slices := by
      refine List.Perm.eq_of_pairwise ?_ hsort hsa hperm'
      intro x y hx hy hxy hyx
      have hst := lexLe_antisymm hxy hyx
      have hx' : x ∈ a.slices := hperm'.mem_iff.1 hx
      have hsx := ha.slabs.slabs x hx'
      have hsy := ha.slabs.slabs y hy
      have hb1 : (bd d x).1 = (bd d y).1 := by
        have h3 := lexLe_sh hA hsx hsy
        have h4 := lexLe_sh hA hsy hsx
        rw [hxy] at h3
        rw [hyx] at h4
        simp only [sh, starts, List.map_cons, List.map_nil, lexLe, Bool.or_eq_true, decide_eq_true_eq, Bool.and_true,
          beq_iff_eq] at h3 h4
        omega
      obtain ⟨i, hi, rfl⟩ := List.mem_iff_getElem.1 hx'
      obtain ⟨j, hj, rfl⟩ := List.mem_iff_getElem.1 hy
      rw [List.pairwise_iff_getElem] at hgap
      have l1 := hsx.lt
      have l2 := hsy.lt
      rcases Nat.lt_trichotomy i j with hij | hij | hij
      · have := hgap i j hi hj hij; omega
      · subst hij; rfl
      · have := hgap j i hj hi hij; omega
    have hmg := mergeGo_tidy hA [] n rest (by rw [List.nil_append, heq]; exact ha.slabs.slabs)
      (by rw [List.nil_append, heq]; exact hgap)
    rw [List.nil_append] at hmg
    obtain ⟨av, sl⟩ := a
    have hav : av = A := ha.slabs.aval
    subst hav
    simp only at heq hmg ⊢
    rw [hmg, heq]

/-- The array of a complete cell. -/
theorem look_top {A : List Nat} {d : Nat} (hA : Axis A d) {c : ACell} (hc : Slabs A d c) {v : List Nat → F × F}
    (hv : topVal c = some v) {k : List Nat} (hk : inBox (fullBox A) k) : look c k = some (v k) := by
  have ht : c.top = true := by rw [← topVal_top, hv]; rfl
  unfold topVal at hv
  rcases hs : c.slices with _ | ⟨m, _ | ⟨m', l⟩⟩
  · rw [hs] at hv; simp at hv
  · rw [hs] at hv
    simp only at hv
    split at hv
    · rename_i hsh
      simp only [Option.some.injEq] at hv
      subst hv
      have hm := hc.slabs m (by rw [hs]; simp)
      obtain ⟨w1, w2⟩ := slab_within hA hm
      obtain ⟨b1, b2⟩ := full_of_shape w1 w2 (by rw [← hm.shape, hsh, hc.aval]) hk
      unfold look
      rw [hs, List.find?_cons_of_pos (by simpa using b1), Option.map_some, b2]
    · simp at hv
  · rw [hs] at hv; simp at hv

end Verif.Inverse
