import Verif.Inverse.SliceLemmas
import Mathlib.Data.List.Basic
import Mathlib.Data.List.Pairwise
import Mathlib.Data.List.Perm.Basic

/-! C28: joining slices never invents, and (when the comparison of slices is a containment) never loses
coverage. -/
namespace Verif.Inverse

variable {V : Type}

/-- A cell that says nothing wrong about the array `x` of shape `aval`. -/
structure WF (x : List Nat → V) (c : Cell V) : Prop where
  faithful : ∀ n ∈ c.slices, Faithful x n
  within : ∀ n ∈ c.slices, List.Forall₂ (fun (s : Sl) m => s.2 ≤ m) n.slices c.aval

theorem WF.len {x : List Nat → V} {c : Cell V} (h : WF x c) {n : ND V} (hn : n ∈ c.slices) :
    n.slices.length = c.aval.length := (h.within n hn).length_eq

/-- The whole index range of an array. -/
def fullBox (aval : List Nat) : List Sl := aval.map (fun m => (0, m))

theorem inBox_full_of_within {ss : List Sl} {aval : List Nat}
    (h : List.Forall₂ (fun (s : Sl) m => s.2 ≤ m) ss aval) {idx : List Nat} (hi : inBox ss idx) :
    inBox (fullBox aval) idx := by
  induction h generalizing idx with
  | nil => exact hi
  | cons hab _ ih =>
    obtain _ | ⟨i, is⟩ := idx
    · simp [inBox] at hi
    · simp only [inBox, fullBox, List.map_cons] at hi ⊢
      exact ⟨⟨Nat.zero_le _, by omega⟩, ih hi.2⟩

theorem full_of_shape {ss : List Sl} {aval : List Nat}
    (h : List.Forall₂ (fun (s : Sl) m => s.2 ≤ m) ss aval) (hv : ∀ s ∈ ss, s.1 ≤ s.2)
    (hs : ss.map (fun s => s.2 - s.1) = aval) {idx : List Nat} (hi : inBox (fullBox aval) idx) :
    inBox ss idx ∧ offset idx ss = idx := by
  induction h generalizing idx with
  | nil => obtain _ | ⟨i, is⟩ := idx <;> simp_all [inBox, fullBox, offset]
  | @cons s m ss aval hab _ ih =>
    obtain _ | ⟨i, is⟩ := idx
    · simp [inBox, fullBox] at hi
    · simp only [List.map_cons, List.cons.injEq] at hs
      simp only [inBox, fullBox, List.map_cons] at hi
      have h1 := hv s (by simp)
      obtain ⟨k1, k2⟩ := ih (fun a ha => hv a (by simp [ha])) hs.2 hi.2
      refine ⟨⟨⟨by omega, by omega⟩, k1⟩, ?_⟩
      simp only [offset, List.zipWith_cons_cons] at k2 ⊢
      rw [k2]
      congr 1
      omega

/-- C28.  A cell is reported complete only if it holds the whole array: the value it then returns is the array. -/
theorem top_complete (x : List Nat → V) (c : Cell V) (hc : WF x c) (ht : c.top = true) :
    ∃ n, c.slices = [n] ∧ n.shape = c.aval ∧ ∀ idx, inBox (fullBox c.aval) idx → n.val idx = x idx := by
  unfold Cell.top at ht
  rcases hsl : c.slices with _ | ⟨n, _ | ⟨m, l⟩⟩
  · rw [hsl] at ht; simp at ht
  · rw [hsl] at ht
    have hsh : n.shape = c.aval := by simpa using ht
    have hn : n ∈ c.slices := by rw [hsl]; simp
    have hf := hc.faithful n hn
    refine ⟨n, rfl, hsh, fun idx hi => ?_⟩
    obtain ⟨k1, k2⟩ := full_of_shape (hc.within n hn) hf.valid (by rw [← hf.shape]; exact hsh) hi
    have := hf.val idx k1
    rwa [k2] at this
  · rw [hsl] at ht; simp at ht

theorem top_covers (x : List Nat → V) (c : Cell V) (hc : WF x c) (ht : c.top = true) (idx : List Nat)
    (hi : inBox (fullBox c.aval) idx) : Covers c.slices idx := by
  obtain ⟨n, hsl, hsh, -⟩ := top_complete x c hc ht
  have hn : n ∈ c.slices := by rw [hsl]; simp
  have hf := hc.faithful n hn
  exact ⟨n, hn, (full_of_shape (hc.within n hn) hf.valid (by rw [← hf.shape]; exact hsh) hi).1⟩

theorem concatSlices_within (ss ts : List Sl) (d : Nat) (aval : List Nat)
    (hs : List.Forall₂ (fun (s : Sl) m => s.2 ≤ m) ss aval)
    (ht : List.Forall₂ (fun (s : Sl) m => s.2 ≤ m) ts aval) :
    List.Forall₂ (fun (s : Sl) m => s.2 ≤ m) (concatSlices ss ts d) aval := by
  induction hs generalizing ts d with
  | nil => cases ts <;> exact .nil
  | @cons s m ss aval hab hrest ih =>
    obtain _ | ⟨t, ts⟩ := ts
    · cases ht
    · cases ht with
      | cons h1 h2 =>
        cases d with
        | zero => exact .cons h1 hrest
        | succ d => exact .cons hab (ih ts d h2)

theorem mergeGo_within (dims : Nat) (aval : List Nat) (acc : List (ND V)) (active : ND V) (rest : List (ND V))
    (hacc : ∀ n ∈ acc, List.Forall₂ (fun (s : Sl) m => s.2 ≤ m) n.slices aval)
    (hact : List.Forall₂ (fun (s : Sl) m => s.2 ≤ m) active.slices aval)
    (hrest : ∀ n ∈ rest, List.Forall₂ (fun (s : Sl) m => s.2 ≤ m) n.slices aval) :
    ∀ n ∈ mergeGo dims acc active rest, List.Forall₂ (fun (s : Sl) m => s.2 ≤ m) n.slices aval := by
  have hset : ∀ n ∈ setAdd acc active, List.Forall₂ (fun (s : Sl) m => s.2 ≤ m) n.slices aval := by
    intro n hn
    rcases mem_setAdd hn with h | rfl
    · exact hacc n h
    · exact hact
  induction rest generalizing acc active with
  | nil => exact hset
  | cons k rest ih =>
    have hk := hrest k (by simp)
    have hrest' : ∀ n ∈ rest, List.Forall₂ (fun (s : Sl) m => s.2 ≤ m) n.slices aval := fun n hn => hrest n (by simp [hn])
    simp only [mergeGo]
    rcases firstDim dims active k with _ | d
    · simp only
      refine ih _ _ hset hk hrest' ?_
      intro n hn
      rcases mem_setAdd hn with h | rfl
      · exact hset n h
      · exact hk
    · simp only
      have hc : List.Forall₂ (fun (s : Sl) m => s.2 ≤ m) (concat active k d).slices aval :=
        concatSlices_within _ _ _ _ hact hk
      refine ih _ _ hacc hc hrest' ?_
      intro n hn
      rcases mem_setAdd hn with h | rfl
      · exact hacc n h
      · exact hc

theorem mem_union {a b : List (ND V)} {n : ND V} (h : n ∈ unionSlices a b) : n ∈ a ∨ n ∈ b := by
  simp only [unionSlices, List.mem_append, List.mem_filter] at h
  rcases h with h | ⟨h, -⟩
  · exact .inl h
  · exact .inr h

/-- C28 (no invention).  Whatever the order in which the sets are iterated, the join of two cells that say
nothing wrong about an array says nothing wrong about it. -/
theorem join_faithful (x : List Nat → V) (a b c : Cell V) (hav : b.aval = a.aval) (ha : WF x a) (hb : WF x b)
    (h : Joins a b c) : WF x c ∧ c.aval = a.aval := by
  cases h with
  | otherTop => exact ⟨hb, hav⟩
  | otherBottom => exact ⟨ha, rfl⟩
  | same => exact ⟨ha, rfl⟩
  | below => exact ⟨ha, rfl⟩
  | above => exact ⟨hb, hav⟩
  | merge h1 h2 h3 h4 h5 n rest hperm hsort =>
    have hall : ∀ m ∈ n :: rest, Faithful x m ∧ List.Forall₂ (fun (s : Sl) k => s.2 ≤ k) m.slices a.aval := by
      intro m hm
      rcases mem_union (hperm.subset hm) with h | h
      · exact ⟨ha.faithful m h, ha.within m h⟩
      · exact ⟨hb.faithful m h, hav ▸ hb.within m h⟩
    refine ⟨⟨?_, ?_⟩, rfl⟩
    · intro m hm
      refine ((mergeGo_ok x a.aval.length [] n rest (by simp) ?_ ?_).1 m hm).1
      · exact ⟨(hall n (by simp)).1, (hall n (by simp)).2.length_eq⟩
      · exact fun k hk => ⟨(hall k (by simp [hk])).1, (hall k (by simp [hk])).2.length_eq⟩
    · exact mergeGo_within _ _ [] n rest (by simp) (hall n (by simp)).2 (fun k hk => (hall k (by simp [hk])).2)

/-- The comparison of slices used by `join` is a containment for these two cells. -/
def LtIsContainment (a b : Cell V) : Prop :=
  (∀ s ∈ a.slices, ∀ t ∈ b.slices, ndLt s t = true → ∀ idx, inBox s.slices idx → inBox t.slices idx) ∧
  (∀ s ∈ b.slices, ∀ t ∈ a.slices, ndLt s t = true → ∀ idx, inBox s.slices idx → inBox t.slices idx)

theorem lt_covers {a b : Cell V}
    (hc : ∀ s ∈ a.slices, ∀ t ∈ b.slices, ndLt s t = true → ∀ idx, inBox s.slices idx → inBox t.slices idx)
    (h : a.lt b = true) (idx : List Nat) (hi : Covers a.slices idx) : Covers b.slices idx := by
  unfold Cell.lt at h
  split at h
  · simp at h
  · obtain ⟨s, hs, hsi⟩ := hi
    have := List.all_eq_true.1 h s hs
    obtain ⟨t, ht, hlt⟩ := List.any_eq_true.1 this
    exact ⟨t, ht, hc s hs t ht hlt idx hsi⟩

/-- C28 (exact coverage), partial: the join knows exactly the entries known by one of the two, provided the
comparison of slices is a containment (it is not in general: `join_loses_coverage`). -/
theorem join_coverage_partial (x : List Nat → V) (a b c : Cell V) (hav : b.aval = a.aval) (ha : WF x a) (hb : WF x b)
    (hc : LtIsContainment a b) (h : Joins a b c) (idx : List Nat) :
    Covers c.slices idx ↔ Covers a.slices idx ∨ Covers b.slices idx := by
  cases h with
  | otherTop h =>
    refine ⟨.inr, ?_⟩
    rintro (⟨n, hn, hi⟩ | h')
    · exact top_covers x b hb h idx (hav ▸ inBox_full_of_within (ha.within n hn) hi)
    · exact h'
  | otherBottom h1 h2 =>
    have : b.slices = [] := by simpa [Cell.bottom] using h2
    rw [this]; simp [Covers]
  | same h1 h2 h3 =>
    refine ⟨.inl, ?_⟩
    rintro (h' | ⟨n, hn, hi⟩)
    · exact h'
    · simp only [Cell.eq, Bool.and_eq_true] at h3
      obtain ⟨m, hm, he⟩ := (hasKey_iff _ _).1 (List.all_eq_true.1 h3.2 n hn)
      exact ⟨m, hm, he ▸ hi⟩
  | below h1 h2 h3 h4 =>
    refine ⟨.inl, ?_⟩
    rintro (h' | h')
    · exact h'
    · exact lt_covers hc.2 h4 idx h'
  | above h1 h2 h3 h4 h5 =>
    refine ⟨.inr, ?_⟩
    rintro (h' | h')
    · exact lt_covers hc.1 h5 idx h'
    · exact h'
  | merge h1 h2 h3 h4 h5 n rest hperm hsort =>
    have hall : ∀ m ∈ n :: rest, Faithful x m ∧ m.slices.length = a.aval.length := by
      intro m hm
      rcases mem_union (hperm.subset hm) with h | h
      · exact ⟨ha.faithful m h, ha.len h⟩
      · exact ⟨hb.faithful m h, by rw [hb.len h, hav]⟩
    rw [(mergeGo_ok x a.aval.length [] n rest (by simp) (hall n (by simp)) (fun k hk => hall k (by simp [hk]))).2,
      ← covers_union]
    have : Covers (unionSlices a.slices b.slices) idx ↔ Covers (n :: rest) idx := by
      simp only [Covers]
      constructor
      · rintro ⟨m, hm, hi⟩; exact ⟨m, hperm.mem_iff.2 hm, hi⟩
      · rintro ⟨m, hm, hi⟩; exact ⟨m, hperm.mem_iff.1 hm, hi⟩
    rw [this]
    simp [Covers]

/-- Slices that are equal or nested in every dimension. -/
def Nested : List Sl → List Sl → Prop :=
  List.Forall₂ (fun s t => s = t ∨ slLt s t = true ∨ slLt t s = true)

theorem ndLtGo_sub (acc : Bool) (ss ts : List Sl) (hn : Nested ss ts) (h : ndLtGo acc ss ts = true) (idx : List Nat)
    (hi : inBox ss idx) : inBox ts idx := by
  induction hn generalizing acc idx with
  | nil => exact hi
  | @cons s t ss ts hst _ ih =>
    obtain _ | ⟨i, is⟩ := idx
    · simp [inBox] at hi
    · simp only [inBox] at hi ⊢
      unfold ndLtGo at h
      split at h
      · rename_i he; subst he
        exact ⟨hi.1, ih _ h is hi.2⟩
      · rename_i hne
        split at h
        · simp at h
        · rename_i hnl
          refine ⟨?_, ih _ h is hi.2⟩
          rcases hst with he | hl | hl
          · exact absurd he hne
          · simp only [slLt, gt_iff_lt, ge_iff_le, Bool.or_eq_true, Bool.and_eq_true, decide_eq_true_eq] at hl
            omega
          · exact absurd hl hnl

/-- C28.  When the slices of the two cells are equal or nested in every dimension whenever compared, the
containment hypothesis of `join_coverage_partial` holds. -/
theorem containment_of_nested (a b : Cell V) (h1 : ∀ s ∈ a.slices, ∀ t ∈ b.slices, ndLt s t = true → Nested s.slices t.slices)
    (h2 : ∀ s ∈ b.slices, ∀ t ∈ a.slices, ndLt s t = true → Nested s.slices t.slices) : LtIsContainment a b :=
  ⟨fun s hs t ht hl idx => ndLtGo_sub false _ _ (h1 s hs t ht hl) hl idx,
   fun s hs t ht hl idx => ndLtGo_sub false _ _ (h2 s hs t ht hl) hl idx⟩

theorem ndLt_one {s t : Sl} (h : ndLtGo false [s] [t] = true) : slLt s t = true := by
  simp only [ndLtGo, Bool.false_or] at h
  split at h
  · simp at h
  · split at h
    · simp at h
    · exact h

/-- C28 for one-dimensional arrays: the join knows exactly the entries known by one of the two. -/
theorem join_coverage_1d (x : List Nat → V) (a b c : Cell V) (n : Nat) (hav : a.aval = [n]) (hbv : b.aval = [n])
    (ha : WF x a) (hb : WF x b) (h : Joins a b c) (idx : List Nat) :
    Covers c.slices idx ↔ Covers a.slices idx ∨ Covers b.slices idx := by
  have one : ∀ c : Cell V, c.aval = [n] → WF x c → ∀ s ∈ c.slices, ∃ t, s.slices = [t] := by
    intro c hv hc s hs
    have := hc.len hs
    rw [hv] at this
    exact List.length_eq_one_iff.1 this
  refine join_coverage_partial x a b c (by rw [hav, hbv]) ha hb (containment_of_nested a b ?_ ?_) h idx
  · intro s hs t ht hl
    obtain ⟨u, hu⟩ := one a hav ha s hs
    obtain ⟨v, hv⟩ := one b hbv hb t ht
    unfold ndLt at hl
    rw [hu, hv] at hl ⊢
    exact .cons (.inr (.inl (ndLt_one hl))) .nil
  · intro s hs t ht hl
    obtain ⟨u, hu⟩ := one b hbv hb s hs
    obtain ⟨v, hv⟩ := one a hav ha t ht
    unfold ndLt at hl
    rw [hu, hv] at hl ⊢
    exact .cons (.inr (.inl (ndLt_one hl))) .nil

/-- C28 (negation).  In two dimensions `join` loses entries: `[0:2, 0:1]` counts as less than `[1:3, 0:4]`
(slice.py:103-111 skips incomparable dimensions), so the join drops entry `(0, 0)`. -/
theorem join_loses_coverage : ∃ (x : List Nat → Nat) (a b c : Cell Nat), WF x a ∧ WF x b ∧ b.aval = a.aval ∧
    Joins a b c ∧ Covers a.slices [0, 0] ∧ ¬ Covers c.slices [0, 0] := by
  refine ⟨fun _ => 0, ⟨[3, 4], [⟨[(0, 2), (0, 1)], [2, 1], fun _ => 0⟩]⟩,
    ⟨[3, 4], [⟨[(1, 3), (0, 4)], [2, 4], fun _ => 0⟩]⟩, _, ?_, ?_, rfl,
    .above (by decide) (by decide) (by decide) (by decide) (by decide), ?_, ?_⟩
  · refine ⟨?_, ?_⟩
    · intro n hn
      simp only [List.mem_singleton] at hn
      subst hn
      exact ⟨by decide, by decide, fun _ _ => rfl⟩
    · intro n hn
      simp only [List.mem_singleton] at hn
      subst hn
      exact .cons (by decide) (.cons (by decide) .nil)
  · refine ⟨?_, ?_⟩
    · intro n hn
      simp only [List.mem_singleton] at hn
      subst hn
      exact ⟨by decide, by decide, fun _ _ => rfl⟩
    · intro n hn
      simp only [List.mem_singleton] at hn
      subst hn
      exact .cons (by decide) (.cons (by decide) .nil)
  · exact ⟨_, List.mem_singleton_self _, by simp [inBox]⟩
  · rintro ⟨n, hn, hi⟩
    simp only [List.mem_singleton] at hn
    subst hn
    simp [inBox] at hi

/-! ### One-dimensional completeness -/

/-- The single bound of a one-dimensional slice. -/
def bnd (n : ND V) : Sl := n.slices.headD (0, 0)

/-- A one-dimensional non-empty slice. -/
def Piece (n : ND V) : Prop := n.slices = [bnd n] ∧ (bnd n).1 < (bnd n).2

/-- Sorted with gaps: nothing can be concatenated. -/
def Gaps (l : List (ND V)) : Prop := l.Pairwise (fun m k => (bnd m).2 < (bnd k).1)

theorem canConcat_piece {m k : ND V} (hm : Piece m) (hk : Piece k) :
    firstDim 1 m k = if (bnd m).2 = (bnd k).1 then some 0 else none := by
  simp only [firstDim, List.range_one, List.find?_singleton]
  rw [hm.1, hk.1]
  simp [canConcat]

theorem concat_piece {m k : ND V} (hm : Piece m) (hk : Piece k) (h : (bnd m).2 = (bnd k).1) :
    Piece (concat m k 0) ∧ bnd (concat m k 0) = ((bnd m).1, (bnd k).2) := by
  have hs : (concat m k 0).slices = [((bnd m).1, (bnd k).2)] := by
    simp only [concat]; rw [hm.1, hk.1]; rfl
  have hb : bnd (concat m k 0) = ((bnd m).1, (bnd k).2) := by unfold bnd; rw [hs]; rfl
  refine ⟨⟨by rw [hb, hs], ?_⟩, hb⟩
  rw [hb]
  have := hm.2; have := hk.2
  simp only; omega

theorem mergeGo_gaps (acc : List (ND V)) (active : ND V) (rest : List (ND V))
    (hacc : Gaps acc) (hpa : ∀ n ∈ acc, Piece n ∧ (bnd n).2 < (bnd active).1)
    (hact : Piece active) (hpr : ∀ n ∈ rest, Piece n)
    (hs : (active :: rest).Pairwise (fun m k => (bnd m).2 ≤ (bnd k).1)) :
    Gaps (mergeGo 1 acc active rest) ∧ ∀ n ∈ mergeGo 1 acc active rest, Piece n := by
  induction rest generalizing acc active with
  | nil =>
    simp only [mergeGo, setAdd]
    split
    · exact ⟨hacc, fun n hn => (hpa n hn).1⟩
    · refine ⟨?_, ?_⟩
      · unfold Gaps
        rw [List.pairwise_append]
        refine ⟨hacc, by simp, ?_⟩
        intro m hm k hk
        simp only [List.mem_singleton] at hk
        subst hk
        exact (hpa m hm).2
      · intro n hn
        rcases List.mem_append.1 hn with h | h
        · exact (hpa n h).1
        · simp only [List.mem_singleton] at h; subst h; exact hact
  | cons k rest ih =>
    have hk := hpr k (by simp)
    obtain ⟨hs1, hs2⟩ := List.pairwise_cons.1 hs
    have hak := hs1 k (by simp)
    simp only [mergeGo]
    rw [canConcat_piece hact hk]
    by_cases heq : (bnd active).2 = (bnd k).1
    · simp only [heq, if_true]
      obtain ⟨c1, c2⟩ := concat_piece hact hk heq
      refine ih acc (concat active k 0) hacc ?_ c1 (fun n hn => hpr n (by simp [hn])) ?_
      · intro n hn
        rw [c2]; exact hpa n hn
      · rw [List.pairwise_cons]
        refine ⟨?_, (List.pairwise_cons.1 hs2).2⟩
        intro n hn
        rw [c2]
        exact (List.pairwise_cons.1 hs2).1 n hn
    · simp only [heq, if_false]
      have hlt : (bnd active).2 < (bnd k).1 := by omega
      have h1 := hact.2
      refine ih (setAdd acc active) k ?_ ?_ hk (fun n hn => hpr n (by simp [hn])) hs2
      · simp only [setAdd]
        split
        · exact hacc
        · unfold Gaps
          rw [List.pairwise_append]
          refine ⟨hacc, by simp, ?_⟩
          intro m hm k hk
          simp only [List.mem_singleton] at hk
          subst hk
          exact (hpa m hm).2
      · intro n hn
        rcases mem_setAdd hn with h | rfl
        · have := (hpa n h).2
          exact ⟨(hpa n h).1, by omega⟩
        · exact ⟨hact, hlt⟩

/-- No common entry. -/
def Disj (m k : ND V) : Prop := (bnd m).2 ≤ (bnd k).1 ∨ (bnd k).2 ≤ (bnd m).1

theorem ndLt_false {m k : ND V} (hm : Piece m) (hk : Piece k) (h : Disj m k) : ndLt m k = false := by
  by_contra hne
  have hl : ndLt m k = true := by simpa using hne
  unfold ndLt at hl
  rw [hm.1, hk.1] at hl
  have := ndLt_one hl
  simp only [slLt, gt_iff_lt, ge_iff_le, Bool.or_eq_true, Bool.and_eq_true, decide_eq_true_eq] at this
  have := hm.2; have := hk.2
  rcases h with h | h <;> omega

/-- The state of a one-dimensional cell after some joins: sorted pieces with gaps. -/
def Tidy (c : Cell V) : Prop := Gaps c.slices ∧ ∀ n ∈ c.slices, Piece n

theorem join_tidy (a b c : Cell V) (N : Nat) (hav : a.aval = [N]) (p : ND V)
    (hb : b.slices = [p]) (ha : Tidy a) (hp : Piece p) (hd : ∀ m ∈ a.slices, Disj m p)
    (h : Joins a b c) : Tidy c := by
  have hbt : Tidy b := by
    refine ⟨by unfold Gaps; rw [hb]; simp, ?_⟩
    intro n hn; rw [hb] at hn; simp only [List.mem_singleton] at hn; subst hn; exact hp
  cases h with
  | otherTop => exact hbt
  | otherBottom => exact ha
  | same => exact ha
  | below => exact ha
  | above => exact hbt
  | merge h1 h2 h3 h4 h5 n rest hperm hsort =>
    have hnk : hasKey a.slices p = false := by
      by_contra hne
      obtain ⟨m, hm, he⟩ := (hasKey_iff _ _).1 (by simpa using hne : hasKey a.slices p = true)
      have : bnd m = bnd p := by unfold bnd; rw [he]
      have hdd := hd m hm
      unfold Disj at hdd
      rw [this] at hdd
      have := hp.2
      omega
    have hu : unionSlices a.slices b.slices = a.slices ++ [p] := by
      unfold unionSlices; rw [hb]; simp [hnk]
    rw [hu] at hperm
    have hpieces : ∀ m ∈ n :: rest, Piece m := by
      intro m hm
      rcases List.mem_append.1 (hperm.subset hm) with h | h
      · exact ha.2 m h
      · simp only [List.mem_singleton] at h; subst h; exact hp
    have hdis : (a.slices ++ [p]).Pairwise Disj := by
      rw [List.pairwise_append]
      refine ⟨ha.1.imp (fun {m k} h => Or.inl (Nat.le_of_lt h)), by simp, ?_⟩
      intro m hm k hk
      simp only [List.mem_singleton] at hk; subst hk
      exact hd m hm
    have hdis' : (n :: rest).Pairwise Disj :=
      (hperm.pairwise_iff (fun {m k} h => h.symm)).2 hdis
    have hsorted : (n :: rest).Pairwise (fun m k => (bnd m).2 ≤ (bnd k).1) := by
      refine (hdis'.and hsort).imp_of_mem ?_
      rintro m k hm hk ⟨h1, h2⟩
      have pm := hpieces m hm
      have pk := hpieces k hk
      rw [pm.1, pk.1] at h2
      simp only [starts, List.map_cons, List.map_nil, lexLe, Bool.and_true, Bool.or_eq_true, decide_eq_true_eq,
        beq_iff_eq] at h2
      have := pm.2; have := pk.2
      rcases h1 with h1 | h1 <;> omega
    have hl : a.aval.length = 1 := by rw [hav]; rfl
    simp only [hl]
    obtain ⟨g1, g2⟩ := mergeGo_gaps [] n rest .nil (by simp) (hpieces n (by simp))
      (fun m hm => hpieces m (by simp [hm])) hsorted
    exact ⟨g1, g2⟩

/-- Joining a sequence of cells into a cell, one after the other (as `Environment.write` does). -/
inductive JoinsAll : Cell V → List (Cell V) → Cell V → Prop
  | nil (a) : JoinsAll a [] a
  | cons (a b c : Cell V) (bs : List (Cell V)) (d : Cell V) (h : Joins a b c) (hs : JoinsAll c bs d) :
      JoinsAll a (b :: bs) d

/-- C28 (completeness in one dimension).  If the pieces `[l, r)` of an array of length `N`, written in any order,
are disjoint and cover the array, then the cell ends up complete, with the array as its value. -/
theorem pieces_complete_1d (x : List Nat → V) (N : Nat) (hN : 0 < N) (ps : List (ND V)) (d : Cell V)
    (hf : ∀ p ∈ ps, Faithful x p) (hp : ∀ p ∈ ps, Piece p ∧ (bnd p).2 ≤ N) (hdis : ps.Pairwise Disj)
    (hcov : ∀ i < N, ∃ p ∈ ps, (bnd p).1 ≤ i ∧ i < (bnd p).2)
    (h : JoinsAll ⟨[N], []⟩ (ps.map (fun p => ⟨[N], [p]⟩)) d) :
    d.top = true ∧ ∃ n, d.slices = [n] ∧ ∀ i < N, n.val [i] = x [i] := by
  have wfp : ∀ p, Faithful x p → Piece p → (bnd p).2 ≤ N → WF x (⟨[N], [p]⟩ : Cell V) := by
    intro p h1 h2 h3
    refine ⟨?_, ?_⟩
    · intro n hn; simp only [List.mem_singleton] at hn; subst hn; exact h1
    · intro n hn; simp only [List.mem_singleton] at hn; subst hn
      rw [h2.1]; exact .cons h3 .nil
  have box1 : ∀ (p : ND V) (i : Nat), Piece p → (inBox p.slices [i] ↔ (bnd p).1 ≤ i ∧ i < (bnd p).2) := by
    intro p i hp; rw [hp.1]; simp [inBox]
  have key : ∀ (ps : List (ND V)) (a d : Cell V), (∀ p ∈ ps, Faithful x p) → (∀ p ∈ ps, Piece p ∧ (bnd p).2 ≤ N) →
      ps.Pairwise Disj → a.aval = [N] → WF x a → Tidy a →
      (∀ p ∈ ps, ∀ i, Covers a.slices [i] → ¬ ((bnd p).1 ≤ i ∧ i < (bnd p).2)) →
      JoinsAll a (ps.map (fun p => ⟨[N], [p]⟩)) d →
      d.aval = [N] ∧ WF x d ∧ Tidy d ∧ ∀ i, (Covers d.slices [i] ↔ Covers a.slices [i] ∨
        ∃ p ∈ ps, (bnd p).1 ≤ i ∧ i < (bnd p).2) := by
    intro ps
    induction ps with
    | nil =>
      intro a d _ _ _ hav hwf ht _ h
      cases h
      exact ⟨hav, hwf, ht, by simp⟩
    | cons p ps ih =>
      intro a d hf hp hdis hav hwf ht hno h
      simp only [List.map_cons] at h
      cases h with
      | cons _ _ c _ _ hj hs =>
        have hpp := hp p (by simp)
        have hbw := wfp p (hf p (by simp)) hpp.1 hpp.2
        obtain ⟨hcw, hca⟩ := join_faithful x a _ c (by rw [hav]) hwf hbw hj
        have hcc := join_coverage_1d x a _ c N hav rfl hwf hbw hj
        have hda : ∀ m ∈ a.slices, Disj m p := by
          intro m hm
          by_contra hne
          simp only [Disj, not_or, Nat.not_le] at hne
          have pm := ht.2 m hm
          have hm2 := pm.2
          have hp2 := hpp.1.2
          refine hno p (by simp) (max (bnd m).1 (bnd p).1) ⟨m, hm, ?_⟩ ?_
          · rw [box1 m _ pm]; omega
          · omega
        have hct := join_tidy a _ c N hav p rfl ht hpp.1 hda hj
        have hd1 := List.pairwise_cons.1 hdis
        have hcov : ∀ i, Covers c.slices [i] ↔ Covers a.slices [i] ∨ ((bnd p).1 ≤ i ∧ i < (bnd p).2) := by
          intro i
          rw [hcc, ← box1 p i hpp.1]
          simp [Covers]
        obtain ⟨k1, k2, k3, k4⟩ := ih c d (fun q hq => hf q (by simp [hq])) (fun q hq => hp q (by simp [hq])) hd1.2
          (by rw [hca, hav]) hcw hct (by
            intro q hq i hi hqi
            rcases (hcov i).1 hi with h1 | h1
            · exact hno q (by simp [hq]) i h1 hqi
            · have := hd1.1 q hq
              unfold Disj at this
              omega) hs
        refine ⟨k1, k2, k3, fun i => ?_⟩
        rw [k4, hcov]
        simp only [List.mem_cons, exists_eq_or_imp]
        tauto
  obtain ⟨hda, hdw, hdt, hdc⟩ := key ps ⟨[N], []⟩ d hf hp hdis rfl ⟨by simp, by simp⟩ ⟨by simp [Gaps], by simp⟩
    (by intro p _ i hi; simp [Covers] at hi) h
  have hall : ∀ i < N, ∃ n ∈ d.slices, (bnd n).1 ≤ i ∧ i < (bnd n).2 := by
    intro i hi
    obtain ⟨n, hn, hb⟩ := (hdc i).2 (.inr (hcov i hi))
    exact ⟨n, hn, (box1 n i (hdt.2 n hn)).1 hb⟩
  have hwith : ∀ n ∈ d.slices, (bnd n).2 ≤ N := by
    intro n hn
    have := hdw.within n hn
    rw [hda, (hdt.2 n hn).1] at this
    simpa using this
  obtain ⟨n0, hn0, -⟩ := hall 0 hN
  rcases hsl : d.slices with _ | ⟨n, _ | ⟨m, l⟩⟩
  · rw [hsl] at hn0; simp at hn0
  · have hn : n ∈ d.slices := by rw [hsl]; simp
    have pn := hdt.2 n hn
    have e0 : (bnd n).1 = 0 := by
      obtain ⟨k, hk, h1, -⟩ := hall 0 hN
      rw [hsl] at hk; simp only [List.mem_singleton] at hk; subst hk; omega
    have e1 : (bnd n).2 = N := by
      obtain ⟨k, hk, -, h1⟩ := hall (N - 1) (by omega)
      rw [hsl] at hk; simp only [List.mem_singleton] at hk; subst hk
      have := hwith k hn
      omega
    have htop : d.top = true := by
      unfold Cell.top
      rw [hsl]
      simp only [beq_iff_eq]
      rw [(hdw.faithful n hn).shape, pn.1, hda]
      simp [e0, e1]
    refine ⟨htop, ?_⟩
    obtain ⟨k, hk, -, hv⟩ := top_complete x d hdw htop
    refine ⟨n, rfl, fun i hi => ?_⟩
    obtain rfl : n = k := by rw [hsl] at hk; simpa using hk
    exact hv [i] (by rw [hda]; simp [fullBox, inBox, hi])
  · exfalso
    have hn : n ∈ d.slices := by rw [hsl]; simp
    have hm : m ∈ d.slices := by rw [hsl]; simp
    have hg := hdt.1
    unfold Gaps at hg
    rw [hsl] at hg
    have hg1 := (List.pairwise_cons.1 hg).1
    have h1 := hg1 m (by simp)
    have h2 := (hdt.2 m hm).2
    have h3 := hwith m hm
    obtain ⟨k, hk, hk1, hk2⟩ := hall (bnd n).2 (by omega)
    rw [hsl] at hk
    rcases List.mem_cons.1 hk with rfl | hk
    · omega
    · have := hg1 k hk
      omega

/-- C28 (negation of completeness in two dimensions).  The four quadrants of a 2×2 array are not merged into
the whole array by the single greedy pass, although they cover it. -/
theorem tiles_not_merged : ∃ q0 q1 q2 q3 : ND Nat,
    (∀ i < 2, ∀ j < 2, Covers [q0, q1, q2, q3] [i, j]) ∧
    (mergeGo 2 [] q0 [q1, q2, q3]).map (·.slices) = [[(0, 1), (0, 2)], [(1, 2), (0, 2)]] := by
  refine ⟨⟨[(0, 1), (0, 1)], [1, 1], fun _ => 0⟩, ⟨[(0, 1), (1, 2)], [1, 1], fun _ => 0⟩,
    ⟨[(1, 2), (0, 1)], [1, 1], fun _ => 0⟩, ⟨[(1, 2), (1, 2)], [1, 1], fun _ => 0⟩, ?_, by decide⟩
  intro i hi j hj
  have hi' : i = 0 ∨ i = 1 := by omega
  have hj' : j = 0 ∨ j = 1 := by omega
  rcases hi' with rfl | rfl <;> rcases hj' with rfl | rfl <;> simp [Covers, inBox]

/-! ### Concrete instances -/

/-- The entries `l..r` of the array `x[i] = i`. -/
def natPiece (l r : Nat) : ND Nat := ⟨[(l, r)], [r - l], fun idx => idx.getD 0 0 + l⟩

theorem natPiece_faithful (l r : Nat) (h : l ≤ r) : Faithful (fun idx => idx.getD 0 0) (natPiece l r) := by
  refine ⟨by simpa [natPiece] using h, rfl, ?_⟩
  intro idx hi
  obtain _ | ⟨i, _ | ⟨j, is⟩⟩ := idx
  · simp [natPiece, inBox] at hi
  · simp [natPiece, inBox] at hi
    simp [natPiece, offset]; omega
  · simp [natPiece, inBox] at hi

/-- Two pieces of an array of length 5, the second one first: the join is complete and is the array. -/
example : ∃ d : Cell Nat, JoinsAll ⟨[5], []⟩ [⟨[5], [natPiece 2 5]⟩, ⟨[5], [natPiece 0 2]⟩] d ∧ d.top = true := by
  have hj : JoinsAll ⟨[5], []⟩ [⟨[5], [natPiece 2 5]⟩, ⟨[5], [natPiece 0 2]⟩]
      ⟨[5], mergeGo 1 [] (natPiece 0 2) [natPiece 2 5]⟩ := by
    refine .cons _ _ ⟨[5], [natPiece 2 5]⟩ _ _
      (.above (by decide) (by decide) (by decide) (by decide) (by decide)) ?_
    refine .cons _ _ _ _ _ (.merge (by decide) (by decide) (by decide) (by decide) (by decide) (natPiece 0 2)
      [natPiece 2 5] (List.Perm.swap _ _ _) (by decide)) (.nil _)
  refine ⟨_, hj, ?_⟩
  refine (pieces_complete_1d (fun idx => idx.getD 0 0) 5 (by decide) [natPiece 2 5, natPiece 0 2] _ ?_ ?_ ?_ ?_ hj).1
  · intro p hp
    simp only [List.mem_cons, List.not_mem_nil, or_false] at hp
    rcases hp with rfl | rfl <;> exact natPiece_faithful _ _ (by decide)
  · intro p hp
    simp only [List.mem_cons, List.not_mem_nil, or_false] at hp
    rcases hp with rfl | rfl <;> exact ⟨⟨rfl, by decide⟩, by decide⟩
  · simp [Disj, natPiece, bnd]
  · intro i hi
    by_cases h : i < 2
    · exact ⟨natPiece 0 2, by simp, by simp [bnd, natPiece]; omega⟩
    · exact ⟨natPiece 2 5, by simp, by simp [bnd, natPiece]; omega⟩

end Verif.Inverse
