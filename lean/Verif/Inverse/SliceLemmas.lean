import Verif.Inverse.Slice
import Mathlib.Tactic.Tauto

/-! Specification and lemmas for slices (C28). -/
namespace Verif.Inverse

variable {V : Type}

/-- The index `idx` of the array lies within the bounds. -/
def inBox : List Sl → List Nat → Prop
  | [], [] => True
  | s :: ss, i :: is => (s.1 ≤ i ∧ i < s.2) ∧ inBox ss is
  | _, _ => False

/-- Position inside the slice of an index of the array. -/
def offset (idx : List Nat) (ss : List Sl) : List Nat := List.zipWith (fun i s => i - s.1) idx ss

/-- `n` says nothing wrong about the array `x`: its bounds are bounds, its shape is what they say, and its
entries are those of `x`. -/
structure Faithful (x : List Nat → V) (n : ND V) : Prop where
  valid : ∀ s ∈ n.slices, s.1 ≤ s.2
  shape : n.shape = n.slices.map (fun s => s.2 - s.1)
  val : ∀ idx, inBox n.slices idx → n.val (offset idx n.slices) = x idx

/-- `n` knows entry `idx`. -/
def Covers (l : List (ND V)) (idx : List Nat) : Prop := ∃ n ∈ l, inBox n.slices idx

theorem box_concat (ss ts : List Sl) (d : Nat) (h : canConcat ss ts d = true) (hd : d < ss.length)
    (hs : ∀ s ∈ ss, s.1 ≤ s.2) (ht : ∀ s ∈ ts, s.1 ≤ s.2) (idx : List Nat) :
    inBox (concatSlices ss ts d) idx ↔ inBox ss idx ∨ inBox ts idx := by
  induction ss generalizing ts d idx with
  | nil => simp at hd
  | cons s ss ih =>
    obtain _ | ⟨t, ts⟩ := ts
    · simp [canConcat] at h
    · cases d with
      | zero =>
        simp only [canConcat, Bool.and_eq_true, beq_iff_eq] at h
        obtain ⟨h1, rfl⟩ := h
        obtain _ | ⟨i, is⟩ := idx
        · simp [concatSlices, inBox]
        · simp only [concatSlices, inBox]
          have := hs s (by simp)
          have := ht t (by simp)
          constructor
          · rintro ⟨⟨h2, h3⟩, h4⟩
            by_cases hi : i < s.2
            · exact .inl ⟨⟨h2, hi⟩, h4⟩
            · exact .inr ⟨⟨by omega, h3⟩, h4⟩
          · rintro (⟨⟨h2, h3⟩, h4⟩ | ⟨⟨h2, h3⟩, h4⟩)
            · exact ⟨⟨h2, by omega⟩, h4⟩
            · exact ⟨⟨by omega, h3⟩, h4⟩
      | succ d =>
        simp only [canConcat, Bool.and_eq_true, beq_iff_eq] at h
        obtain ⟨rfl, h⟩ := h
        obtain _ | ⟨i, is⟩ := idx
        · simp [concatSlices, inBox]
        · simp only [concatSlices, inBox]
          rw [ih ts d h (by simpa using hd) (fun a ha => hs a (by simp [ha])) (fun a ha => ht a (by simp [ha]))]
          tauto

theorem offset_concat (ss ts : List Sl) (d : Nat) (h : canConcat ss ts d = true) (hd : d < ss.length)
    (hs : ∀ s ∈ ss, s.1 ≤ s.2) (idx : List Nat) (hb : inBox (concatSlices ss ts d) idx) :
    ((offset idx (concatSlices ss ts d)).getD d 0 < (ss.map (fun s => s.2 - s.1)).getD d 0 →
      inBox ss idx ∧ offset idx (concatSlices ss ts d) = offset idx ss) ∧
    (¬ (offset idx (concatSlices ss ts d)).getD d 0 < (ss.map (fun s => s.2 - s.1)).getD d 0 →
      inBox ts idx ∧ (offset idx (concatSlices ss ts d)).modify d
        (· - (ss.map (fun s => s.2 - s.1)).getD d 0) = offset idx ts) := by
  induction ss generalizing ts d idx with
  | nil => simp at hd
  | cons s ss ih =>
    obtain _ | ⟨t, ts⟩ := ts
    · simp [canConcat] at h
    · cases d with
      | zero =>
        simp only [canConcat, Bool.and_eq_true, beq_iff_eq] at h
        obtain ⟨h1, rfl⟩ := h
        obtain _ | ⟨i, is⟩ := idx
        · simp [concatSlices, inBox] at hb
        · simp only [concatSlices, inBox] at hb
          have := hs s (by simp)
          simp only [concatSlices, offset, List.zipWith_cons_cons, List.map_cons, List.getD_cons_zero, inBox,
            List.modify_zero_cons, List.cons.injEq, and_true]
          constructor
          · intro h2; exact ⟨⟨by omega, by omega⟩, hb.2⟩
          · intro h2; exact ⟨⟨⟨by omega, by omega⟩, hb.2⟩, by omega⟩
      | succ d =>
        simp only [canConcat, Bool.and_eq_true, beq_iff_eq] at h
        obtain ⟨rfl, h⟩ := h
        obtain _ | ⟨i, is⟩ := idx
        · simp [concatSlices, inBox] at hb
        · simp only [concatSlices, inBox] at hb
          obtain ⟨k1, k2⟩ := ih ts d h (by simpa using hd) (fun a ha => hs a (by simp [ha])) is hb.2
          simp only [concatSlices, offset, List.zipWith_cons_cons, List.map_cons, List.getD_cons_succ, inBox,
            List.modify_succ_cons, List.cons.injEq, true_and]
          simp only [offset] at k1 k2
          exact ⟨fun h2 => ⟨⟨hb.1, (k1 h2).1⟩, (k1 h2).2⟩, fun h2 => ⟨⟨hb.1, (k2 h2).1⟩, (k2 h2).2⟩⟩

theorem shape_concat (ss ts : List Sl) (d : Nat) (h : canConcat ss ts d = true) (hd : d < ss.length)
    (hs : ∀ s ∈ ss, s.1 ≤ s.2) (ht : ∀ s ∈ ts, s.1 ≤ s.2) :
    concatShape (ss.map (fun s => s.2 - s.1)) (ts.map (fun s => s.2 - s.1)) d =
      (concatSlices ss ts d).map (fun s => s.2 - s.1) ∧ (∀ s ∈ concatSlices ss ts d, s.1 ≤ s.2) ∧
      (concatSlices ss ts d).length = ss.length := by
  induction ss generalizing ts d with
  | nil => simp at hd
  | cons s ss ih =>
    obtain _ | ⟨t, ts⟩ := ts
    · simp [canConcat] at h
    · have hss := hs s (by simp)
      have htt := ht t (by simp)
      cases d with
      | zero =>
        simp only [canConcat, Bool.and_eq_true, beq_iff_eq] at h
        simp only [concatShape, concatSlices, List.map_cons, List.cons.injEq, and_true, List.mem_cons,
          List.length_cons]
        refine ⟨by omega, ?_⟩
        rintro a (rfl | ha)
        · simp only; omega
        · exact hs a (by simp [ha])
      | succ d =>
        simp only [canConcat, Bool.and_eq_true, beq_iff_eq] at h
        obtain ⟨k1, k2, k3⟩ := ih ts d h.2 (by simpa using hd) (fun a ha => hs a (by simp [ha]))
          (fun a ha => ht a (by simp [ha]))
        simp only [concatShape, concatSlices, List.map_cons, List.cons.injEq, true_and, List.mem_cons,
          List.length_cons, k1, k3, and_true]
        rintro a (rfl | ha)
        · exact hss
        · exact k2 a ha

/-- Concatenating two faithful slices gives a faithful slice that knows what both knew. -/
theorem concat_faithful (x : List Nat → V) (a b : ND V) (d : Nat) (h : canConcat a.slices b.slices d = true)
    (hd : d < a.slices.length) (ha : Faithful x a) (hb : Faithful x b) :
    Faithful x (concat a b d) ∧ (concat a b d).slices.length = a.slices.length ∧
    ∀ idx, inBox (concat a b d).slices idx ↔ inBox a.slices idx ∨ inBox b.slices idx := by
  obtain ⟨s1, s2, s3⟩ := shape_concat a.slices b.slices d h hd ha.valid hb.valid
  refine ⟨⟨s2, ?_, ?_⟩, s3, box_concat _ _ d h hd ha.valid hb.valid⟩
  · simp only [concat]
    rw [ha.shape, hb.shape, s1]
  · intro idx hidx
    obtain ⟨k1, k2⟩ := offset_concat a.slices b.slices d h hd ha.valid idx hidx
    simp only [concat, concatVal]
    rw [ha.shape]
    split
    · rename_i hlt
      rw [(k1 hlt).2]
      exact ha.val idx (k1 hlt).1
    · rename_i hlt
      rw [(k2 hlt).2]
      exact hb.val idx (k2 hlt).1

theorem firstDim_some {dims : Nat} {a b : ND V} {d : Nat} (h : firstDim dims a b = some d) :
    canConcat a.slices b.slices d = true ∧ d < dims := by
  simp only [firstDim] at h
  exact ⟨by have := List.find?_some h; exact this, List.mem_range.1 (List.mem_of_find?_eq_some h)⟩

theorem hasKey_iff (l : List (ND V)) (n : ND V) : hasKey l n = true ↔ ∃ m ∈ l, m.slices = n.slices := by
  simp [hasKey]

theorem covers_setAdd (l : List (ND V)) (n : ND V) (idx : List Nat) :
    Covers (setAdd l n) idx ↔ Covers l idx ∨ inBox n.slices idx := by
  unfold setAdd
  split
  · rename_i h
    obtain ⟨m, hm, he⟩ := (hasKey_iff l n).1 h
    constructor
    · exact .inl
    · rintro (h | h)
      · exact h
      · exact ⟨m, hm, he ▸ h⟩
  · simp only [Covers, List.mem_append, List.mem_singleton]
    constructor
    · rintro ⟨m, h | rfl, h2⟩
      · exact .inl ⟨m, h, h2⟩
      · exact .inr h2
    · rintro (⟨m, h, h2⟩ | h)
      · exact ⟨m, .inl h, h2⟩
      · exact ⟨n, .inr rfl, h⟩

theorem mem_setAdd {l : List (ND V)} {n m : ND V} (h : m ∈ setAdd l n) : m ∈ l ∨ m = n := by
  unfold setAdd at h
  split at h
  · exact .inl h
  · simpa using h

/-- The greedy merge, for any order of the slices: it knows exactly what they knew and stays faithful. -/
theorem mergeGo_ok (x : List Nat → V) (dims : Nat) (acc : List (ND V)) (active : ND V) (rest : List (ND V))
    (hacc : ∀ n ∈ acc, Faithful x n ∧ n.slices.length = dims)
    (hact : Faithful x active ∧ active.slices.length = dims)
    (hrest : ∀ n ∈ rest, Faithful x n ∧ n.slices.length = dims) :
    (∀ n ∈ mergeGo dims acc active rest, Faithful x n ∧ n.slices.length = dims) ∧
    ∀ idx, Covers (mergeGo dims acc active rest) idx ↔
      Covers acc idx ∨ inBox active.slices idx ∨ Covers rest idx := by
  induction rest generalizing acc active with
  | nil =>
    simp only [mergeGo]
    refine ⟨fun n hn => ?_, fun idx => ?_⟩
    · rcases mem_setAdd hn with h | rfl
      · exact hacc n h
      · exact hact
    · rw [covers_setAdd]; simp [Covers]
  | cons n rest ih =>
    have hn := hrest n (by simp)
    have hrest' : ∀ m ∈ rest, Faithful x m ∧ m.slices.length = dims := fun m hm => hrest m (by simp [hm])
    have hcons : ∀ idx, Covers (n :: rest) idx ↔ inBox n.slices idx ∨ Covers rest idx := by
      intro idx; simp [Covers]
    simp only [mergeGo]
    rcases hfd : firstDim dims active n with _ | d
    · simp only
      obtain ⟨k1, k2⟩ := ih (setAdd acc active) n (fun m hm => by
        rcases mem_setAdd hm with h | rfl
        · exact hacc m h
        · exact hact) hn hrest'
      refine ⟨k1, fun idx => ?_⟩
      rw [k2, covers_setAdd, hcons]; tauto
    · simp only
      obtain ⟨c1, c2⟩ := firstDim_some hfd
      obtain ⟨f1, f2, f3⟩ := concat_faithful x active n d c1 (by omega) hact.1 hn.1
      obtain ⟨k1, k2⟩ := ih acc (concat active n d) hacc ⟨f1, by omega⟩ hrest'
      refine ⟨k1, fun idx => ?_⟩
      rw [k2, f3, hcons]; tauto

theorem covers_union (a b : List (ND V)) (idx : List Nat) :
    Covers (unionSlices a b) idx ↔ Covers a idx ∨ Covers b idx := by
  simp only [Covers, unionSlices, List.mem_append, List.mem_filter]
  constructor
  · rintro ⟨n, h | ⟨h, -⟩, h2⟩
    · exact .inl ⟨n, h, h2⟩
    · exact .inr ⟨n, h, h2⟩
  · rintro (⟨n, h, h2⟩ | ⟨n, h, h2⟩)
    · exact ⟨n, .inl h, h2⟩
    · by_cases hk : hasKey a n = true
      · obtain ⟨m, hm, he⟩ := (hasKey_iff a n).1 hk
        exact ⟨m, .inl hm, he ▸ h2⟩
      · exact ⟨n, .inr ⟨h, by simpa using hk⟩, h2⟩

end Verif.Inverse
