import Verif.NN.Model

/-!
# Row-major indexing
-/

namespace Verif.NN

theorem mem_indices {s idx : List Nat} :
    idx ∈ indices s ↔ List.Forall₂ (fun i n => i < n) idx s := by
  induction s generalizing idx with
  | nil => simp [indices]
  | cons n s ih =>
    simp only [indices, List.mem_flatMap, List.mem_range, List.mem_map]
    constructor
    · rintro ⟨i, hi, t, ht, rfl⟩
      exact List.Forall₂.cons hi (ih.1 ht)
    · intro h
      cases h with
      | cons h1 h2 => exact ⟨_, h1, _, ih.2 h2, rfl⟩

theorem length_indices (s : List Nat) : (indices s).length = s.prod := by
  induction s with
  | nil => rfl
  | cons n s ih =>
    simp only [indices, List.length_flatMap, List.length_map, ih, List.prod_cons]
    simp

theorem ravel_lt {s idx : List Nat} (h : idx ∈ indices s) : ravel s idx < s.prod := by
  induction s generalizing idx with
  | nil => simp [indices] at h; subst h; simp [ravel]
  | cons n s ih =>
    rw [mem_indices] at h
    cases h with
    | @cons i _ t _ h1 h2 =>
      have := ih (mem_indices.2 h2)
      simp only [ravel, List.prod_cons]
      calc i * s.prod + ravel s t < i * s.prod + s.prod := by omega
        _ = (i + 1) * s.prod := by ring
        _ ≤ n * s.prod := Nat.mul_le_mul_right _ h1

/-- Blocks of equal length: the entry at `i * m + j` is entry `j` of block `i`. -/
theorem getElem?_flatMap_blocks {α β : Type} (f : α → List β) (m : Nat) :
    ∀ (l : List α), (∀ a ∈ l, (f a).length = m) → ∀ i j, j < m →
      (l.flatMap f)[i * m + j]? = (l[i]?).bind fun a => (f a)[j]? := by
  intro l
  induction l with
  | nil => intro _ i j _; simp
  | cons a l ih =>
    intro h i j hj
    rw [List.flatMap_cons]
    have ha := h a (by simp)
    cases i with
    | zero =>
      rw [Nat.zero_mul, Nat.zero_add, List.getElem?_append_left (by omega)]
      simp
    | succ i =>
      rw [List.getElem?_append_right (by rw [ha]; nlinarith), ha]
      have : (i + 1) * m + j - m = i * m + j := by
        rw [Nat.add_mul]; omega
      rw [this, ih (fun b hb => h b (List.mem_cons_of_mem _ hb)) i j hj]
      simp

/-- The multi-index at position `ravel s idx` is `idx`. -/
theorem indices_ravel {s idx : List Nat} (h : idx ∈ indices s) :
    (indices s)[ravel s idx]? = some idx := by
  induction s generalizing idx with
  | nil => simp [indices] at h; subst h; rfl
  | cons n s ih =>
    have h' := mem_indices.1 h
    cases h' with
    | @cons i _ t _ h1 h2 =>
      have ht := mem_indices.2 h2
      simp only [indices, ravel]
      rw [getElem?_flatMap_blocks (fun i => (indices s).map (i :: ·)) s.prod _
        (by intro a _; simp [length_indices]) i (ravel s t) (ravel_lt ht)]
      simp [h1, ih ht]

/-- Indexing an array that is given by a function of the multi-index. -/
theorem get_map_indices (s : List Nat) (f : List Nat → ℝ) {idx : List Nat} (h : idx ∈ indices s) :
    Arr.get ⟨s, (indices s).map f⟩ idx = f idx := by
  unfold Arr.get
  simp only
  rw [List.getD_eq_getElem?_getD, List.getElem?_map, indices_ravel h]
  rfl

/-- An in-range index reads one of the entries. -/
theorem get_mem {x : Arr} (hx : x.WF) {idx : List Nat} (h : idx ∈ indices x.shape) :
    x.get idx ∈ x.data := by
  have hl : ravel x.shape idx < x.data.length := by rw [hx]; exact ravel_lt h
  unfold Arr.get
  rw [List.getD_eq_getElem?_getD, List.getElem?_eq_getElem hl]
  exact List.getElem_mem hl

/-- Arrays given by a function of the multi-index are well formed. -/
theorem wf_map_indices (s : List Nat) (f : List Nat → ℝ) :
    Arr.WF ⟨s, (indices s).map f⟩ := by
  simp [Arr.WF, length_indices]

/-- A well-formed array is determined by its indexing function. -/
theorem eq_map_indices {x : Arr} (hx : x.WF) : x = ⟨x.shape, (indices x.shape).map x.get⟩ := by
  obtain ⟨s, d⟩ := x
  simp only [Arr.WF] at hx
  congr 1
  simp only
  have key : ∀ (s : List Nat) (d : List ℝ), d.length = s.prod →
      (indices s).map (fun idx => d.getD (ravel s idx) 0) = d := by
    intro s
    induction s with
    | nil =>
      intro d hd
      obtain ⟨v, rfl⟩ := List.length_eq_one_iff.1 (by simpa using hd)
      simp [indices, ravel]
    | cons n s ih =>
      intro d hd
      simp only [indices, List.map_flatMap, List.map_map, Function.comp_def, ravel]
      induction n generalizing d with
      | zero => simp at hd; subst hd; rfl
      | succ n ihn =>
        rw [List.range_succ, List.flatMap_append]
        have hd' : d.length = n * s.prod + s.prod := by rw [hd, List.prod_cons]; ring
        have e : d = d.take (n * s.prod) ++ d.drop (n * s.prod) := (List.take_append_drop ..).symm
        have l1 : (d.take (n * s.prod)).length = n * s.prod := by simp [hd']
        conv_rhs => rw [e]
        congr 1
        · have := ihn (d.take (n * s.prod)) (by rw [l1, List.prod_cons])
          rw [← this]
          refine List.flatMap_congr fun i hi => List.map_congr_left fun t ht => ?_
          have hi' := List.mem_range.1 hi
          have h1 := ravel_lt ht
          have : i * s.prod + ravel s t < n * s.prod := by
            have : (i + 1) * s.prod ≤ n * s.prod := Nat.mul_le_mul_right _ hi'
            rw [Nat.add_mul] at this; omega
          simp only [List.getD_eq_getElem?_getD, List.getElem?_take, this, if_true]
        · have := ih (d.drop (n * s.prod)) (by rw [List.length_drop, hd']; omega)
          rw [← this]
          simp only [List.flatMap_cons, List.flatMap_nil, List.append_nil]
          refine List.map_congr_left fun t ht => ?_
          simp only [List.getD_eq_getElem?_getD, List.getElem?_drop]
  exact (key s d hx).symm

end Verif.NN
