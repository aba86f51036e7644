import Verif.NN.Index
import Mathlib.Data.List.Perm.Basic
import Mathlib.Data.List.Nodup
import Mathlib.Tactic.Linarith

/-!
# C55: pooling
-/

namespace Verif.NN

/-! ### Sizes -/

theorem pads_valid (n w s : Nat) : pads false n w s = (0, 0) := rfl

theorem windowOut_of {same : Bool} {n w s t : Nat} (h : (pads same n w s).1 + (pads same n w s).2 = t) :
    (n + t < w → windowOut same n w s = 0) ∧
    (w ≤ n + t → windowOut same n w s = (n + t - w) / s + 1) := by
  subst h
  constructor
  · intro h
    exact if_pos (by omega)
  · intro h
    refine (if_neg (by omega)).trans ?_
    rw [Nat.add_assoc]

/-- Half the total `SAME` padding, rounded down, comes first. -/
def sameTotal (n w s : Nat) : Nat := (n + s - 1) / s * s + w - (s + n)

theorem pads_same (n w s : Nat) :
    pads true n w s = (sameTotal n w s / 2, sameTotal n w s - sameTotal n w s / 2) := rfl

theorem ceil_bounds {n s : Nat} (hn : 0 < n) (hs : 0 < s) :
    0 < (n + s - 1) / s ∧ n ≤ (n + s - 1) / s * s ∧ ((n + s - 1) / s - 1) * s < n := by
  have h1 := Nat.div_mul_le_self (n + s - 1) s
  have h2 := Nat.lt_div_mul_add hs (a := n + s - 1)
  have hpos : 0 < (n + s - 1) / s := Nat.div_pos (by omega) hs
  refine ⟨hpos, by omega, ?_⟩
  rw [Nat.sub_mul]; omega

theorem sameTotal_lt {n w s : Nat} (hn : 0 < n) (hw : 0 < w) (hs : 0 < s) : sameTotal n w s < w := by
  obtain ⟨h0, h1, h2⟩ := ceil_bounds hn hs
  unfold sameTotal
  rw [Nat.sub_mul] at h2
  generalize (n + s - 1) / s * s = q at *
  omega

/-- **C55, sizes.** With padding `SAME` the output has `⌈n / s⌉` positions. -/
theorem C55_same_size {n w s : Nat} (hn : 0 < n) (hw : 0 < w) (hs : 0 < s) :
    windowOut true n w s = (n + s - 1) / s := by
  obtain ⟨h0, h1, h2⟩ := ceil_bounds hn hs
  have ht := sameTotal_lt hn hw hs
  have hw' := windowOut_of (same := true) (n := n) (w := w) (s := s) (t := sameTotal n w s)
    (by rw [pads_same]; simp only; omega)
  rw [Nat.sub_mul] at h2
  have hu : sameTotal n w s = (n + s - 1) / s * s + w - (s + n) := rfl
  have hm : s ≤ (n + s - 1) / s * s := Nat.le_mul_of_pos_left _ h0
  have hge : w ≤ n + sameTotal n w s := by omega
  rw [hw'.2 hge]
  have key : (n + sameTotal n w s - w) / s = (n + s - 1) / s - 1 := by
    rw [Nat.div_eq_iff hs, Nat.sub_mul]
    omega
  rw [key]; omega

/-- With stride 1, `SAME` keeps the size. -/
theorem C55_same_size_stride_one {n w : Nat} (hn : 0 < n) (hw : 0 < w) : windowOut true n w 1 = n := by
  rw [C55_same_size hn hw Nat.one_pos]; simp

/-- With padding `VALID` output position `o` exists exactly when its whole window is inside. -/
theorem C55_valid_size {n w s o : Nat} (hs : 0 < s) (hw : 0 < w) :
    o < windowOut false n w s ↔ o * s + w ≤ n := by
  have hw' := windowOut_of (same := false) (n := n) (w := w) (s := s) (t := 0) rfl
  rcases Nat.lt_or_ge n w with h | h
  · rw [hw'.1 h]; omega
  · rw [hw'.2 h, Nat.lt_succ_iff, Nat.le_div_iff_mul_le hs]
    omega

/-! ### Windows -/

/-- Specification: position `p` of the input is in the window of output position `o`: the window
starts at `o * s` in the padded input, where the input starts at `lo`. -/
def inWindow1 (same : Bool) (n w s o p : Nat) : Bool :=
  decide (o * s ≤ p + (pads same n w s).1) && decide (p + (pads same n w s).1 < o * s + w)

/-- Specification: in every dimension. -/
def inWindow (same : Bool) : List Nat → List Nat → List Nat → List Nat → List Nat → Bool
  | n :: ns, w :: ws, s :: ss, o :: os, p :: ps => inWindow1 same n w s o p && inWindow same ns ws ss os ps
  | _, _, _, _, _ => true

theorem window1_perm (same : Bool) (n w s o : Nat) :
    ((List.range w).filterMap (windowPos same n w s o)).Perm
      ((List.range n).filter (inWindow1 same n w s o)) := by
  have hw : ∀ off p, windowPos same n w s o off = some p ↔
      p < n ∧ p + (pads same n w s).1 = o * s + off := by
    intro off p
    unfold windowPos
    simp only
    split
    · rename_i h
      rw [Option.some.injEq]; omega
    · rename_i h
      constructor
      · intro h'; cases h'
      · intro h'; omega
  rw [List.perm_ext_iff_of_nodup]
  · intro p
    simp only [List.mem_filterMap, List.mem_filter, List.mem_range, inWindow1, Bool.and_eq_true,
      decide_eq_true_eq, hw]
    constructor
    · rintro ⟨off, h1, h2, h3⟩; omega
    · rintro ⟨h1, h2, h3⟩
      exact ⟨p + (pads same n w s).1 - o * s, by omega, h1, by omega⟩
  · refine List.Nodup.filterMap ?_ List.nodup_range
    intro a a' b ha ha'
    have h1 := (hw a b).1 ha
    have h2 := (hw a' b).1 ha'
    omega
  · exact List.nodup_range.filter _

/-- The multi-indices under a window. -/
theorem window_perm (same : Bool) : ∀ (ns ws ss os : List Nat), ns.length = ws.length →
    ws.length = ss.length → ss.length = os.length →
    ((indices ws).filterMap (windowIdx same ns ws ss os)).Perm
      ((indices ns).filter (inWindow same ns ws ss os))
  | [], [], [], [], _, _, _ => by simp [indices, windowIdx, inWindow]
  | n :: ns, w :: ws, s :: ss, o :: os, h1, h2, h3 => by
    have ih := window_perm same ns ws ss os (by simpa using h1) (by simpa using h2) (by simpa using h3)
    have e1 : (indices (w :: ws)).filterMap (windowIdx same (n :: ns) (w :: ws) (s :: ss) (o :: os))
        = ((List.range w).filterMap (windowPos same n w s o)).flatMap fun i =>
          ((indices ws).filterMap (windowIdx same ns ws ss os)).map (i :: ·) := by
      simp only [indices]
      rw [List.filterMap_flatMap]
      generalize List.range w = l
      induction l with
      | nil => rfl
      | cons off l ihl =>
        rw [List.flatMap_cons, ihl, List.filterMap_cons]
        rcases h : windowPos same n w s o off with _ | i
        · simp only
          rw [List.filterMap_map, List.filterMap_eq_nil_iff.2, List.nil_append]
          intro t _
          simp [windowIdx, h]
        · simp only [List.flatMap_cons]
          congr 1
          rw [List.filterMap_map, List.map_filterMap]
          refine List.filterMap_congr fun t _ => ?_
          simp only [Function.comp_apply, windowIdx, h, bind, Option.bind, pure]
          rcases windowIdx same ns ws ss os t <;> rfl
    have e2 : (indices (n :: ns)).filter (inWindow same (n :: ns) (w :: ws) (s :: ss) (o :: os))
        = ((List.range n).filter (inWindow1 same n w s o)).flatMap fun i =>
          ((indices ns).filter (inWindow same ns ws ss os)).map (i :: ·) := by
      simp only [indices]
      rw [List.filter_flatMap]
      generalize List.range n = l
      induction l with
      | nil => rfl
      | cons p l ihl =>
        rw [List.flatMap_cons, ihl, List.filter_cons]
        by_cases h : inWindow1 same n w s o p = true
        · rw [if_pos h, List.flatMap_cons]
          congr 1
          rw [List.filter_map]
          congr 1
          refine List.filter_congr fun t _ => ?_
          simp [inWindow, h]
        · rw [if_neg h]
          rw [List.filter_map, List.filter_eq_nil_iff.2]
          · rfl
          · intro t _
            simp [inWindow, h]
    rw [e1, e2]
    exact ((window1_perm same n w s o).flatMap_right _).trans
      (List.Perm.flatMap_left _ fun i _ => ih.map _)
  | [], _ :: _, _, _, h, _, _ => by simp at h
  | _ :: _, [], _, _, h, _, _ => by simp at h
  | [], [], _ :: _, _, _, h, _ => by simp at h
  | _ :: _, _ :: _, [], _, _, h, _ => by simp at h
  | [], [], [], _ :: _, _, _, h => by simp at h
  | _ :: _, _ :: _, _ :: _, [], _, _, h => by simp at h

/-- The entries reduced for an output position are the entries of the input in its window. -/
theorem windowEntries_perm (same : Bool) (x : Arr) (ws ss os : List Nat)
    (h1 : x.shape.length = ws.length) (h2 : ws.length = ss.length) (h3 : ss.length = os.length) :
    (windowEntries same x ws ss os).Perm
      (((indices x.shape).filter (inWindow same x.shape ws ss os)).map x.get) := by
  unfold windowEntries
  rw [← List.map_filterMap]
  exact (window_perm same x.shape ws ss os h1 h2 h3).map _

theorem window1_nonempty (same : Bool) {n w s o : Nat} (hw : 0 < w) (hs : 0 < s) (hn : 0 < n)
    (ho : o < windowOut same n w s) : ∃ p < n, inWindow1 same n w s o p = true := by
  simp only [inWindow1, Bool.and_eq_true, decide_eq_true_eq]
  cases same
  · rw [C55_valid_size hs hw] at ho
    simp only [pads_valid, Nat.add_zero]
    exact ⟨o * s, by omega, by omega, by omega⟩
  · rw [C55_same_size hn hw hs] at ho
    have ht := sameTotal_lt hn hw hs
    obtain ⟨h0, h1, h2⟩ := ceil_bounds hn hs
    have ho' : o * s ≤ ((n + s - 1) / s - 1) * s := Nat.mul_le_mul_right _ (by omega)
    simp only [pads_same]
    by_cases h : o * s ≤ sameTotal n w s / 2
    · exact ⟨0, hn, by omega, by omega⟩
    · exact ⟨o * s - sameTotal n w s / 2, by omega, by omega, by omega⟩

/-- Windows of existing output positions are not empty. -/
theorem window_nonempty (same : Bool) : ∀ (ns ws ss os : List Nat), ns.length = ws.length →
    ws.length = ss.length → (∀ w ∈ ws, 0 < w) → (∀ s ∈ ss, 0 < s) → (∀ n ∈ ns, 0 < n) →
    os ∈ indices (windowShape same ns ws ss) →
    ∃ p ∈ indices ns, inWindow same ns ws ss os p = true
  | [], [], [], os, _, _, _, _, _, h => ⟨[], by simp [indices], by cases os <;> rfl⟩
  | n :: ns, w :: ws, s :: ss, os, h1, h2, hw, hs, hn, h => by
    simp only [windowShape] at h
    have h' := mem_indices.1 h
    cases h' with
    | @cons o _ os _ ho hos =>
      obtain ⟨p, hp, hp'⟩ := window_nonempty same ns ws ss os (by simpa using h1) (by simpa using h2)
        (fun w h => hw w (List.mem_cons_of_mem _ h)) (fun w h => hs w (List.mem_cons_of_mem _ h))
        (fun w h => hn w (List.mem_cons_of_mem _ h)) (mem_indices.2 hos)
      obtain ⟨q, hq, hq'⟩ := window1_nonempty same (hw w (by simp)) (hs s (by simp)) (hn n (by simp)) ho
      exact ⟨q :: p, mem_indices.2 (.cons hq (mem_indices.1 hp)), by simp [inWindow, hp', hq']⟩
  | [], _ :: _, _, _, h, _, _, _, _, _ => by simp at h
  | _ :: _, [], _, _, h, _, _, _, _, _ => by simp at h
  | [], [], _ :: _, _, _, h, _, _, _, _ => by simp at h
  | _ :: _, _ :: _, [], _, _, h, _, _, _, _ => by simp at h

theorem windowShape_length (same : Bool) : ∀ (ns ws ss : List Nat), ns.length = ws.length →
    ws.length = ss.length → (windowShape same ns ws ss).length = ns.length
  | [], [], [], _, _ => rfl
  | n :: ns, w :: ws, s :: ss, h1, h2 => by
    simp only [windowShape, List.length_cons]
    rw [windowShape_length same ns ws ss (by simpa using h1) (by simpa using h2)]
  | [], _ :: _, _, h, _ => by simp at h
  | _ :: _, [], _, h, _ => by simp at h
  | [], [], _ :: _, _, h => by simp at h
  | _ :: _, _ :: _, [], _, h => by simp at h

/-- `max` never sees an empty window. -/
theorem windowEntries_ne_nil (same : Bool) (x : Arr) (ws ss os : List Nat)
    (h1 : x.shape.length = ws.length) (h2 : ws.length = ss.length) (hw : ∀ w ∈ ws, 0 < w)
    (hs : ∀ s ∈ ss, 0 < s) (hn : ∀ n ∈ x.shape, 0 < n)
    (h : os ∈ indices (windowShape same x.shape ws ss)) : windowEntries same x ws ss os ≠ [] := by
  obtain ⟨p, hp, hp'⟩ := window_nonempty same x.shape ws ss os h1 h2 hw hs hn h
  have hl : os.length = ss.length := by
    rw [(mem_indices.1 h).length_eq, windowShape_length _ _ _ _ h1 h2]; omega
  intro he
  have := windowEntries_perm same x ws ss os h1 h2 hl.symm
  rw [he, List.nil_perm, List.map_eq_nil_iff] at this
  have : p ∈ ([] : List (List Nat)) := this ▸ List.mem_filter.2 ⟨hp, hp'⟩
  simp at this

/-! ### A leading axis -/

/-- Example `i` of a batch. -/
def slice (i : Nat) (x : Arr) : Arr :=
  ⟨x.shape.tail, (x.data.drop (i * x.shape.tail.prod)).take x.shape.tail.prod⟩

theorem get_slice {b : Nat} {s : List Nat} (x : Arr) (hx : x.shape = b :: s) {i : Nat} {idx : List Nat}
    (h : idx ∈ indices s) : (slice i x).get idx = x.get (i :: idx) := by
  obtain ⟨sh, d⟩ := x
  simp only at hx
  subst hx
  simp only [Arr.get, slice, List.tail_cons, ravel, List.getD_eq_getElem?_getD, List.getElem?_take,
    List.getElem?_drop, ravel_lt h, if_true]

theorem windowOut_one (same : Bool) (b : Nat) : windowOut same b 1 1 = b ∧
    pads same b 1 1 = (0, 0) := by
  have hp : pads same b 1 1 = (0, 0) := by
    cases same
    · rfl
    · rw [pads_same]
      have : sameTotal b 1 1 = 0 := by simp [sameTotal]
      rw [this]
  have hw' := windowOut_of (same := same) (n := b) (w := 1) (s := 1) (t := 0) (by simp [hp])
  refine ⟨?_, hp⟩
  rcases Nat.lt_or_ge b 1 with h | h
  · rw [hw'.1 h]; omega
  · rw [hw'.2 h, Nat.div_one]; omega

theorem windowIdx_range (same : Bool) : ∀ (ns ws ss os offs ps : List Nat),
    windowIdx same ns ws ss os offs = some ps → ps ∈ indices ns
  | [], [], [], [], [], ps, h => by cases h; simp [indices]
  | n :: ns, w :: ws, s :: ss, o :: os, off :: offs, ps, h => by
    simp only [windowIdx, bind, pure, Option.bind_eq_some_iff, Option.some.injEq] at h
    obtain ⟨i, hi, is, his, rfl⟩ := h
    refine mem_indices.2 (.cons ?_ (mem_indices.1 (windowIdx_range same ns ws ss os offs is his)))
    unfold windowPos at hi
    simp only at hi
    split at hi
    · rename_i hc
      cases hi
      exact hc.2
    · cases hi

theorem windowEntries_batch (same : Bool) {b : Nat} {s : List Nat} (x : Arr) (hx : x.shape = b :: s)
    (ws ss os : List Nat) {i : Nat} (hi : i < b) :
    windowEntries same x (1 :: ws) (1 :: ss) (i :: os) = windowEntries same (slice i x) ws ss os := by
  unfold windowEntries
  have hs : (slice i x).shape = s := by simp [slice, hx]
  rw [hs, hx]
  simp only [indices]
  rw [show List.range 1 = [0] from rfl, List.flatMap_cons, List.flatMap_nil, List.append_nil,
    List.filterMap_map]
  refine List.filterMap_congr fun off _ => ?_
  have hp : windowPos same b 1 1 i 0 = some i := by
    simp [windowPos, (windowOut_one same b).2, hi]
  simp only [Function.comp_apply, windowIdx, hp, bind, Option.bind, pure]
  rcases h : windowIdx same s ws ss os off with _ | ps
  · rfl
  · simp only [Option.map_some]
    rw [get_slice x hx (windowIdx_range same _ _ _ _ _ _ h)]

/-- **C55, batching.** The batched pooling rule, used under `vmap`, computes for every example of the
batch what pooling that example alone computes. -/
theorem reduceWindow_batch (same : Bool) (f : List ℝ → ℝ) (ws ss : List Nat) (x : Arr) {b : Nat}
    {s : List Nat} (hx : x.shape = b :: s) {y : Arr}
    (h : reduceWindow same f (1 :: ws) (1 :: ss) x = .ok y) :
    y.shape = b :: windowShape same s ws ss ∧ y.WF ∧
    ∀ i < b, reduceWindow same f ws ss (slice i x) = .ok (slice i y) := by
  unfold reduceWindow at h
  split at h
  · rename_i hc
    cases h
    obtain ⟨c1, c2, c3⟩ := hc
    have hsh : windowShape same x.shape (1 :: ws) (1 :: ss) = b :: windowShape same s ws ss := by
      rw [hx]; simp only [windowShape, (windowOut_one same b).1]
    refine ⟨hsh, wf_map_indices _ _, fun i hi => ?_⟩
    have hs : (slice i x).shape = s := by simp [slice, hx]
    unfold reduceWindow
    rw [hs]
    have hc' : s.length = ws.length ∧ ws.length = ss.length ∧ (ss.all fun x => decide (0 < x)) = true := by
      refine ⟨?_, by simpa using c2, by simpa using c3⟩
      rw [hx] at c1; simpa using c1
    rw [if_pos hc']
    simp only [slice, hsh, List.tail_cons]
    congr 2
    set t := windowShape same s ws ss with ht
    refine List.ext_getElem? fun j => ?_
    by_cases hj : j < t.prod
    · rw [List.getElem?_take, if_pos hj, List.getElem?_drop, List.getElem?_map, List.getElem?_map]
      simp only [indices]
      rw [getElem?_flatMap_blocks (fun i => (indices t).map (i :: ·)) t.prod _
        (by intro a _; simp [length_indices]) i j hj]
      rw [List.getElem?_range hi]
      simp only [Option.bind_some, List.getElem?_map]
      rcases h : (indices t)[j]? with _ | idx
      · rfl
      · simp only [Option.map_some]
        rw [windowEntries_batch same x hx ws ss idx hi]
        rfl
    · rw [List.getElem?_eq_none, List.getElem?_eq_none]
      · simp only [List.length_take]; omega
      · simp only [List.length_map, length_indices]; omega
  · cases h

theorem slice_newaxis {x : Arr} (hx : x.WF) : slice 0 (newaxis x) = x := by
  obtain ⟨s, d⟩ := x
  simp only [Arr.WF] at hx
  simp [slice, newaxis, ← hx]

theorem slice_wf {x : Arr} (hx : x.WF) {b : Nat} {s : List Nat} (hs : x.shape = b :: s) {i : Nat}
    (hi : i < b) : (slice i x).WF := by
  obtain ⟨sh, d⟩ := x
  simp only [Arr.WF] at hx hs
  subst hs
  simp only [slice, Arr.WF, List.tail_cons, List.length_take, List.length_drop, hx, List.prod_cons]
  have : (i + 1) * s.prod ≤ b * s.prod := Nat.mul_le_mul_right _ hi
  rw [Nat.add_mul] at this
  omega

/-- Pooling one example. -/
theorem poolApply_iff (kind : PoolKind) (w st : List Nat) (same : Bool) (x y : Arr) (hx : x.WF) :
    poolApply kind w st same x = .ok y ↔ x.shape.length ≤ 3 ∧
      reduceWindow same (poolReduce kind) (w ++ [1]) (st ++ [1]) x = .ok y := by
  unfold poolApply
  split
  · rename_i h
    constructor
    · intro h; cases h
    · intro h; omega
  rename_i h
  simp only [poolBatched, bind, Except.bind, List.cons_append]
  have key := @reduceWindow_batch same (poolReduce kind) (w ++ [1]) (st ++ [1]) (newaxis x) 1 x.shape rfl
  have hc : (newaxis x).shape.length = (1 :: (w ++ [1])).length ∧
      (1 :: (w ++ [1])).length = (1 :: (st ++ [1])).length ∧
      ((1 :: (st ++ [1])).all fun x => decide (0 < x)) = true ↔
      x.shape.length = (w ++ [1]).length ∧ (w ++ [1]).length = (st ++ [1]).length ∧
      ((st ++ [1]).all fun x => decide (0 < x)) = true := by
    simp [newaxis]
  rcases hr : reduceWindow same (poolReduce kind) (1 :: (w ++ [1])) (1 :: (st ++ [1])) (newaxis x)
    with e | z
  · simp only []
    constructor
    · intro h; cases h
    · rintro ⟨_, h'⟩
      unfold reduceWindow at hr h'
      split at hr
      · cases hr
      · rename_i hn
        rw [if_neg fun h => hn (hc.2 h)] at h'
        cases h'
  · simp only []
    obtain ⟨k1, k2, k3⟩ := key hr
    have k3 := k3 0 Nat.one_pos
    rw [slice_newaxis hx] at k3
    rw [k3]
    have : first z = .ok (slice 0 z) := by
      unfold first
      rw [k1]
      simp [slice, k1]
    rw [this]
    constructor
    · intro h'; exact ⟨by omega, h'⟩
    · intro h'; exact h'.2

/-- Specification: the entries of `x` that pooling reduces for the output index `idx`. The last axis
is the channel axis: its window is the single channel. -/
def pooled (same : Bool) (w st : List Nat) (x : Arr) (idx : List Nat) : List ℝ :=
  ((indices x.shape).filter (inWindow same x.shape (w ++ [1]) (st ++ [1]) idx)).map x.get

theorem foldl_max_spec (l : List ℝ) (a : ℝ) :
    (l.foldl max a = a ∨ l.foldl max a ∈ l) ∧ a ≤ l.foldl max a ∧ ∀ v ∈ l, v ≤ l.foldl max a := by
  induction l generalizing a with
  | nil => simp
  | cons b l ih =>
    obtain ⟨h1, h2, h3⟩ := ih (max a b)
    simp only [List.foldl_cons]
    refine ⟨?_, (le_max_left _ _).trans h2, ?_⟩
    · rcases h1 with h1 | h1
      · rw [h1]
        rcases max_choice a b with h | h
        · exact .inl h
        · right; rw [h]; simp
      · exact .inr (List.mem_cons_of_mem _ h1)
    · intro v hv
      rcases List.mem_cons.1 hv with rfl | hv
      · exact (le_max_right _ _).trans h2
      · exact h3 v hv

theorem poolReduce_max_spec {l : List ℝ} (h : l ≠ []) :
    poolReduce .max l ∈ l ∧ ∀ v ∈ l, v ≤ poolReduce .max l := by
  obtain ⟨a, l, rfl⟩ := List.exists_cons_of_ne_nil h
  obtain ⟨h1, h2, h3⟩ := foldl_max_spec (a :: l) a
  simp only [poolReduce, List.headD_cons]
  refine ⟨?_, h3⟩
  rcases h1 with h1 | h1
  · rw [h1]; simp
  · exact h1

/-- **C55.** Every output entry of a pooling layer is the greatest entry, the sum, or the average
(padding not counted) of the input entries in its window, and no window is empty. -/
theorem C55_pooling (kind : PoolKind) (w st : List Nat) (same : Bool) (x y : Arr) (hx : x.WF)
    (hw : ∀ d ∈ w, 0 < d) (hn : ∀ d ∈ x.shape, 0 < d)
    (h : poolApply kind w st same x = .ok y) :
    y.shape = windowShape same x.shape (w ++ [1]) (st ++ [1]) ∧ y.WF ∧
    ∀ idx ∈ indices y.shape, pooled same w st x idx ≠ [] ∧
      match kind with
      | .max => y.get idx ∈ pooled same w st x idx ∧ ∀ v ∈ pooled same w st x idx, v ≤ y.get idx
      | .sum => y.get idx = (pooled same w st x idx).sum
      | .avg => y.get idx = (pooled same w st x idx).sum / (pooled same w st x idx).length := by
  obtain ⟨_, hr⟩ := (poolApply_iff kind w st same x y hx).1 h
  unfold reduceWindow at hr
  split at hr
  · rename_i hc
    cases hr
    obtain ⟨c1, c2, c3⟩ := hc
    refine ⟨rfl, wf_map_indices _ _, fun idx hidx => ?_⟩
    simp only at hidx
    have hl : idx.length = (st ++ [1]).length := by
      rw [(mem_indices.1 hidx).length_eq, windowShape_length _ _ _ _ c1 c2]; omega
    have hp := windowEntries_perm same x (w ++ [1]) (st ++ [1]) idx c1 c2 hl.symm
    have hne := windowEntries_ne_nil same x (w ++ [1]) (st ++ [1]) idx c1 c2
      (by intro d hd; rcases List.mem_append.1 hd with hd | hd
          · exact hw d hd
          · rw [List.mem_singleton.1 hd]; exact Nat.one_pos)
      (by intro d hd; simpa using List.all_eq_true.1 c3 d hd) hn hidx
    change (windowEntries same x (w ++ [1]) (st ++ [1]) idx).Perm (pooled same w st x idx) at hp
    rw [get_map_indices _ _ hidx]
    refine ⟨fun h => hne (List.perm_nil.1 (h ▸ hp)), ?_⟩
    cases kind with
    | max =>
      obtain ⟨m1, m2⟩ := poolReduce_max_spec hne
      exact ⟨hp.mem_iff.1 m1, fun v hv => m2 v (hp.mem_iff.2 hv)⟩
    | sum => exact hp.sum_eq
    | avg =>
      simp only [poolReduce]
      rw [hp.sum_eq, hp.length_eq]
  · cases hr

/-- **C55, batching.** The batched rule used under `vmap` computes for every example what pooling the
example alone computes. -/
theorem C55_pooling_batched (kind : PoolKind) (w st : List Nat) (same : Bool) (x y : Arr) (hx : x.WF)
    {b : Nat} {s : List Nat} (hs : x.shape = b :: s) (h3 : s.length ≤ 3)
    (h : poolBatched kind w st same x = .ok y) :
    y.WF ∧ (∃ t, y.shape = b :: t) ∧
    ∀ i < b, poolApply kind w st same (slice i x) = .ok (slice i y) := by
  obtain ⟨h1, h2, h4⟩ := reduceWindow_batch same (poolReduce kind) (w ++ [1]) (st ++ [1]) x hs
    (y := y) (by rw [poolBatched] at h; exact h)
  refine ⟨h2, ⟨_, h1⟩, fun i hi => ?_⟩
  rw [poolApply_iff _ _ _ _ _ _ (slice_wf hx hs hi)]
  refine ⟨?_, h4 i hi⟩
  simpa [slice, hs] using h3

/-- **C55, bounds.** Maximum and average pooling stay between any bounds on the input entries. -/
theorem C55_pooling_bounds (kind : PoolKind) (hk : kind = .max ∨ kind = .avg) (w st : List Nat)
    (same : Bool) (x y : Arr) (hx : x.WF) (hw : ∀ d ∈ w, 0 < d) (hn : ∀ d ∈ x.shape, 0 < d)
    (h : poolApply kind w st same x = .ok y) (lo hi : ℝ) (hb : ∀ v ∈ x.data, lo ≤ v ∧ v ≤ hi) :
    ∀ idx ∈ indices y.shape, lo ≤ y.get idx ∧ y.get idx ≤ hi := by
  intro idx hidx
  obtain ⟨_, _, h3⟩ := C55_pooling kind w st same x y hx hw hn h
  obtain ⟨hne, hv⟩ := h3 idx hidx
  have hb' : ∀ v ∈ pooled same w st x idx, lo ≤ v ∧ v ≤ hi := by
    intro v hv
    obtain ⟨p, hp, rfl⟩ := List.mem_map.1 hv
    exact hb _ (get_mem hx (List.mem_filter.1 hp).1)
  rcases hk with rfl | rfl
  · exact hb' _ hv.1
  · simp only at hv
    have hpos : (0 : ℝ) < (pooled same w st x idx).length := by
      exact_mod_cast List.length_pos_iff.2 hne
    rw [hv, le_div_iff₀ hpos, div_le_iff₀ hpos]
    have hsum : ∀ l : List ℝ, (∀ v ∈ l, lo ≤ v ∧ v ≤ hi) →
        lo * l.length ≤ l.sum ∧ l.sum ≤ hi * l.length := by
      intro l
      induction l with
      | nil => simp
      | cons a l ih =>
        intro hl
        obtain ⟨i1, i2⟩ := ih fun v hv => hl v (List.mem_cons_of_mem _ hv)
        obtain ⟨a1, a2⟩ := hl a (by simp)
        simp only [List.sum_cons, List.length_cons, Nat.cast_add, Nat.cast_one]
        constructor <;> linarith
    exact hsum _ hb'

/-- The hypotheses can be met: `AvgPooling((2,), padding='SAME')` on three entries of one channel; the
last window has one entry that is not padding. -/
example : ∃ y, poolApply .avg [2] [1] true ⟨[3, 1], [1, 2, 4]⟩ = .ok y ∧ y.shape = [3, 1] ∧
    y.data = [3 / 2, 3, 4] := by
  refine ⟨_, rfl, by decide, ?_⟩
  simp [newaxis, windowShape, windowOut, pads, indices, windowEntries, windowIdx, windowPos, Arr.get,
    ravel, poolReduce, List.range_succ]
  norm_num

end Verif.NN
