import Verif.Autoconj.Canon
import Verif.Autoconj.EinsumLemmas

/-
The rules that turn primitives into einsums preserve the entries of the result.
-/

namespace Verif.Autoconj

variable {R : Type} [CommSemiring R]

theorem mem_box : ∀ {s i : List ℕ}, i ∈ box s ↔ InBox i s
  | [], i => by
    simp only [box, Finset.mem_singleton, InBox, List.forall₂_nil_right_iff]
  | n :: s, i => by
    rw [box, Finset.mem_image]
    constructor
    · rintro ⟨⟨a, b⟩, h, rfl⟩
      rw [Finset.mem_product] at h
      simp only [InBox, List.forall₂_cons]
      exact ⟨Finset.mem_range.1 h.1, mem_box.1 h.2⟩
    · intro h
      rcases i with _ | ⟨a, b⟩
      · simp [InBox] at h
      · simp only [InBox, List.forall₂_cons] at h
        exact ⟨(a, b), Finset.mem_product.2 ⟨Finset.mem_range.2 h.1, mem_box.2 h.2⟩, rfl⟩

theorem InBox.length {i s : List ℕ} (h : InBox i s) : i.length = s.length := List.Forall₂.length_eq h

theorem InBox.getD_lt : ∀ {i s : List ℕ}, InBox i s → ∀ {k}, k < s.length → i.getD k 0 < s.getD k 0
  | [], [], _, k, hk => by simp at hk
  | [], _ :: _, h, _, _ => by simp [InBox] at h
  | _ :: _, [], h, _, _ => by simp [InBox] at h
  | a :: i, n :: s, h, k, hk => by
    simp only [InBox, List.forall₂_cons] at h
    rcases k with _ | k
    · simpa using h.1
    · have := InBox.getD_lt (i := i) (s := s) h.2 (k := k) (by simpa using hk)
      simpa using this

theorem inBox_iff {i s : List ℕ} : InBox i s ↔ i.length = s.length ∧ ∀ k < s.length, i.getD k 0 < s.getD k 0 := by
  refine ⟨fun h => ⟨h.length, fun k hk => h.getD_lt hk⟩, ?_⟩
  rintro ⟨hl, h⟩
  induction s generalizing i with
  | nil => rw [List.length_nil, List.length_eq_zero_iff] at hl; subst hl; simp [InBox]
  | cons n s ih =>
    rcases i with _ | ⟨a, i⟩
    · simp at hl
    · simp only [InBox, List.forall₂_cons]
      refine ⟨by simpa using h 0 (by simp), ih (by simpa using hl) ?_⟩
      intro k hk
      simpa using h (k + 1) (by simpa using hk)

theorem ext_getD {a b : List ℕ} (hl : a.length = b.length) (h : ∀ k < a.length, a.getD k 0 = b.getD k 0) :
    a = b := by
  apply List.ext_getElem hl
  intro k h1 h2
  have := h k h1
  simpa [List.getD_eq_getElem?_getD, List.getElem?_eq_getElem h1, List.getElem?_eq_getElem h2] using this

theorem getD_range_map (n : ℕ) (g : ℕ → ℕ) {k : ℕ} (hk : k < n) : ((List.range n).map g).getD k 0 = g k := by
  simp [List.getD_eq_getElem?_getD, hk]

/-- All assignments of indices to the names of the formula. -/
def allIdx (ins : List (List Letter)) (d : Letter → ℕ) (l : Letter) : Finset ℕ :=
  if l ∈ ins.flatten then Finset.range (d l) else {0}

theorem mem_allIdx {ins : List (List Letter)} {d : Letter → ℕ} {σ : Letter → ℕ} :
    σ ∈ Fintype.piFinset (allIdx ins d) ↔ (∀ l ∈ ins.flatten, σ l < d l) ∧ ∀ l ∉ ins.flatten, σ l = 0 := by
  rw [Fintype.mem_piFinset]
  constructor
  · intro h
    refine ⟨fun l hl => ?_, fun l hl => ?_⟩
    · have := h l; rw [allIdx, if_pos hl] at this; simpa using this
    · have := h l; rw [allIdx, if_neg hl] at this; simpa using this
  · rintro ⟨h1, h2⟩ l
    rw [allIdx]
    split
    · simpa using h1 l (by assumption)
    · simpa using h2 l (by assumption)

theorem map_pin : ∀ {out : List Letter} {o : List ℕ}, out.Nodup → o.length = out.length → out.map (pin out o) = o
  | [], [], _, _ => rfl
  | [], _ :: _, _, h => by simp at h
  | _ :: _, [], _, h => by simp at h
  | x :: xs, y :: ys, hn, hl => by
    rw [List.nodup_cons] at hn
    have ih := map_pin (out := xs) (o := ys) hn.2 (by simpa using hl)
    simp only [List.map_cons, List.cons.injEq]
    constructor
    · simp [pin]
    · conv_rhs => rw [← ih]
      apply List.map_congr_left
      intro l hl
      have : l ≠ x := fun e => hn.1 (e ▸ hl)
      unfold pin
      simp only [List.zip_cons_cons, List.lookup_cons]
      rw [beq_eq_false_iff_ne.2 this]

theorem pin_of_map {out : List Letter} {σ : Letter → ℕ} {l : Letter} (hl : l ∈ out) :
    pin out (out.map σ) l = σ l := by
  unfold pin; rw [lookup_zip_map σ l out hl]; rfl

/-- The sum of an einsum, with the output entry as a condition. -/
theorem einsumVal_cond {f : Formula} {d : Letter → ℕ} (hn : f.out.Nodup)
    (hs : ∀ l ∈ f.out, l ∈ f.ins.flatten) (args : List (Arr R)) {o : List ℕ} (ho : InBox o (f.out.map d)) :
    einsumVal f d args o =
      ∑ σ ∈ Fintype.piFinset (allIdx f.ins d), if f.out.map σ = o then term f.ins args σ else 0 := by
  unfold einsumVal
  rw [← Finset.sum_filter]
  apply Finset.sum_congr _ (fun _ _ => rfl)
  ext σ
  rw [mem_choices, Finset.mem_filter, mem_allIdx]
  have hlen : o.length = f.out.length := by simpa using ho.length
  constructor
  · intro h
    refine ⟨⟨fun l hl => ?_, fun l hl => h.zero l (fun h => hl (hs l h)) hl⟩, ?_⟩
    · by_cases hlo : l ∈ f.out
      · rw [h.out l hlo]; exact pin_lt _ _ ho hlo
      · exact h.lt l hlo hl
    · conv_rhs => rw [← map_pin hn hlen]
      apply List.map_congr_left
      intro l hl
      exact h.out l hl
  · rintro ⟨⟨h1, h2⟩, rfl⟩
    exact ⟨fun l hl => (pin_of_map hl).symm, fun l _ hl => h1 l hl, fun l _ hl => h2 l hl⟩

theorem pin_notMem {out : List Letter} {o : List ℕ} {l : Letter} (h : l ∉ out) : pin out o l = 0 := by
  induction out generalizing o with
  | nil => simp [pin]
  | cons x xs ih =>
    rcases o with _ | ⟨y, ys⟩
    · simp [pin]
    · simp only [List.mem_cons, not_or] at h
      have := ih (o := ys) h.2
      unfold pin at this ⊢
      simp only [List.zip_cons_cons, List.lookup_cons]
      rw [beq_eq_false_iff_ne.2 h.1]
      exact this

/-- One operand with distinct names: the assignments are its index tuples. -/
theorem sum_one {xs : List Letter} (hx : xs.Nodup) (d : Letter → ℕ) (G : List ℕ → R) :
    ∑ σ ∈ Fintype.piFinset (allIdx [xs] d), G (xs.map σ) = ∑ i ∈ box (xs.map d), G i := by
  refine Finset.sum_bij' (fun σ _ => xs.map σ) (fun i _ => pin xs i) ?_ ?_ ?_ ?_ ?_
  · intro σ hσ
    rw [mem_allIdx] at hσ
    exact mem_box.2 (inBox_map _ fun l hl => hσ.1 l (by simpa using hl))
  · intro i hi
    rw [mem_box] at hi
    rw [mem_allIdx]
    refine ⟨fun l hl => pin_lt _ _ hi (by simpa using hl), fun l hl => pin_notMem (by simpa using hl)⟩
  · intro σ hσ
    rw [mem_allIdx] at hσ
    funext l
    by_cases hl : l ∈ xs
    · exact pin_of_map hl
    · rw [pin_notMem hl]; exact (hσ.2 l (by simpa using hl)).symm
  · intro i hi
    rw [mem_box] at hi
    exact map_pin hx (by simpa using hi.length)
  · intro σ _; rfl

/-- Two operands, each with distinct names: the assignments are the pairs of index tuples that agree
on the shared names. -/
theorem sum_two {xs ys : List Letter} (hx : xs.Nodup) (hy : ys.Nodup) (d : Letter → ℕ)
    (G : List ℕ → List ℕ → R) :
    ∑ σ ∈ Fintype.piFinset (allIdx [xs, ys] d), G (xs.map σ) (ys.map σ) =
      ∑ i ∈ box (xs.map d), ∑ j ∈ box (ys.map d),
        if ∀ l ∈ xs, l ∈ ys → pin xs i l = pin ys j l then G i j else 0 := by
  rw [← Finset.sum_product', ← Finset.sum_filter]
  have flat : ∀ l, l ∈ [xs, ys].flatten ↔ l ∈ xs ∨ l ∈ ys := by intro l; simp
  refine Finset.sum_bij' (fun σ _ => (xs.map σ, ys.map σ))
    (fun p _ l => if l ∈ xs then pin xs p.1 l else pin ys p.2 l) ?_ ?_ ?_ ?_ ?_
  · intro σ hσ
    rw [mem_allIdx] at hσ
    rw [Finset.mem_filter, Finset.mem_product]
    refine ⟨⟨mem_box.2 (inBox_map _ fun l hl => hσ.1 l ((flat l).2 (Or.inl hl))),
      mem_box.2 (inBox_map _ fun l hl => hσ.1 l ((flat l).2 (Or.inr hl)))⟩, ?_⟩
    intro l h1 h2
    rw [pin_of_map h1, pin_of_map h2]
  · rintro ⟨i, j⟩ hp
    rw [Finset.mem_filter, Finset.mem_product, mem_box, mem_box] at hp
    obtain ⟨⟨hi, hj⟩, hc⟩ := hp
    rw [mem_allIdx]
    constructor
    · intro l hl
      dsimp only
      split
      · exact pin_lt _ _ hi (by assumption)
      · exact pin_lt _ _ hj (((flat l).1 hl).resolve_left (by assumption))
    · intro l hl
      rw [flat, not_or] at hl
      dsimp only
      rw [if_neg hl.1]
      exact pin_notMem hl.2
  · intro σ hσ
    rw [mem_allIdx] at hσ
    funext l
    dsimp only
    split
    · exact pin_of_map (by assumption)
    · rename_i h
      by_cases hl : l ∈ ys
      · exact pin_of_map hl
      · rw [pin_notMem hl]; exact (hσ.2 l (by rw [flat]; simp [h, hl])).symm
  · rintro ⟨i, j⟩ hp
    rw [Finset.mem_filter, Finset.mem_product, mem_box, mem_box] at hp
    obtain ⟨⟨hi, hj⟩, hc⟩ := hp
    dsimp only at hi hj hc ⊢
    congr 1
    · have : xs.map (fun l => if l ∈ xs then pin xs i l else pin ys j l) = xs.map (pin xs i) :=
        List.map_congr_left fun l hl => if_pos hl
      rw [this]; exact map_pin hx (by simpa using hi.length)
    · have : ys.map (fun l => if l ∈ xs then pin xs i l else pin ys j l) = ys.map (pin ys j) := by
        apply List.map_congr_left
        intro l hl
        split
        · exact hc l (by assumption) hl
        · rfl
      rw [this]; exact map_pin hy (by simpa using hj.length)
  · intro σ _; rfl

/-! ### Names for axes -/

/-- The `i`-th letter. -/
def L (i : ℕ) : Letter := Fin.ofNat 52 i

theorem L_inj {i j : ℕ} (hi : i < 52) (hj : j < 52) (h : L i = L j) : i = j := by
  have := congrArg Fin.val h
  simpa [L, Fin.ofNat, Nat.mod_eq_of_lt hi, Nat.mod_eq_of_lt hj] using this

theorem letters_eq {n : ℕ} (h : n ≤ 52) : letters n = (List.range n).map L := by
  apply List.ext_getElem
  · simp [letters, h]
  · intro i h1 h2
    have : i < 52 := by simp at h2; omega
    apply Fin.ext
    simp [letters, L, Fin.ofNat, Nat.mod_eq_of_lt this]

theorem letters_drop {n m : ℕ} (h : n + m ≤ 52) :
    ((List.finRange 52).drop n).take m = (List.range m).map fun k => L (n + k) := by
  apply List.ext_getElem
  · simp; omega
  · intro i h1 h2
    have : n + i < 52 := by simp at h2; omega
    apply Fin.ext
    simp [L, Fin.ofNat, Nat.mod_eq_of_lt this]

theorem lettersAt_eq {n : ℕ} (hn : n ≤ 52) : ∀ {is : List ℕ}, (∀ i ∈ is, i < n) →
    lettersAt (letters n) is = some (is.map L)
  | [], _ => rfl
  | i :: is, h => by
    have ih := lettersAt_eq hn (is := is) fun i hi => h i (by simp [hi])
    have hi : i < n := h i (by simp)
    have : (letters n)[i]? = some (L i) := by rw [letters_eq hn]; simp [hi]
    simp only [lettersAt, this, ih, Option.bind_some, List.map_cons]

theorem nodup_range_map {n : ℕ} {f : ℕ → Letter} (h : ∀ i < n, ∀ j < n, f i = f j → i = j) :
    ((List.range n).map f).Nodup := by
  refine (List.nodup_map_iff_inj_on List.nodup_range).2 ?_
  intro i hi j hj e
  exact h i (List.mem_range.1 hi) j (List.mem_range.1 hj) e

theorem pin_range {n : ℕ} {f : ℕ → Letter} (h : ∀ i < n, ∀ j < n, f i = f j → i = j) {i : List ℕ}
    (hi : i.length = n) {k : ℕ} (hk : k < n) : pin ((List.range n).map f) i (f k) = i.getD k 0 := by
  have hm := map_pin (out := (List.range n).map f) (o := i) (nodup_range_map h) (by simpa using hi)
  have h1 : (((List.range n).map f).map (pin ((List.range n).map f) i)).getD k 0 = i.getD k 0 := by rw [hm]
  rw [List.map_map] at h1
  rw [← h1, getD_range_map n _ hk]
  rfl

theorem pick_map {n : ℕ} {σ : Letter → ℕ} {f : ℕ → Letter} {is : List ℕ} (h : ∀ i ∈ is, i < n) :
    pick is (((List.range n).map f).map σ) = (is.map f).map σ := by
  unfold pick
  rw [List.map_map, List.map_map]
  apply List.map_congr_left
  intro i hi
  exact getD_range_map n _ (h i hi)

/-- The size of a letter in a formula whose operand has shape `s` and letters 0, 1, …. -/
def dOf (s : List ℕ) (l : Letter) : ℕ := s.getD l.val 0

theorem dOf_L {s : List ℕ} {i : ℕ} (h : i < 52) : dOf s (L i) = s.getD i 0 := by
  simp [dOf, L, Fin.ofNat, Nat.mod_eq_of_lt h]

theorem range_map_getD (s : List ℕ) : ((List.range s.length).map fun i => s.getD i 0) = s := by
  apply ext_getD
  · simp
  · intro k hk
    rw [getD_range_map _ _ (by simpa using hk)]

theorem range_map_dOf {s : List ℕ} (h : s.length ≤ 52) : ((List.range s.length).map L).map (dOf s) = s := by
  conv_rhs => rw [← range_map_getD s]
  rw [List.map_map]
  apply List.map_congr_left
  intro i hi
  have := List.mem_range.1 hi
  exact dOf_L (by omega)

theorem L_inj_lt {n : ℕ} (h : n ≤ 52) : ∀ i < n, ∀ j < n, L i = L j → i = j :=
  fun _ hi _ hj e => L_inj (by omega) (by omega) e

theorem pick_dOf {s is : List ℕ} (hs : s.length ≤ 52) (h : ∀ i ∈ is, i < s.length) :
    (is.map L).map (dOf s) = pick is s := by
  unfold pick
  rw [List.map_map]
  apply List.map_congr_left
  intro i hi
  have := h i hi
  exact dOf_L (by omega)

/-- An einsum of one operand with distinct names that keeps the axes `is`. -/
theorem einsum_one {x : Arr R} {is : List ℕ} (hs : x.shape.length ≤ 52) (hn : is.Nodup)
    (h : ∀ i ∈ is, i < x.shape.length) :
    einsum ⟨[letters x.shape.length], is.map L⟩ [x] = some (mkArr (pick is x.shape) fun o =>
      ∑ i ∈ box x.shape, if pick is i = o then x.val i else 0) := by
  have hinj := L_inj_lt hs
  have hnd : (is.map L).Nodup := by
    refine (List.nodup_map_iff_inj_on hn).2 ?_
    intro i hi j hj e
    exact hinj i (h i hi) j (h j hj) e
  have hsub : ∀ l ∈ is.map L, l ∈ [(List.range x.shape.length).map L].flatten := by
    intro l hl
    obtain ⟨i, hi, rfl⟩ := List.mem_map.1 hl
    simp only [List.flatten_cons, List.flatten_nil, List.append_nil]
    exact List.mem_map_of_mem (List.mem_range.2 (h i hi))
  have hd := range_map_dOf hs
  rw [letters_eq hs]
  rw [einsum_fits (dOf x.shape) (by simp only [List.map_cons, List.map_nil, hd]) hnd hsub]
  congr 1
  refine mkArr_congr (pick_dOf hs h) ?_
  intro o ho
  rw [einsumVal_cond hnd hsub [x] ho]
  have := sum_one (R := R) (nodup_range_map hinj) (dOf x.shape)
    (fun i => if pick is i = o then x.val i else 0)
  rw [hd] at this
  rw [← this]
  apply Finset.sum_congr rfl
  intro σ _
  rw [pick_map h]
  simp [term]

theorem pick_length (is i : List ℕ) : (pick is i).length = is.length := by simp [pick]

theorem pick_getD {is i : List ℕ} {k : ℕ} (hk : k < is.length) :
    (pick is i).getD k 0 = i.getD (is.getD k 0) 0 := by
  unfold pick
  simp [List.getD_eq_getElem?_getD, List.getElem?_eq_getElem hk]

theorem getD_idxOf {is : List ℕ} {j : ℕ} (h : j ∈ is) : is.getD (is.idxOf j) 0 = j := by
  have := List.idxOf_lt_length_of_mem h
  simp [List.getD_eq_getElem?_getD, List.getElem?_eq_getElem this]

theorem idxOf_getD {is : List ℕ} (hn : is.Nodup) {k : ℕ} (hk : k < is.length) : is.idxOf (is.getD k 0) = k := by
  simp [List.getD_eq_getElem?_getD, List.getElem?_eq_getElem hk, hn.idxOf_getElem]

/-- Keeping the axes `is` when the other axes have size 1 (`transpose`: there are none). -/
theorem keep_val {x : Arr R} {is : List ℕ} (hn : is.Nodup) (h : ∀ i ∈ is, i < x.shape.length)
    (h1 : ∀ j < x.shape.length, j ∉ is → x.shape.getD j 0 = 1) {o : List ℕ} (ho : InBox o (pick is x.shape)) :
    (∑ i ∈ box x.shape, if pick is i = o then x.val i else 0) =
      x.val ((List.range x.shape.length).map fun j => if j ∉ is then 0 else o.getD (is.idxOf j) 0) := by
  have hol : o.length = is.length := by simpa [pick] using ho.length
  rw [Finset.sum_eq_single ((List.range x.shape.length).map fun j => if j ∉ is then 0 else o.getD (is.idxOf j) 0)]
  · rw [if_pos]
    apply ext_getD
    · simp [pick, hol]
    · intro k hk
      have hk' : k < is.length := by simpa [pick] using hk
      have hmem : is.getD k 0 ∈ is := by
        rw [List.getD_eq_getElem?_getD, List.getElem?_eq_getElem hk']; simp
      rw [pick_getD hk', getD_range_map _ _ (h _ hmem), if_neg (by simpa using hmem), idxOf_getD hn hk']
  · intro i hi hne
    rw [if_neg]
    rintro rfl
    apply hne
    rw [mem_box] at hi
    apply ext_getD
    · simpa using hi.length
    · intro k hk
      have hk' : k < x.shape.length := by rw [hi.length] at hk; exact hk
      rw [getD_range_map _ _ hk']
      split
      · rename_i hm
        have := hi.getD_lt hk'
        rw [h1 k hk' hm] at this
        omega
      · rename_i hm
        have hm : k ∈ is := by simpa using hm
        rw [pick_getD (List.idxOf_lt_length_of_mem hm), getD_idxOf hm]
  · intro hnb
    exfalso
    apply hnb
    rw [mem_box, inBox_iff]
    refine ⟨by simp, fun k hk => ?_⟩
    rw [getD_range_map _ _ hk]
    split
    · rename_i hm
      rw [h1 k hk hm]; exact Nat.one_pos
    · rename_i hm
      have hm : k ∈ is := by simpa using hm
      have hlt := List.idxOf_lt_length_of_mem hm
      have := ho.getD_lt (k := is.idxOf k) (by simpa [pick] using hlt)
      rwa [pick_getD hlt, getD_idxOf hm] at this

/-! ### `dot_general` -/

/-- The letter index of axis `k` of `y`. -/
def yIdx (A B : List ℕ) (nx k : ℕ) : ℕ := if k ∈ B then A.getD (B.idxOf k) 0 else nx + k

theorem tieDims_spec {nx : ℕ} (hnx : nx ≤ 52) : ∀ {A B : List ℕ} {yd : List Letter}, A.length = B.length →
    B.Nodup → (∀ a ∈ A, a < nx) → (∀ b ∈ B, b < yd.length) →
    ∃ yd', tieDims (letters nx) (A.zip B) yd = some yd' ∧ yd'.length = yd.length ∧
      ∀ k < yd.length, yd'[k]? = if k ∈ B then some (L (A.getD (B.idxOf k) 0)) else yd[k]?
  | [], [], yd, _, _, _, _ => ⟨yd, rfl, rfl, fun k hk => by simp⟩
  | [], _ :: _, _, h, _, _, _ => by simp at h
  | _ :: _, [], _, h, _, _, _ => by simp at h
  | a :: A, b :: B, yd, hl, hn, hA, hB => by
    rw [List.nodup_cons] at hn
    have ha : a < nx := hA a (by simp)
    have hb : b < yd.length := hB b (by simp)
    have hla : (letters nx)[a]? = some (L a) := by rw [letters_eq hnx]; simp [ha]
    obtain ⟨yd', h1, h2, h3⟩ := tieDims_spec hnx (A := A) (B := B) (yd := yd.set b (L a)) (by simpa using hl)
      hn.2 (fun a h => hA a (by simp [h])) (fun b h => by rw [List.length_set]; exact hB b (by simp [h]))
    refine ⟨yd', ?_, by rw [h2, List.length_set], ?_⟩
    · simp only [List.zip_cons_cons, tieDims, hla, Option.bind_some, if_pos hb]; exact h1
    · intro k hk
      rw [h3 k (by rw [List.length_set]; exact hk)]
      by_cases hkb : k = b
      · subst hkb
        rw [if_neg hn.1, if_pos (by simp)]
        simp [hk]
      · by_cases hkB : k ∈ B
        · rw [if_pos hkB, if_pos (by simp [hkB])]
          rw [List.idxOf_cons_ne _ (fun e => hkb e.symm)]
          simp
        · rw [if_neg hkB, if_neg (by simp [hkB, hkb])]
          rw [List.getElem?_set_ne (fun e => hkb e.symm)]

theorem dot_einsum {x y : Arr R} {cx cy bx by' : List ℕ} {out : List ℕ} (oth : Others R)
    (h : opShape oth (.dot cx cy bx by') [x.shape, y.shape] = some out) :
    ∃ yd ob, tieDims (letters x.shape.length) ((cx ++ bx).zip (cy ++ by'))
        (((List.finRange 52).drop x.shape.length).take y.shape.length) = some yd ∧
      lettersAt (letters x.shape.length) bx = some ob ∧
      einsum ⟨[letters x.shape.length, yd], ob ++ ((letters x.shape.length).filter (· ∉ yd) ++
        yd.filter (· ∉ letters x.shape.length))⟩ [x, y] =
        some (mkArr out (opVal (.dot cx cy bx by') [x, y])) := by
  simp only [opShape] at h
  split at h
  swap
  · cases h
  rename_i hc
  obtain ⟨h52, hlc, hlb, hnA, hnB, hA, hB, hsz⟩ := hc
  injection h with h
  subst h
  set nx := x.shape.length with hnx
  set ny := y.shape.length with hny
  set A := cx ++ bx with hAdef
  set B := cy ++ by' with hBdef
  have hlen : A.length = B.length := by rw [hAdef, hBdef]; simp [hlc, hlb]
  have hx52 : nx ≤ 52 := by omega
  obtain ⟨yd, ht, hydl, hyd⟩ := tieDims_spec hx52 (A := A) (B := B)
    (yd := ((List.finRange 52).drop nx).take ny) hlen hnB hA
    (by rw [letters_drop h52]; simpa using hB)
  rw [letters_drop h52] at hydl hyd
  simp only [List.length_map, List.length_range] at hydl hyd
  have hyd' : yd = (List.range ny).map fun k => L (yIdx A B nx k) := by
    apply List.ext_getElem?
    intro k
    by_cases hk : k < ny
    · rw [hyd k hk]
      simp only [List.getElem?_map, List.getElem?_range hk, Option.map_some, yIdx]
      split <;> rfl
    · rw [List.getElem?_eq_none (by omega), List.getElem?_eq_none (by simpa using hk)]
  have hAget : ∀ k ∈ B, A.getD (B.idxOf k) 0 ∈ A := by
    intro k hk
    have : B.idxOf k < A.length := by rw [hlen]; exact List.idxOf_lt_length_of_mem hk
    rw [List.getD_eq_getElem?_getD, List.getElem?_eq_getElem this]; simp
  have yB : ∀ k ∈ B, yIdx A B nx k = A.getD (B.idxOf k) 0 := fun k hk => if_pos hk
  have yN : ∀ k, k ∉ B → yIdx A B nx k = nx + k := fun k hk => if_neg hk
  have ylt : ∀ k < ny, yIdx A B nx k < 52 := by
    intro k hk
    by_cases hkB : k ∈ B
    · rw [yB k hkB]; have := hA _ (hAget k hkB); omega
    · rw [yN k hkB]; omega
  have yltx : ∀ k < ny, yIdx A B nx k < nx ↔ k ∈ B := by
    intro k hk
    by_cases hkB : k ∈ B
    · rw [yB k hkB]; exact ⟨fun _ => hkB, fun _ => hA _ (hAget k hkB)⟩
    · rw [yN k hkB]; constructor
      · intro h; omega
      · intro h; exact absurd h hkB
  have yinj' : ∀ i < ny, ∀ j < ny, yIdx A B nx i = yIdx A B nx j → i = j := by
    intro i hi j hj e
    by_cases hiB : i ∈ B
    · have hjB : j ∈ B := (yltx j hj).1 (e ▸ (yltx i hi).2 hiB)
      rw [yB i hiB, yB j hjB] at e
      have h1 : B.idxOf i < A.length := by rw [hlen]; exact List.idxOf_lt_length_of_mem hiB
      have h2 : B.idxOf j < A.length := by rw [hlen]; exact List.idxOf_lt_length_of_mem hjB
      have e2 : B.idxOf i = B.idxOf j := by
        rw [← idxOf_getD hnA h1, ← idxOf_getD hnA h2, e]
      rw [← getD_idxOf hiB, ← getD_idxOf hjB, e2]
    · have hjB : j ∉ B := fun h => hiB ((yltx i hi).1 (e ▸ (yltx j hj).2 h))
      rw [yN i hiB, yN j hjB] at e
      omega
  have yinj : ∀ i < ny, ∀ j < ny, L (yIdx A B nx i) = L (yIdx A B nx j) → i = j := fun i hi j hj e =>
    yinj' i hi j hj (L_inj (ylt i hi) (ylt j hj) e)
  have xinj := L_inj_lt hx52
  have hbx : ∀ i ∈ bx, i < nx := fun i hi => hA i (List.mem_append_right _ hi)
  refine ⟨yd, bx.map L, ht, lettersAt_eq hx52 hbx, ?_⟩
  rw [letters_eq hx52]
  -- which letters are shared
  have LmemX : ∀ k < 52, L k ∈ (List.range nx).map L ↔ k < nx := by
    intro k hk
    rw [List.mem_map]
    constructor
    · rintro ⟨a, ha, e⟩
      rw [List.mem_range] at ha
      rw [← L_inj (by omega) hk e]; exact ha
    · intro h; exact ⟨k, List.mem_range.2 h, rfl⟩
  have LmemY : ∀ a < nx, L a ∈ yd ↔ a ∈ A := by
    intro a ha
    rw [hyd', List.mem_map]
    constructor
    · rintro ⟨k, hk, e⟩
      have hk := List.mem_range.1 hk
      have e := L_inj (ylt k hk) (by omega) e
      have hkB : k ∈ B := (yltx k hk).1 (e ▸ ha)
      rw [← e, yB k hkB]; exact hAget k hkB
    · intro haA
      have hi : A.idxOf a < B.length := by rw [← hlen]; exact List.idxOf_lt_length_of_mem haA
      have hkB : B.getD (A.idxOf a) 0 ∈ B := by
        rw [List.getD_eq_getElem?_getD, List.getElem?_eq_getElem hi]; simp
      refine ⟨B.getD (A.idxOf a) 0, List.mem_range.2 (hB _ hkB), ?_⟩
      rw [yB _ hkB, idxOf_getD hnB hi, getD_idxOf haA]
  have fx : ((List.range nx).map L).filter (· ∉ yd) = (rest nx A).map L := by
    rw [List.filter_map, rest]
    congr 1
    apply List.filter_congr
    intro a ha
    simp only [Function.comp_apply, LmemY a (List.mem_range.1 ha)]
  have fy : yd.filter (· ∉ (List.range nx).map L) = (rest ny B).map fun k => L (yIdx A B nx k) := by
    rw [hyd', List.filter_map, rest]
    congr 1
    apply List.filter_congr
    intro k hk
    have hk := List.mem_range.1 hk
    simp only [Function.comp_apply, LmemX _ (ylt k hk), yltx k hk]
  rw [fx, fy, hyd']
  have hrx : ∀ i ∈ rest nx A, i < nx := fun i hi => List.mem_range.1 (List.mem_filter.1 hi).1
  have hry : ∀ i ∈ rest ny B, i < ny := fun i hi => List.mem_range.1 (List.mem_filter.1 hi).1
  -- sizes
  let d : Letter → ℕ := fun l => if l.val < nx then x.shape.getD l.val 0 else y.shape.getD (l.val - nx) 0
  have dL : ∀ k < 52, d (L k) = if k < nx then x.shape.getD k 0 else y.shape.getD (k - nx) 0 := by
    intro k hk
    simp [d, L, Fin.ofNat, Nat.mod_eq_of_lt hk]
  have dy : ∀ k < ny, d (L (yIdx A B nx k)) = y.shape.getD k 0 := by
    intro k hk
    rw [dL _ (ylt k hk)]
    by_cases hkB : k ∈ B
    · rw [if_pos ((yltx k hk).2 hkB), yB k hkB]
      have hi : B.idxOf k < A.length := by rw [hlen]; exact List.idxOf_lt_length_of_mem hkB
      have := congrArg (fun l => l.getD (B.idxOf k) 0) hsz
      rw [pick_getD hi, pick_getD (by rw [← hlen]; exact hi), getD_idxOf hkB] at this
      exact this
    · rw [if_neg (fun h => hkB ((yltx k hk).1 h)), yN k hkB]
      congr 1; omega
  have dx : ((List.range nx).map L).map d = x.shape := by
    rw [List.map_map]
    conv_rhs => rw [← range_map_getD x.shape]
    apply List.map_congr_left
    intro k hk
    have hk := List.mem_range.1 hk
    simp only [Function.comp_apply]
    rw [dL k (by omega), if_pos hk]
  have dY : ((List.range ny).map fun k => L (yIdx A B nx k)).map d = y.shape := by
    rw [List.map_map]
    conv_rhs => rw [← range_map_getD y.shape]
    apply List.map_congr_left
    intro k hk
    exact dy k (List.mem_range.1 hk)
  -- the output formula
  have hnd : (bx.map L ++ ((rest nx A).map L ++ (rest ny B).map fun k => L (yIdx A B nx k))).Nodup := by
    have nx1 : (bx ++ rest nx A).Nodup := by
      rw [List.nodup_append]
      refine ⟨(List.nodup_append.1 hnA).2.1, List.nodup_range.filter _, ?_⟩
      intro a ha b hb e
      have := (List.mem_filter.1 hb).2
      simp only [decide_not, Bool.not_eq_true', decide_eq_false_iff_not] at this
      exact this (e ▸ List.mem_append_right _ ha)
    rw [← List.append_assoc, ← List.map_append, List.nodup_append]
    refine ⟨?_, ?_, ?_⟩
    · refine (List.nodup_map_iff_inj_on nx1).2 ?_
      intro i hi j hj e
      have lt : ∀ i ∈ bx ++ rest nx A, i < nx := fun i hi => by
        rcases List.mem_append.1 hi with h | h
        · exact hbx i h
        · exact hrx i h
      exact xinj i (lt i hi) j (lt j hj) e
    · refine (List.nodup_map_iff_inj_on (List.nodup_range.filter _)).2 ?_
      intro i hi j hj e
      exact yinj i (hry i hi) j (hry j hj) e
    · intro a ha b hb e
      obtain ⟨i, hi, rfl⟩ := List.mem_map.1 ha
      obtain ⟨j, hj, rfl⟩ := List.mem_map.1 hb
      have hi' : i < nx := by
        rcases List.mem_append.1 hi with h | h
        · exact hbx i h
        · exact hrx i h
      have e := L_inj (by omega) (ylt j (hry j hj)) e
      have hjB := (yltx j (hry j hj)).1 (e ▸ hi')
      have := (List.mem_filter.1 hj).2
      simp only [decide_not, Bool.not_eq_true', decide_eq_false_iff_not] at this
      exact this hjB
  have hsub : ∀ l ∈ bx.map L ++ ((rest nx A).map L ++ (rest ny B).map fun k => L (yIdx A B nx k)),
      l ∈ [(List.range nx).map L, (List.range ny).map fun k => L (yIdx A B nx k)].flatten := by
    intro l hl
    simp only [List.flatten_cons, List.flatten_nil, List.append_nil, List.mem_append]
    rcases List.mem_append.1 hl with h | h
    · obtain ⟨i, hi, rfl⟩ := List.mem_map.1 h
      exact Or.inl (List.mem_map_of_mem (List.mem_range.2 (hbx i hi)))
    · rcases List.mem_append.1 h with h | h
      · obtain ⟨i, hi, rfl⟩ := List.mem_map.1 h
        exact Or.inl (List.mem_map_of_mem (List.mem_range.2 (hrx i hi)))
      · obtain ⟨i, hi, rfl⟩ := List.mem_map.1 h
        exact Or.inr (List.mem_map.2 ⟨i, List.mem_range.2 (hry i hi), rfl⟩)
  have houtmap : ∀ σ : Letter → ℕ, (bx.map L ++ ((rest nx A).map L ++
      (rest ny B).map fun k => L (yIdx A B nx k))).map σ =
      pick bx (((List.range nx).map L).map σ) ++ pick (rest nx A) (((List.range nx).map L).map σ) ++
        pick (rest ny B) (((List.range ny).map fun k => L (yIdx A B nx k)).map σ) := by
    intro σ
    rw [pick_map hbx, pick_map hrx, pick_map hry]
    simp only [List.map_append, List.append_assoc]
  rw [einsum_fits d (by simp only [List.map_cons, List.map_nil, dx, dY]) hnd hsub]
  congr 1
  refine mkArr_congr ?_ ?_
  · rw [houtmap d, dx, dY]
  intro o ho
  rw [einsumVal_cond hnd hsub [x, y] ho]
  simp only [opVal]
  rw [← hnx, ← hny, ← hAdef, ← hBdef]
  have := sum_two (R := R) (nodup_range_map xinj) (nodup_range_map yinj) d
    (fun i j => if pick bx i ++ pick (rest nx A) i ++ pick (rest ny B) j = o then x.val i * y.val j else 0)
  rw [dx, dY] at this
  refine Eq.trans ?_ (this.trans ?_)
  · apply Finset.sum_congr rfl
    intro σ _
    rw [houtmap σ]
    congr 1
    simp [term]
  · apply Finset.sum_congr rfl
    intro i hi
    apply Finset.sum_congr rfl
    intro j hj
    rw [mem_box] at hi hj
    rw [ite_and]
    congr 1
    apply propext
    constructor
    · intro hcons
      apply ext_getD
      · rw [pick_length, pick_length, hlen]
      · intro k hk
        rw [pick_length] at hk
        have hkB : B.getD k 0 ∈ B := by
          rw [List.getD_eq_getElem?_getD, List.getElem?_eq_getElem (hlen ▸ hk)]; simp
        have hkA : A.getD k 0 ∈ A := by
          rw [List.getD_eq_getElem?_getD, List.getElem?_eq_getElem hk]; simp
        have e : yIdx A B nx (B.getD k 0) = A.getD k 0 := by
          rw [yB _ hkB, idxOf_getD hnB (hlen ▸ hk)]
        have := hcons (L (A.getD k 0)) (List.mem_map_of_mem (List.mem_range.2 (hA _ hkA)))
          (List.mem_map.2 ⟨B.getD k 0, List.mem_range.2 (hB _ hkB), by rw [e]⟩)
        rw [pin_range xinj hi.length (hA _ hkA)] at this
        have h2 := pin_range (f := fun k => L (yIdx A B nx k)) yinj hj.length (hB _ hkB)
        rw [e] at h2
        rw [h2] at this
        rw [pick_getD hk, pick_getD (hlen ▸ hk)]
        exact this
    · intro hp l hlx hly
      obtain ⟨a, ha, rfl⟩ := List.mem_map.1 hlx
      obtain ⟨k, hk, e⟩ := List.mem_map.1 hly
      have ha := List.mem_range.1 ha
      have hk := List.mem_range.1 hk
      have e' := L_inj (ylt k hk) (by omega) e
      have hkB : k ∈ B := (yltx k hk).1 (e' ▸ ha)
      have hidx : B.idxOf k < A.length := by rw [hlen]; exact List.idxOf_lt_length_of_mem hkB
      rw [pin_range xinj hi.length ha]
      have h2 := pin_range (f := fun k => L (yIdx A B nx k)) yinj hj.length hk
      try dsimp only at h2 e
      rw [e] at h2
      rw [h2]
      have := congrArg (fun l => l.getD (B.idxOf k) 0) hp
      rw [pick_getD hidx, pick_getD (hlen ▸ hidx), getD_idxOf hkB, ← yB k hkB, e'] at this
      exact this

end Verif.Autoconj
