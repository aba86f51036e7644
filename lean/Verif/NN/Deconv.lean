import Verif.NN.Entries
import Verif.NN.Pool
import Verif.NN.Serial

/-!
# C75: transposed convolution

`Deconv` spreads every pixel of its input over the output through its kernel, and it is the transpose, as a linear map,
of `Conv` with the kernel turned around and its channels exchanged.
-/

namespace Verif.NN

open Finset

/-! ### Specification -/

/-- How far the window of an input pixel starts before the pixel's own place in the output: nothing for `VALID`; with
`SAME`, half (rounded down) of what the window is longer than the stride. -/
def overhang (same : Bool) (k s : Nat) : Nat := if same then (k - s) / 2 else 0

/-- A kernel extended by zeros. -/
noncomputable def kernelAt (kernel : Arr) (kh kw : Nat) (a b : Int) (d o : Nat) : ℝ :=
  if 0 ≤ a ∧ a < kh ∧ 0 ≤ b ∧ b < kw then kernel.get [a.toNat, b.toNat, d, o] else 0

/-- The sum over all entries of an image. -/
def sum3 (n m l : Nat) (f : Nat → Nat → Nat → ℝ) : ℝ :=
  ∑ i ∈ range n, ∑ j ∈ range m, ∑ k ∈ range l, f i j k

/-- The inner product of two images of shape `(n, m, l)`. -/
noncomputable def inner3 (n m l : Nat) (x y : Arr) : ℝ := sum3 n m l fun i j k => x.get [i, j, k] * y.get [i, j, k]

/-! ### Lemmas -/

theorem sum3_comm (n m l n' m' l' : Nat) (g : Nat → Nat → Nat → Nat → Nat → Nat → ℝ) :
    sum3 n m l (fun i j k => sum3 n' m' l' (g i j k)) =
      sum3 n' m' l' (fun p q d => sum3 n m l fun i j k => g i j k p q d) := by
  have e : ∀ n m l f, sum3 n m l f = ∑ t ∈ range n ×ˢ range m ×ˢ range l, f t.1 t.2.1 t.2.2 := by
    intro n m l f
    simp only [sum3, Finset.sum_product]
  simp only [e]
  exact Finset.sum_comm

theorem sum3_congr {n m l : Nat} {f g : Nat → Nat → Nat → ℝ}
    (h : ∀ i < n, ∀ j < m, ∀ k < l, f i j k = g i j k) : sum3 n m l f = sum3 n m l g :=
  sum_congr rfl fun i hi => sum_congr rfl fun j hj => sum_congr rfl fun k hk =>
    h i (mem_range.1 hi) j (mem_range.1 hj) k (mem_range.1 hk)

theorem mul_sum3 (n m l : Nat) (f : Nat → Nat → Nat → ℝ) (c : ℝ) :
    c * sum3 n m l f = sum3 n m l fun i j k => c * f i j k := by
  unfold sum3; simp only [mul_sum]

theorem match_sum (P Q : Option Nat) (h w : Nat) (f : Nat → Nat → ℝ) :
    (∀ p, P = some p → p < h) → (∀ q, Q = some q → q < w) →
    (match P, Q with | some p, some q => f p q | _, _ => 0) =
      ∑ p ∈ range h, ∑ q ∈ range w, if P = some p ∧ Q = some q then f p q else 0 := by
  intro hP hQ
  rcases P with _ | p
  · simp
  · rcases Q with _ | q
    · simp
    · rw [sum_eq_single p, sum_eq_single q]
      · simp
      · intro b _ hb; rw [if_neg]; simp; exact fun h => hb h.symm
      · intro hq; exact absurd (mem_range.2 (hQ q rfl)) hq
      · intro b _ hb
        refine sum_eq_zero fun _ _ => ?_
        rw [if_neg]; simp; exact fun h => absurd h.symm hb
      · intro hp; exact absurd (mem_range.2 (hP p rfl)) hp

/-- A windowed sum, regrouped by the pixels of the input. -/
theorem regroup (h w c kh kw : Nat) (P Q : Nat → Option Nat) (hP : ∀ a p, P a = some p → p < h)
    (hQ : ∀ b q, Q b = some q → q < w) (x : Nat → Nat → Nat → ℝ) (K : Nat → Nat → Nat → ℝ) :
    (∑ a ∈ range kh, ∑ b ∈ range kw, ∑ d ∈ range c,
      match P a, Q b with | some p, some q => x p q d * K a b d | _, _ => 0) =
    sum3 h w c fun p q d => x p q d *
      ∑ a ∈ range kh, ∑ b ∈ range kw, if P a = some p ∧ Q b = some q then K a b d else 0 := by
  have e : ∀ a b d, (match P a, Q b with | some p, some q => x p q d * K a b d | _, _ => 0) =
      ∑ p ∈ range h, ∑ q ∈ range w, if P a = some p ∧ Q b = some q then x p q d * K a b d else 0 :=
    fun a b d => match_sum (P a) (Q b) h w (fun p q => x p q d * K a b d) (hP a) (hQ b)
  unfold sum3
  simp_rw [e, mul_sum, mul_ite, mul_zero]
  -- move the sums over the window inside
  have sw : ∀ (F : Nat → Nat → Nat → Nat → Nat → ℝ),
      (∑ a ∈ range kh, ∑ b ∈ range kw, ∑ d ∈ range c, ∑ p ∈ range h, ∑ q ∈ range w, F a b d p q) =
      ∑ p ∈ range h, ∑ q ∈ range w, ∑ d ∈ range c, ∑ a ∈ range kh, ∑ b ∈ range kw, F a b d p q := by
    intro F
    have e1 : (∑ a ∈ range kh, ∑ b ∈ range kw, ∑ d ∈ range c, ∑ p ∈ range h, ∑ q ∈ range w, F a b d p q) =
        ∑ u ∈ range kh ×ˢ range kw, ∑ v ∈ range c ×ˢ range h ×ˢ range w, F u.1 u.2 v.1 v.2.1 v.2.2 := by
      simp_rw [Finset.sum_product]
    have e2 : (∑ p ∈ range h, ∑ q ∈ range w, ∑ d ∈ range c, ∑ a ∈ range kh, ∑ b ∈ range kw, F a b d p q) =
        ∑ d ∈ range c, ∑ p ∈ range h, ∑ q ∈ range w, ∑ a ∈ range kh, ∑ b ∈ range kw, F a b d p q := by
      rw [Finset.sum_comm (s := range c)]
      refine sum_congr rfl fun p _ => ?_
      rw [Finset.sum_comm]
    rw [e1, e2, Finset.sum_comm]
    simp_rw [Finset.sum_product]
  exact sw _

theorem deconvPos_iff {same : Bool} {n k s i a p : Nat} (hs : 0 < s) :
    deconvPos same n k s i a = some p ↔ p < n ∧ i + a = deconvLo same k s + p * s := by
  unfold deconvPos
  simp only
  constructor
  · intro h
    split at h
    · rename_i hc
      cases h
      refine ⟨hc.2.2, ?_⟩
      have := Nat.div_add_mod (i + a - deconvLo same k s) s
      rw [hc.2.1, Nat.add_zero, Nat.mul_comm] at this
      omega
    · cases h
  · rintro ⟨hp, h⟩
    have e : i + a - deconvLo same k s = p * s := by omega
    rw [e, Nat.mul_mod_left, Nat.mul_div_cancel _ hs, if_pos ⟨by omega, rfl, hp⟩]

theorem deconvOut_pos {same : Bool} {n k s : Nat} (hn : 0 < n) (hk : 0 < k) (hs : 0 < s) :
    deconvOut same n k s = if same then n * s else n * s + (k - s) := by
  have h := deconvOut_spec (same := same) (n := n) hs hk (.inr (by omega))
  unfold deconvSpec deconvTotal at h
  have e : ((n : Int) - 1) * s = (n * s : Nat) - s := by push_cast; ring
  rw [e] at h
  generalize n * s = z at *
  cases same <;> simp only [reduceIte, Bool.false_eq_true] at h ⊢ <;> omega

theorem pads_deconv {same : Bool} {n k s : Nat} (hn : 0 < n) (hk : 0 < k) (hs : 0 < s) :
    (pads same (deconvOut same n k s) k s).1 = overhang same k s := by
  rw [deconvOut_pos hn hk hs]
  unfold pads overhang
  cases same
  · simp
  · simp only [reduceIte]
    have e : (n * s + s - 1) / s = n := by
      have : n * s + s - 1 = s * n + (s - 1) := by rw [Nat.mul_comm]; omega
      rw [this, Nat.mul_add_div hs, Nat.div_eq_of_lt (by omega), Nat.add_zero]
    rw [e]
    congr 1
    omega

theorem deconvLo_overhang {same : Bool} {k s : Nat} (hk : 0 < k) (hs : 0 < s) :
    deconvLo same k s + overhang same k s = k - 1 := by
  unfold deconvLo overhang
  cases same
  · simp
  · simp only [reduceIte]
    split <;> omega

/-! ### Sizes -/

/-- **C75, sizes.** An axis of length `n ≥ 1` becomes `n · s` with `SAME` padding, and with `VALID` it is longer by what
the window is longer than the stride. -/
theorem C75_sizes (kernel : Arr) (bias : Option Arr) (s₁ s₂ : Nat) (same : Bool) (x y : Arr) (h w c kh kw o : Nat)
    (hx : x.shape = [h, w, c]) (hk : kernel.shape = [kh, kw, c, o]) (hh : 0 < h) (hw : 0 < w)
    (hy : deconvApply kernel bias (s₁, s₂) same x = .ok y) :
    y.shape = if same then [h * s₁, w * s₂, o] else [h * s₁ + (kh - s₁), w * s₂ + (kw - s₂), o] := by
  obtain ⟨⟨h1, h2, h3, h4⟩, h5⟩ := deconvApply_shape hx hk hy
  rw [h5, deconvOut_pos hh h3 h1, deconvOut_pos hw h4 h2]
  cases same <;> rfl

/-- **C75, there and back.** `Conv` with the same window, strides and padding maps the size of the output of `Deconv`
back to the size of its input. -/
theorem C75_size_back (same : Bool) (n k s : Nat) (hn : 0 < n) (hk : 0 < k) (hs : 0 < s) :
    windowOut same (deconvOut same n k s) k s = n := by
  rw [deconvOut_pos hn hk hs]
  cases same
  · simp only [Bool.false_eq_true, if_false]
    have h := fun o => C55_valid_size (n := n * s + (k - s)) (w := k) (s := s) (o := o) hs hk
    have h1 := (h n).not.2
    have h2 := (h (n - 1)).2
    have e : (n - 1) * s = n * s - s := by rw [Nat.sub_mul, Nat.one_mul]
    have e' : s ≤ n * s := Nat.le_mul_of_pos_left s hn
    have a := h2 (by rw [e]; omega)
    have b : ¬ n < windowOut false (n * s + (k - s)) k s := h1 (by omega)
    omega
  · simp only [if_true]
    rw [C55_same_size (Nat.mul_pos hn hs) hk hs]
    have : n * s + s - 1 = s * n + (s - 1) := by rw [Nat.mul_comm]; omega
    rw [this, Nat.mul_add_div hs, Nat.div_eq_of_lt (by omega), Nat.add_zero]

/-! ### Entries -/

theorem window_sum (kernel : Arr) (same : Bool) (h w kh kw s₁ s₂ i j p q d k : Nat)
    (hs : 0 < s₁ ∧ 0 < s₂) (hk : 0 < kh ∧ 0 < kw) (hp : p < h) (hq : q < w) :
    (∑ a ∈ range kh, ∑ b ∈ range kw,
      if deconvPos same h kh s₁ i a = some p ∧ deconvPos same w kw s₂ j b = some q then kernel.get [a, b, d, k] else 0) =
    kernelAt kernel kh kw (kh - 1 - (i + overhang same kh s₁ - p * s₁)) (kw - 1 - (j + overhang same kw s₂ - q * s₂))
      d k := by
  simp_rw [deconvPos_iff hs.1, deconvPos_iff hs.2]
  have l1 := deconvLo_overhang (same := same) hk.1 hs.1
  have l2 := deconvLo_overhang (same := same) hk.2 hs.2
  unfold kernelAt
  have e1 : ((p : Int) * s₁) = ((p * s₁ : Nat) : Int) := by push_cast; rfl
  have e2 : ((q : Int) * s₂) = ((q * s₂ : Nat) : Int) := by push_cast; rfl
  rw [e1, e2]
  generalize p * s₁ = u at *
  generalize q * s₂ = v at *
  generalize deconvLo same kh s₁ = lo₁ at *
  generalize deconvLo same kw s₂ = lo₂ at *
  generalize overhang same kh s₁ = o₁ at *
  generalize overhang same kw s₂ = o₂ at *
  split
  · rename_i hc
    rw [sum_eq_single (((kh : Int) - 1 - (i + o₁ - u)).toNat), sum_eq_single (((kw : Int) - 1 - (j + o₂ - v)).toNat)]
    · rw [if_pos ⟨⟨hp, by omega⟩, hq, by omega⟩]
    · intro b _ hb
      rw [if_neg]
      rintro ⟨_, _, hb'⟩
      omega
    · intro hn; exact absurd (mem_range.2 (by omega)) hn
    · intro a _ ha
      refine sum_eq_zero fun b _ => ?_
      rw [if_neg]
      rintro ⟨⟨_, ha'⟩, _⟩
      omega
    · intro hn; exact absurd (mem_range.2 (by omega)) hn
  · rename_i hc
    refine sum_eq_zero fun a ha => sum_eq_zero fun b hb => ?_
    rw [mem_range] at ha hb
    rw [if_neg]
    rintro ⟨⟨_, h1⟩, _, h2⟩
    exact hc (by omega)

/-- **C75, entries.** Every pixel `(p, q)` of the input is spread over the output by the kernel turned around: the entry
`(i, j, k)` of the output is the sum, over the pixels and the input channels, of
`x[p, q, d] · kernel[kh - 1 - a, kw - 1 - b, d, k]` where `(a, b) = (i + l₁ - p s₁, j + l₂ - q s₂)` is the place of the
entry in the window of the pixel, plus the bias. -/
theorem C75_entry (kernel : Arr) (bias : Option Arr) (s₁ s₂ : Nat) (same : Bool) (x y : Arr) (h w c kh kw o : Nat)
    (hx : x.shape = [h, w, c]) (hk : kernel.shape = [kh, kw, c, o])
    (hb : ∀ t, bias = some t → t.shape = [o] ∨ (o = 1 ∧ t.shape = []))
    (hy : deconvApply kernel bias (s₁, s₂) same x = .ok y) :
    y.WF ∧ ∀ i j k, [i, j, k] ∈ indices y.shape → y.get [i, j, k] =
      sum3 h w c (fun p q d => x.get [p, q, d] *
        kernelAt kernel kh kw (kh - 1 - (i + overhang same kh s₁ - p * s₁)) (kw - 1 - (j + overhang same kw s₂ - q * s₂))
          d k) +
      (match bias with | some t => t.get [k] | none => 0) := by
  obtain ⟨⟨h1, h2, h3, h4⟩, _⟩ := deconvApply_shape hx hk hy
  unfold deconvApply at hy
  rw [hx, hk] at hy
  simp only at h1 h2
  simp only [h1, h2, h3, h4, and_self, if_true, Except.ok.injEq] at hy
  subst hy
  refine ⟨wf_map_indices _ _, fun i j k hi => ?_⟩
  rw [get_map_indices _ _ hi]
  dsimp only
  congr 1
  · refine Eq.trans (regroup h w c kh kw (fun a => deconvPos same h kh s₁ i a) (fun b => deconvPos same w kw s₂ j b)
      (fun a p hp => ((deconvPos_iff h1).1 hp).1) (fun b q hq => ((deconvPos_iff h2).1 hq).1)
      (fun p q d => x.get [p, q, d]) (fun a b d => kernel.get [a, b, d, k])) ?_
    refine sum3_congr fun p hp q hq d _ => ?_
    rw [window_sum kernel same h w kh kw s₁ s₂ i j p q d k ⟨h1, h2⟩ ⟨h3, h4⟩ hp hq]
  · rcases bias with _ | t
    · rfl
    · rcases hb t rfl with hb | ⟨ho, hb⟩
      · simp only [Arr.get, hb, ravel, List.prod_nil, mul_one, add_zero]
      · have hk1 : k < o := by
          rw [mem_indices] at hi
          rcases hi with _ | ⟨_, hi⟩
          rcases hi with _ | ⟨_, hi⟩
          rcases hi with _ | ⟨hi, _⟩
          exact hi
        have hk0 : k = 0 := by omega
        simp only [Arr.get, hb, ravel, hk0]

/-! ### Transpose -/

theorem windowPos_iff {same : Bool} {n k s i a p : Nat} (hn : 0 < n) (hk : 0 < k) (hs : 0 < s) (ha : a < k) :
    windowPos same (deconvOut same n k s) k s p (k - 1 - a) = some i ↔
      i < deconvOut same n k s ∧ i + a = deconvLo same k s + p * s := by
  have l := deconvLo_overhang (same := same) hk hs
  unfold windowPos
  simp only
  rw [pads_deconv hn hk hs]
  generalize p * s = u at *
  constructor
  · intro h
    split at h
    · rename_i hc
      cases h
      exact ⟨hc.2, by omega⟩
    · cases h
  · rintro ⟨h1, h2⟩
    rw [if_pos (by omega)]
    congr 1
    omega

/-- **C75, transpose.** `Deconv` with kernel `K` is the transpose of `Conv`, with the same window, strides and padding,
whose kernel is `K` turned around with the channels exchanged: for all images `x` and `z` of matching sizes,
`⟨Conv z, x⟩ = ⟨z, Deconv x⟩`. -/
theorem C75_transpose (K K' : Arr) (s₁ s₂ : Nat) (same : Bool) (x z y u : Arr) (h w c kh kw o H W : Nat)
    (hh : 0 < h) (hw : 0 < w) (hx : x.shape = [h, w, c]) (hk : K.shape = [kh, kw, c, o])
    (hk' : K'.shape = [kh, kw, o, c])
    (hKK : ∀ a < kh, ∀ b < kw, ∀ d < c, ∀ k < o, K'.get [kh - 1 - a, kw - 1 - b, k, d] = K.get [a, b, d, k])
    (hy : deconvApply K none (s₁, s₂) same x = .ok y) (hys : y.shape = [H, W, o]) (hz : z.shape = [H, W, o])
    (hu : convApply K' none (s₁, s₂) same z = .ok u) :
    u.shape = [h, w, c] ∧ inner3 h w c u x = inner3 H W o z y := by
  obtain ⟨⟨h1, h2, h3, h4⟩, h5⟩ := deconvApply_shape hx hk hy
  simp only at h1 h2
  rw [hys] at h5
  simp only [List.cons.injEq, and_true] at h5
  obtain ⟨rfl, rfl⟩ := h5
  have hus := (convApply_shape hz hk' hu).2
  rw [C75_size_back same h kh s₁ hh h3 h1, C75_size_back same w kw s₂ hw h4 h2] at hus
  refine ⟨hus, ?_⟩
  have hN1 : ∀ p a i, windowPos same (deconvOut same h kh s₁) kh s₁ p a = some i → i < deconvOut same h kh s₁ := by
    intro p a i hi
    unfold windowPos at hi
    simp only at hi
    split at hi
    · cases hi; rename_i hc; exact hc.2
    · cases hi
  have hN2 : ∀ p a i, windowPos same (deconvOut same w kw s₂) kw s₂ p a = some i → i < deconvOut same w kw s₂ := by
    intro p a i hi
    unfold windowPos at hi
    simp only at hi
    split at hi
    · cases hi; rename_i hc; exact hc.2
    · cases hi
  have eu : ∀ p < h, ∀ q < w, ∀ d < c, u.get [p, q, d] =
      sum3 (deconvOut same h kh s₁) (deconvOut same w kw s₂) o fun i j k => z.get [i, j, k] *
        ∑ a ∈ range kh, ∑ b ∈ range kw, if deconvPos same h kh s₁ i a = some p ∧ deconvPos same w kw s₂ j b = some q then
          K.get [a, b, d, k] else 0 := by
    intro p hp q hq d hd
    have hi : [p, q, d] ∈ indices u.shape := by
      rw [hus, mem_indices]; exact .cons hp (.cons hq (.cons hd .nil))
    unfold convApply at hu
    rw [hz, hk'] at hu
    simp only [h1, h2, and_self, if_true, Except.ok.injEq] at hu
    subst hu
    rw [get_map_indices _ _ hi]
    dsimp only
    rw [add_zero]
    refine Eq.trans (regroup _ _ o kh kw (fun a => windowPos same (deconvOut same h kh s₁) kh s₁ p a)
      (fun b => windowPos same (deconvOut same w kw s₂) kw s₂ q b) (hN1 p) (hN2 q)
      (fun i j k => z.get [i, j, k]) (fun a b k => K'.get [a, b, k, d])) ?_
    refine sum3_congr fun i hi j hj k hk0 => ?_
    congr 1
    rw [← sum_range_reflect]
    refine sum_congr rfl fun a ha => ?_
    rw [← sum_range_reflect]
    refine sum_congr rfl fun b hb => ?_
    rw [mem_range] at ha hb
    rw [hKK a ha b hb d hd k hk0]
    refine if_congr ?_ rfl rfl
    rw [windowPos_iff hh h3 h1 ha, windowPos_iff hw h4 h2 hb, deconvPos_iff h1, deconvPos_iff h2]
    simp only [hi, hj, hp, hq, true_and]
  have ey : ∀ i < deconvOut same h kh s₁, ∀ j < deconvOut same w kw s₂, ∀ k < o, y.get [i, j, k] =
      sum3 h w c fun p q d => x.get [p, q, d] *
        ∑ a ∈ range kh, ∑ b ∈ range kw, if deconvPos same h kh s₁ i a = some p ∧ deconvPos same w kw s₂ j b = some q then
          K.get [a, b, d, k] else 0 := by
    intro i hi j hj k hk0
    have hm : [i, j, k] ∈ indices y.shape := by
      rw [hys, mem_indices]; exact .cons hi (.cons hj (.cons hk0 .nil))
    rw [(C75_entry K none s₁ s₂ same x y h w c kh kw o hx hk (by simp) hy).2 i j k hm]
    simp only [add_zero]
    refine sum3_congr fun p hp q hq d _ => ?_
    rw [window_sum K same h w kh kw s₁ s₂ i j p q d k ⟨h1, h2⟩ ⟨h3, h4⟩ hp hq]
  unfold inner3
  rw [sum3_congr fun p hp q hq d hd => by rw [eu p hp q hq d hd, mul_comm, mul_sum3],
    sum3_congr (n := deconvOut same h kh s₁) fun i hi j hj k hk0 => by rw [ey i hi j hj k hk0, mul_sum3], sum3_comm]
  refine sum3_congr fun i _ j _ k _ => sum3_congr fun p _ q _ d _ => ?_
  ring

/-- **C75, the kernel is turned around**: with one and the same kernel, `Deconv` is not the transpose of `Conv`. -/
theorem C75_same_kernel_not_transpose : ∃ K x z y u : Arr, x.WF ∧ z.WF ∧ K.WF ∧ x.shape = [1, 1, 1] ∧
    K.shape = [2, 1, 1, 1] ∧ deconvApply K none (1, 1) false x = .ok y ∧ y.shape = z.shape ∧
    convApply K none (1, 1) false z = .ok u ∧ u.shape = x.shape ∧ inner3 1 1 1 u x ≠ inner3 2 1 1 z y := by
  refine ⟨⟨[2, 1, 1, 1], [1, 0]⟩, ⟨[1, 1, 1], [1]⟩, ⟨[2, 1, 1], [1, 0]⟩, ⟨[2, 1, 1], [0, 1]⟩, ⟨[1, 1, 1], [1]⟩, rfl, rfl,
    rfl, rfl, rfl, ?_, rfl, ?_, rfl, ?_⟩
  · simp [deconvApply, deconvOut, deconvTotal, dilated, indices, deconvPos, deconvLo, List.range_succ, sum_range_succ,
      Arr.get, ravel]
  · simp [convApply, windowOut, pads, indices, windowPos, List.range_succ, sum_range_succ, Arr.get, ravel]
  · simp [inner3, sum3, sum_range_succ, Arr.get, ravel]

/-- **C75, when it returns.** `Deconv` takes images of three axes with the channels of its kernel (strides and window not
empty), and nothing else. -/
theorem C75_returns (kernel : Arr) (bias : Option Arr) (s₁ s₂ : Nat) (same : Bool) (x : Arr) (kh kw c o : Nat)
    (hk : kernel.shape = [kh, kw, c, o]) (hs : 0 < s₁ ∧ 0 < s₂) (hw : 0 < kh ∧ 0 < kw) :
    (∃ y, deconvApply kernel bias (s₁, s₂) same x = .ok y) ↔ ∃ h w, x.shape = [h, w, c] := by
  unfold deconvApply
  rw [hk]
  constructor
  · rintro ⟨y, hy⟩
    rcases hx : x.shape with _ | ⟨h, _ | ⟨w, _ | ⟨c', _ | ⟨e, l⟩⟩⟩⟩ <;> rw [hx] at hy <;> simp only at hy
    · cases hy
    · cases hy
    · cases hy
    · split at hy
      · rename_i hc
        exact ⟨h, w, by rw [hc.1]⟩
      · cases hy
    · cases hy
  · rintro ⟨h, w, hx⟩
    rw [hx]
    simp only [hs, hw, and_self, if_true]
    exact ⟨_, rfl⟩

/-- **C75, a fresh `Deconv`**: the kernel and the bias have the shapes that the input calls for and are drawn with the two
halves of the key; without `strides` the output has the size of the input with `SAME` padding, and is longer by the
window minus one with `VALID`. -/
theorem C75_fresh (E : Env) (key : Nat) (h w c kh kw o : Nat) (same tr : Bool) (rng : Option Nat) (hh : 0 < h)
    (hw : 0 < w) (hkh : 0 < kh) (hkw : 0 < kw) :
    ∃ kern bias, leafInit E key [h, w, c] (.deconv o (kh, kw) none same true) = .ok (.deconv kern (some bias) (1, 1) same) ∧
      kern = ⟨[kh, kw, c, o], E.init (E.split key).1 [kh, kw, c, o]⟩ ∧
      (bias.shape = [o] ∨ (o = 1 ∧ bias.shape = [])) ∧ bias.data = E.init (E.split key).2 bias.shape ∧
      ∀ x : Arr, x.shape = [h, w, c] → ∃ y, leafCall E tr rng x (.deconv kern (some bias) (1, 1) same) = .ok y ∧
        y.shape = if same then [h, w, o] else [h + (kh - 1), w + (kw - 1), o] := by
  refine ⟨_, _, rfl, rfl, ?_, rfl, fun x hx => ?_⟩
  · by_cases ho : o = 1
    · right; simp [ho]
    · left; simp [ho]
  · simp only [leafCall]
    obtain ⟨y, hy⟩ := (C75_returns ⟨[kh, kw, c, o], E.init (E.split key).1 [kh, kw, c, o]⟩
      (some ⟨if o = 1 then [] else [o], E.init (E.split key).2 (if o = 1 then [] else [o])⟩) 1 1 same x kh kw c o rfl
      ⟨Nat.one_pos, Nat.one_pos⟩ ⟨hkh, hkw⟩).2 ⟨h, w, hx⟩
    refine ⟨y, hy, ?_⟩
    rw [C75_sizes _ _ 1 1 same x y h w c kh kw o hx rfl hh hw hy]
    simp

/-! ### Non-vacuity -/

/-- The hypotheses of the transpose theorem are met by a 2×1 window with stride 2 on a 2×1 image. -/
example : ∃ K K' x z y u : Arr, x.shape = [2, 1, 1] ∧ K.shape = [2, 1, 1, 1] ∧ K'.shape = [2, 1, 1, 1] ∧
    (∀ a < 2, ∀ b < 1, ∀ d < 1, ∀ k < 1, K'.get [2 - 1 - a, 1 - 1 - b, k, d] = K.get [a, b, d, k]) ∧
    deconvApply K none (2, 1) true x = .ok y ∧ y.shape = [4, 1, 1] ∧ z.shape = [4, 1, 1] ∧
    convApply K' none (2, 1) true z = .ok u ∧ inner3 2 1 1 u x = inner3 4 1 1 z y := by
  obtain ⟨y, hy⟩ := (C75_returns ⟨[2, 1, 1, 1], [1, 2]⟩ none 2 1 true ⟨[2, 1, 1], [5, 7]⟩ 2 1 1 1 rfl (by decide)
    (by decide)).2 ⟨2, 1, rfl⟩
  have hs := C75_sizes _ _ 2 1 true _ y 2 1 1 2 1 1 rfl rfl (by decide) (by decide) hy
  have hK : ∀ a < 2, ∀ b < 1, ∀ d < 1, ∀ k < 1, Arr.get ⟨[2, 1, 1, 1], [2, 1]⟩ [2 - 1 - a, 1 - 1 - b, k, d] =
      Arr.get ⟨[2, 1, 1, 1], [1, 2]⟩ [a, b, d, k] := by
    intro a ha b hb d hd k hk
    have : b = 0 := by omega
    have : d = 0 := by omega
    have : k = 0 := by omega
    subst_vars
    rcases (by omega : a = 0 ∨ a = 1) with rfl | rfl <;> simp [Arr.get, ravel]
  have hc : ∃ u, convApply ⟨[2, 1, 1, 1], [2, 1]⟩ none (2, 1) true ⟨[4, 1, 1], [1, 2, 3, 4]⟩ = .ok u := ⟨_, rfl⟩
  obtain ⟨u, hu⟩ := hc
  exact ⟨_, _, _, ⟨[4, 1, 1], [1, 2, 3, 4]⟩, y, u, rfl, rfl, rfl, hK, hy, hs, rfl, hu,
    (C75_transpose _ _ 2 1 true _ _ y u 2 1 1 2 1 1 4 1 (by decide) (by decide) rfl rfl rfl hK hy hs rfl hu).2⟩

end Verif.NN
