import Verif.NN.Index

/-!
# C60: what the layers compute, entry by entry

`Dense` multiplies by its kernel along the last axis and adds its bias, `Reshape` keeps the entries and their
row-major order, `Conv` is the cross-correlation of the zero-padded image with the kernel, and the pointwise
activations act on each entry.
-/

namespace Verif.NN

open Finset

/-- The row-major position in a shape with one more axis at the end. -/
theorem ravel_append {s idx : List Nat} (h : idx ∈ indices s) (n k : Nat) :
    ravel (s ++ [n]) (idx ++ [k]) = ravel s idx * n + k := by
  induction s generalizing idx with
  | nil => simp [indices] at h; subst h; simp [ravel]
  | cons m s ih =>
    rw [mem_indices] at h
    rcases h with _ | ⟨h1, h2⟩
    rename_i i idx
    have := ih (mem_indices.2 h2)
    simp only [List.cons_append, ravel, this, List.prod_append, List.prod_singleton]
    ring

/-- `Dense` returns exactly for inputs whose last axis is the number of rows of the kernel. -/
theorem C60_dense_returns (kernel bias x : Arr) (m n : Nat) (hk : kernel.shape = [m, n]) :
    (∃ y, denseApply kernel bias x = .ok y) ↔ ∃ s, x.shape = s ++ [m] := by
  unfold denseApply
  rw [hk]
  simp only
  constructor
  · rintro ⟨y, h⟩
    split at h
    · rename_i hl
      exact ⟨x.shape.dropLast, by
        obtain ⟨hne, hl'⟩ := List.getLast?_eq_some_iff.1 hl
        rw [hl']; simp⟩
    · simp at h
  · rintro ⟨s, hs⟩
    rw [if_pos (by rw [hs]; simp)]
    exact ⟨_, rfl⟩

/-- **C60**, `Dense`: entry `(…, j)` of the output is `Σ_k x[…, k] kernel[k, j] + bias[j]`, for any number of
leading axes. -/
theorem C60_dense_entry (kernel bias x y : Arr) (m n : Nat) (s : List Nat) (hk : kernel.shape = [m, n])
    (hb : bias.shape = [n]) (hx : x.shape = s ++ [m]) (hy : denseApply kernel bias x = .ok y) :
    y.shape = s ++ [n] ∧ y.WF ∧ ∀ idx ∈ indices s, ∀ j < n,
      y.get (idx ++ [j]) = ∑ k ∈ range m, x.get (idx ++ [k]) * kernel.get [k, j] + bias.get [j] := by
  unfold denseApply at hy
  rw [hk] at hy
  simp only [hx, List.getLast?_append, List.getLast?_singleton, Option.some_or, if_true, Except.ok.injEq,
    List.dropLast_concat] at hy
  subst hy
  refine ⟨rfl, by simp [Arr.WF], fun idx hi j hj => ?_⟩
  have hn : 0 < n := Nat.lt_of_le_of_lt (Nat.zero_le _) hj
  have hr := ravel_lt hi
  have hlt : ravel s idx * n + j < s.prod * n := by
    calc ravel s idx * n + j < ravel s idx * n + n := by omega
      _ = (ravel s idx + 1) * n := by ring
      _ ≤ s.prod * n := Nat.mul_le_mul_right _ hr
  have hdiv : (ravel s idx * n + j) / n = ravel s idx := by
    rw [Nat.mul_comm, Nat.mul_add_div hn, Nat.div_eq_of_lt hj, Nat.add_zero]
  have hmod : (ravel s idx * n + j) % n = j := by
    rw [Nat.mul_comm, Nat.mul_add_mod, Nat.mod_eq_of_lt hj]
  unfold Arr.get
  simp only [ravel_append hi, hk, hb, hx]
  rw [List.getD_eq_getElem?_getD, List.getElem?_map, List.getElem?_range hlt]
  simp only [Option.map_some, Option.getD_some, hdiv, hmod, ravel, List.prod_cons, List.prod_nil, mul_one,
    add_zero]

/-- `Dense` is affine in its input: it preserves affine combinations. -/
theorem C60_dense_affine (kernel bias : Arr) (m n : Nat) (s : List Nat) (hk : kernel.shape = [m, n])
    (hb : bias.shape = [n]) (x x' z y y' w : Arr) (hx : x.shape = s ++ [m]) (hx' : x'.shape = s ++ [m])
    (hz : z.shape = s ++ [m]) (t : ℝ)
    (hlin : ∀ idx ∈ indices (s ++ [m]), z.get idx = (1 - t) * x.get idx + t * x'.get idx)
    (hy : denseApply kernel bias x = .ok y) (hy' : denseApply kernel bias x' = .ok y')
    (hw : denseApply kernel bias z = .ok w) :
    ∀ idx ∈ indices s, ∀ j < n,
      w.get (idx ++ [j]) = (1 - t) * y.get (idx ++ [j]) + t * y'.get (idx ++ [j]) := by
  intro idx hi j hj
  rw [(C60_dense_entry kernel bias x y m n s hk hb hx hy).2.2 idx hi j hj,
    (C60_dense_entry kernel bias x' y' m n s hk hb hx' hy').2.2 idx hi j hj,
    (C60_dense_entry kernel bias z w m n s hk hb hz hw).2.2 idx hi j hj]
  have : ∀ k ∈ range m, z.get (idx ++ [k]) * kernel.get [k, j] =
      (1 - t) * (x.get (idx ++ [k]) * kernel.get [k, j]) + t * (x'.get (idx ++ [k]) * kernel.get [k, j]) := by
    intro k hk'
    rw [hlin (idx ++ [k]) (by
      rw [mem_indices] at hi ⊢
      exact List.rel_append hi (.cons (Finset.mem_range.1 hk') .nil))]
    ring
  rw [Finset.sum_congr rfl this, Finset.sum_add_distrib, ← Finset.mul_sum, ← Finset.mul_sum]
  ring

/-! ### Reshape -/

/-- The sizes that are given (not `-1`). -/
def given (dims : List Int) : List Nat := (dims.filter (· ≠ -1)).map Int.toNat

theorem prod_fits (dims : List Int) (s : List Nat) (h : List.Forall₂ (fun (d : Int) (n : Nat) => d = -1 ∨ d = n) dims s)
    (c : dims.count (-1) ≤ 1) :
    (dims.count (-1) = 0 → s = given dims) ∧
    (dims.count (-1) = 1 → ∃ k, s = (dims.map fun d => if d = -1 then k else d.toNat) ∧
      s.prod = (given dims).prod * k) := by
  induction h with
  | nil => simp [given]
  | @cons d n dims s hd hs ih =>
    by_cases h1 : d = -1
    · subst h1
      rw [List.count_cons_self] at c ⊢
      have h0 : dims.count (-1) = 0 := by omega
      have := (ih (by omega)).1 h0
      refine ⟨by omega, fun _ => ⟨n, ?_, ?_⟩⟩
      · simp only [List.map_cons, if_true, List.cons.injEq, true_and]
        rw [this]
        unfold given
        have hno : ∀ d ∈ dims, d ≠ -1 := fun d hd he => by
          rw [List.count_eq_zero] at h0; exact h0 (he ▸ hd)
        rw [List.filter_eq_self.2 (fun d hd => by simpa using hno d hd)]
        exact List.map_congr_left fun d hd => by rw [if_neg (hno d hd)]
      · rw [List.prod_cons, this]
        have : given (-1 :: dims) = given dims := by simp [given]
        rw [this, Nat.mul_comm]
    · have hn : d = n := hd.resolve_left h1
      rw [List.count_cons_of_ne h1] at c ⊢
      have hg : given (d :: dims) = d.toNat :: given dims := by simp [given, h1]
      refine ⟨fun h0 => ?_, fun h0 => ?_⟩
      · rw [(ih (by omega)).1 h0, hg]; simp [hn]
      · obtain ⟨k, h2, h3⟩ := (ih (by omega)).2 h0
        refine ⟨k, ?_, ?_⟩
        · rw [List.map_cons, if_neg h1, ← h2]; simp [hn]
        · rw [List.prod_cons, hg, List.prod_cons, h3]; simp [hn, Nat.mul_assoc]

/-- **C60**, `Reshape`: it returns `y` exactly if the shape of `y` agrees with `dims` up to one entry `-1`, has as many
entries as `x`, and `y` has the same entries in row-major order (and the size in place of `-1` is determined). -/
theorem C60_reshape (dims : List Int) (x y : Arr) :
    reshapeApply dims x = .ok y ↔
      y.data = x.data ∧ List.Forall₂ (fun (d : Int) (n : Nat) => d = -1 ∨ d = n) dims y.shape ∧
      y.shape.prod = x.shape.prod ∧ dims.count (-1) ≤ 1 ∧ (-1 ∈ dims → (given dims).prod ≠ 0) := by
  have hforall : ∀ (k : Nat) (dims : List Int), (∀ d ∈ dims, -1 ≤ d) →
      List.Forall₂ (fun (d : Int) (n : Nat) => d = -1 ∨ d = n) dims
        (dims.map fun d => if d = -1 then k else d.toNat) := by
    intro k dims hd
    rw [List.forall₂_map_right_iff, List.forall₂_same]
    intro d h
    by_cases h1 : d = -1
    · exact .inl h1
    · right; rw [if_neg h1]; have := hd d h; omega
  constructor
  · intro h
    unfold reshapeApply at h
    simp only at h
    split at h
    · simp at h
    · rename_i hany
      have hge : ∀ d ∈ dims, -1 ≤ d := by
        intro d hd
        by_contra hlt
        exact hany (List.any_eq_true.2 ⟨d, hd, by simpa using hlt⟩)
      split at h
      · rename_i hc
        split at h
        · rename_i hp
          simp only [Except.ok.injEq] at h
          subst h
          have hno : ∀ d ∈ dims, d ≠ -1 := fun d hd he => by
            rw [List.count_eq_zero] at hc; exact hc (he ▸ hd)
          refine ⟨rfl, ?_, hp, by omega, fun hm => absurd rfl (hno _ hm)⟩
          have := hforall 0 dims hge
          rw [List.filter_eq_self.2 (fun d hd => by simpa using hno d hd)]
          rwa [List.map_congr_left (g := Int.toNat) (fun d hd => by rw [if_neg (hno d hd)])] at this
        · simp at h
      · rename_i hc
        split at h
        · rename_i hp
          simp only [Except.ok.injEq] at h
          subst h
          have hf := hforall (x.shape.prod / ((dims.filter (· ≠ -1)).map Int.toNat).prod) dims hge
          refine ⟨rfl, hf, ?_, by omega, fun _ => hp.1⟩
          obtain ⟨k, hk, hprod⟩ := (prod_fits dims _ hf (by omega)).2 hc
          have hmem : (-1 : Int) ∈ dims := List.count_pos_iff.1 (by omega)
          have hkk : k = x.shape.prod / ((dims.filter (· ≠ -1)).map Int.toNat).prod := by
            have := List.map_inj_left.1 hk (-1) hmem
            simpa using this.symm
          rw [hprod, hkk]
          exact Nat.mul_div_cancel' (Nat.dvd_of_mod_eq_zero hp.2)
        · simp at h
      · simp at h
  · rintro ⟨h1, h2, h3, h4, h5⟩
    obtain ⟨ys, yd⟩ := y
    simp only at h1 h2 h3
    subst h1
    unfold reshapeApply
    have hge : dims.any (· < -1) = false := by
      rw [List.any_eq_false]
      intro d hd
      obtain ⟨n, _, hn⟩ : ∃ n ∈ ys, d = -1 ∨ d = (n : Int) := by
        clear h4 h5 h3
        induction h2 with
        | nil => simp at hd
        | cons hr _ ih =>
          rcases List.mem_cons.1 hd with rfl | hd
          · exact ⟨_, by simp, hr⟩
          · obtain ⟨n, hn, hr⟩ := ih hd; exact ⟨n, by simp [hn], hr⟩
      simp only [decide_eq_true_eq, not_lt]
      omega
    have hpf := prod_fits dims ys h2 h4
    simp only [hge, Bool.false_eq_true, if_false]
    rcases Nat.le_one_iff_eq_zero_or_eq_one.1 h4 with hc | hc
    · simp only [hc]
      have := hpf.1 hc
      change (if (given dims).prod = x.shape.prod then _ else _) = _
      rw [if_pos (by rw [← this]; exact h3), this]
      rfl
    · simp only [hc]
      obtain ⟨k, hk, hprod⟩ := hpf.2 hc
      have hmem : (-1 : Int) ∈ dims := List.count_pos_iff.1 (by omega)
      have h0 := h5 hmem
      have hx : x.shape.prod = (given dims).prod * k := by rw [← h3, hprod]
      change (if (given dims).prod ≠ 0 ∧ x.shape.prod % (given dims).prod = 0 then _ else _) = _
      rw [if_pos ⟨h0, by rw [hx]; exact Nat.mul_mod_right _ _⟩]
      have hdiv : x.shape.prod / ((dims.filter (· ≠ -1)).map Int.toNat).prod = k := by
        rw [hx]; exact Nat.mul_div_cancel_left _ (Nat.pos_of_ne_zero h0)
      simp only [hdiv, ← hk]

/-! ### Convolution -/

/-- The number of rows of zeros that `lax.conv_general_dilated` puts before an axis of length `n` for a window of
length `w` and stride `s`: none for `VALID`; for `SAME` half (rounded down) of what is missing for
`ceil(n / s)` windows. -/
def padLow (same : Bool) (n w s : Nat) : Int :=
  if same then max 0 (((n + s - 1 : Nat) / s - 1) * s + w - n : Int) / 2 else 0

/-- An image extended by zeros. -/
noncomputable def padded (x : Arr) (h w : Nat) (p q : Int) (d : Nat) : ℝ :=
  if 0 ≤ p ∧ p < h ∧ 0 ≤ q ∧ q < w then x.get [p.toNat, q.toNat, d] else 0

theorem pads_low {same : Bool} {n w s : Nat} (hs : 0 < s) : ((pads same n w s).1 : Int) = padLow same n w s := by
  unfold pads padLow
  cases same
  · simp
  · simp only [if_true]
    set o := (n + s - 1) / s with ho
    have hoo : (((n + s - 1 : Nat) : Int) / s) = (o : Int) := by rw [ho]; push_cast; rfl
    rw [hoo]
    have e : (((o : Int) - 1) * s + w - n) = (o * s + w : Nat) - ((s + n : Nat) : Int) := by push_cast; ring
    rw [e]
    have e2 : max 0 (((o * s + w : Nat) : Int) - ((s + n : Nat) : Int)) = ((o * s + w - (s + n) : Nat) : Int) := by
      generalize o * s = z
      omega
    rw [e2]
    push_cast
    rfl

/-- **C60**, `Conv`: entry `(i, j, k)` of the output is `Σ x[s₁ i + a - l₁, s₂ j + b - l₂, d] kernel[a, b, d, k]` over
the window and the input channels, `x` being extended by zeros and `l₁`, `l₂` the low padding, plus the bias of the
output channel.  (`initialize` makes the bias a scalar for one output channel.) -/
theorem C60_conv_entry (kernel : Arr) (bias : Option Arr) (strides : Nat × Nat) (same : Bool) (x y : Arr)
    (h w c kh kw o : Nat) (hx : x.shape = [h, w, c]) (hk : kernel.shape = [kh, kw, c, o])
    (hs : 0 < strides.1 ∧ 0 < strides.2) (hb : ∀ t, bias = some t → t.shape = [o] ∨ (o = 1 ∧ t.shape = []))
    (hy : convApply kernel bias strides same x = .ok y) :
    y.WF ∧ ∀ i j k, [i, j, k] ∈ indices y.shape → y.get [i, j, k] =
      (∑ a ∈ range kh, ∑ b ∈ range kw, ∑ d ∈ range c,
        padded x h w (i * strides.1 + a - padLow same h kh strides.1) (j * strides.2 + b - padLow same w kw strides.2) d
          * kernel.get [a, b, d, k]) +
      (match bias with | some t => t.get [k] | none => 0) := by
  unfold convApply at hy
  rw [hx, hk] at hy
  simp only [hs, and_self, if_true, Except.ok.injEq] at hy
  subst hy
  refine ⟨wf_map_indices _ _, fun i j k hi => ?_⟩
  rw [get_map_indices _ _ hi]
  have hpos : ∀ n v s o' off, 0 < s → ∀ p, windowPos same n v s o' off = p →
      match p with
      | some p => (o' * s + off - padLow same n v s : Int) = p ∧ p < n
      | none => ¬ (0 ≤ (o' * s + off - padLow same n v s : Int) ∧ (o' * s + off - padLow same n v s : Int) < n) := by
    intro n v s o' off hs p hp
    rw [← pads_low hs]
    unfold windowPos at hp
    simp only at hp
    split at hp
    · rename_i hh
      subst hp
      simp only
      have : ((o' * s + off - (pads same n v s).1 : Nat) : Int) = o' * s + off - (pads same n v s).1 := by
        rw [Nat.cast_sub hh.1]; push_cast; rfl
      exact ⟨this.symm, hh.2⟩
    · rename_i hh
      subst hp
      simp only
      rintro ⟨g1, g2⟩
      apply hh
      have g3 : (pads same n v s).1 ≤ o' * s + off := by
        have : ((pads same n v s).1 : Int) ≤ ((o' * s + off : Nat) : Int) := by push_cast; linarith
        exact_mod_cast this
      refine ⟨g3, ?_⟩
      have : ((o' * s + off - (pads same n v s).1 : Nat) : Int) < n := by
        rw [Nat.cast_sub g3]; push_cast; linarith
      exact_mod_cast this
  dsimp only
  congr 1
  · refine sum_congr rfl fun a _ => sum_congr rfl fun b _ => sum_congr rfl fun d _ => ?_
    have h1 := hpos h kh strides.1 i a hs.1 _ rfl
    have h2 := hpos w kw strides.2 j b hs.2 _ rfl
    rcases e1 : windowPos same h kh strides.1 i a with _ | p <;> rw [e1] at h1 <;> simp only at h1
    · simp only [padded]
      rw [if_neg (fun hh => h1 ⟨hh.1, hh.2.1⟩), zero_mul]
    · rcases e2 : windowPos same w kw strides.2 j b with _ | q <;> rw [e2] at h2 <;> simp only at h2
      · simp only [padded]
        rw [if_neg (fun hh => h2 ⟨hh.2.2.1, hh.2.2.2⟩), zero_mul]
      · simp only [padded, h1.1, h2.1]
        rw [if_pos ⟨by omega, by exact_mod_cast h1.2, by omega, by exact_mod_cast h2.2⟩]
        simp
  · rcases bias with _ | t
    · rfl
    · rcases hb t rfl with hb | ⟨ho, hb⟩
      · simp only [Arr.get, hb, ravel, List.prod_nil, mul_one, add_zero]
      · have hk1 : k < o := by
          rw [mem_indices] at hi
          rcases hi with _ | ⟨_, hi⟩
          rcases hi with _ | ⟨_, hi⟩
          rcases hi with _ | ⟨hi, _⟩
          exact hi
        have hk0 : k = 0 := by omega
        simp only [Arr.get, hb, ravel, hk0]

/-! ### Activations -/

theorem get_map_data (x : Arr) (hx : x.WF) (f : ℝ → ℝ) {idx : List Nat} (h : idx ∈ indices x.shape) :
    Arr.get { x with data := x.data.map f } idx = f (x.get idx) := by
  have hl : ravel x.shape idx < x.data.length := by rw [hx]; exact ravel_lt h
  unfold Arr.get
  simp only [List.getD_eq_getElem?_getD, List.getElem?_map, List.getElem?_eq_getElem hl, Option.map_some,
    Option.getD_some]

/-- **C60**, `Relu`, `Tanh`, `Softplus` act on each entry and keep the shape. -/
theorem C60_activations (x : Arr) (hx : x.WF) :
    (∃ y, actApply .relu x = .ok y ∧ y.shape = x.shape ∧ ∀ idx ∈ indices x.shape, y.get idx = max (x.get idx) 0) ∧
    (∃ y, actApply .tanh x = .ok y ∧ y.shape = x.shape ∧
      ∀ idx ∈ indices x.shape, y.get idx = Real.tanh (x.get idx)) ∧
    ∃ y, actApply .softplus x = .ok y ∧ y.shape = x.shape ∧
      ∀ idx ∈ indices x.shape, y.get idx = Real.log (1 + Real.exp (x.get idx)) :=
  ⟨⟨_, rfl, rfl, fun _ h => get_map_data x hx (fun v => max v 0) h⟩,
    ⟨_, rfl, rfl, fun _ h => get_map_data x hx Real.tanh h⟩,
    ⟨_, rfl, rfl, fun _ h => get_map_data x hx (fun v => Real.log (1 + Real.exp v)) h⟩⟩

/-! ### Non-vacuity -/

example : ∃ y, denseApply ⟨[2, 1], [3, 4]⟩ ⟨[1], [5]⟩ ⟨[2, 2], [1, 0, 0, 1]⟩ = .ok y ∧ y.get [1, 0] = 9 := by
  obtain ⟨y, hy⟩ := (C60_dense_returns ⟨[2, 1], [3, 4]⟩ ⟨[1], [5]⟩ ⟨[2, 2], [1, 0, 0, 1]⟩ 2 1 rfl).2 ⟨[2], rfl⟩
  refine ⟨y, hy, ?_⟩
  have := (C60_dense_entry _ _ _ y 2 1 [2] rfl rfl rfl hy).2.2 [1] (by decide) 0 (by decide)
  simp only [List.singleton_append] at this
  rw [this]
  simp [Finset.sum_range_succ, Arr.get, ravel]
  norm_num

example : ∃ y, reshapeApply [2, -1] ⟨[3, 2], [1, 2, 3, 4, 5, 6]⟩ = .ok y ∧ y.shape = [2, 3] :=
  ⟨⟨[2, 3], [1, 2, 3, 4, 5, 6]⟩, (C60_reshape _ _ _).2 ⟨rfl, by simp, by simp, by decide, fun _ => by decide⟩, rfl⟩

/-- A 2×2 image convolved with a 2×2 window, `SAME`: the padding is after the image. -/
example : padLow true 2 2 1 = 0 ∧ padLow true 3 3 1 = 1 ∧ padLow true 4 3 2 = 0 := by decide

end Verif.NN
