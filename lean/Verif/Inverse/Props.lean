import Verif.Inverse.Chain
import Mathlib.Analysis.SpecialFunctions.Trigonometric.Bounds
import Mathlib.Analysis.Real.Pi.Bounds

/-! C26: `inverse` returns a preimage, for chains of unary primitives and for general programs. -/
namespace Verif.Inverse

open Verif.Propagate

/-- The function computed by a chain. -/
noncomputable def evalChain (ps : List Un) (x : ℝ) : F := ps.foldl (fun v p => v.bind p.f) (some x)

theorem npLog_some {x v : ℝ} (h : npLog x = some v) : 0 < x ∧ v = Real.log x := by
  unfold npLog at h
  split at h
  · exact ⟨by assumption, (Option.some.inj h).symm⟩
  · simp at h

theorem npPow_some {z e v : ℝ} (h : npPow z e = some v) : (0 < z ∧ v = z ^ e) ∨ (z = 0 ∧ 0 < e ∧ v = 0) := by
  unfold npPow at h
  split at h
  · exact .inl ⟨by assumption, (Option.some.inj h).symm⟩
  · split at h
    · rename_i h'; exact .inr ⟨h'.1, h'.2, (Option.some.inj h).symm⟩
    · simp at h

theorem rpow_inv_zpow {z : ℝ} (hz : 0 < z) (n : ℤ) (hn : n ≠ 0) : (z ^ (1 / (n : ℝ))) ^ n = z := by
  rw [← Real.rpow_intCast, ← Real.rpow_mul hz.le]
  have : (n : ℝ) ≠ 0 := by exact_mod_cast hn
  rw [one_div, inv_mul_cancel₀ this, Real.rpow_one]

/-- Every registered inverse except that of `sqrt` is a right inverse wherever it is a number. -/
theorem Un.right_inverse (p : Un) (hp : p ≠ .sqrt) (z v : ℝ) (h : p.g z = some v) : p.f v = some z := by
  cases p with
  | exp =>
    obtain ⟨hz, rfl⟩ := npLog_some h
    simp [Un.f, Real.exp_log hz]
  | log =>
    simp only [Un.g, Option.some.injEq] at h; subst h
    simp [Un.f, npLog, Real.exp_pos]
  | sin =>
    simp only [Un.g] at h
    split at h
    · rename_i hz; simp only [Option.some.injEq] at h; subst h
      simp [Un.f, Real.sin_arcsin hz.1 hz.2]
    · simp at h
  | cos =>
    simp only [Un.g] at h
    split at h
    · rename_i hz; simp only [Option.some.injEq] at h; subst h
      simp [Un.f, Real.cos_arccos hz.1 hz.2]
    · simp at h
  | expm1 =>
    obtain ⟨hz, rfl⟩ := npLog_some h
    simp [Un.f, Real.exp_log hz]
  | log1p =>
    simp only [Un.g, Option.some.injEq] at h; subst h
    simp [Un.f, npLog, Real.exp_pos]
  | neg => simp only [Un.g, Option.some.injEq] at h; subst h; simp [Un.f]
  | sqrt => exact absurd rfl hp
  | ipow n =>
    simp only [Un.g] at h
    split at h
    · simp at h
    · rename_i h0
      split at h
      · rename_i h1; subst h1; simp only [Option.some.injEq] at h; subst h; simp [Un.f]
      · split at h
        · rename_i h2; subst h2
          split at h
          · simp at h
          · rename_i hz; simp only [Option.some.injEq] at h; subst h
            simp [Un.f, hz]
        · split at h
          · rename_i h3; subst h3
            split at h
            · rename_i hz; simp only [Option.some.injEq] at h; subst h
              simp only [Un.f]
              rw [if_neg (by norm_num)]
              congr 1
              exact_mod_cast Real.sq_sqrt hz
            · simp at h
          · rcases npPow_some h with ⟨hz, rfl⟩ | ⟨rfl, he, rfl⟩
            · simp only [Un.f]
              rw [if_neg (fun hc => (Real.rpow_pos_of_pos hz _).ne' hc.1), rpow_inv_zpow hz n h0]
            · have hn : 0 < n := by
                have : (0 : ℝ) < n := by simpa using he
                exact_mod_cast this
              simp only [Un.f]
              rw [if_neg (by omega), zero_zpow n h0]
  | reshape => simp only [Un.g, Option.some.injEq] at h; subst h; simp [Un.f]
  | convert => simp only [Un.g, Option.some.injEq] at h; subst h; simp [Un.f]
  | expit =>
    simp only [Un.g] at h
    split at h
    · rename_i hz; simp only [Option.some.injEq] at h; subst h
      simp only [Un.f, Option.some.injEq]
      have h1 : 0 < 1 - z := by linarith
      rw [Real.exp_neg, Real.exp_log (div_pos hz.1 h1)]
      have := hz.1.ne'
      have := h1.ne'
      field_simp
      ring
    · simp at h
  | logit =>
    simp only [Un.g, Option.some.injEq] at h; subst h
    have he := Real.exp_pos (-z)
    have h1 : (0 : ℝ) < 1 / (1 + Real.exp (-z)) := by positivity
    have h2 : 1 / (1 + Real.exp (-z)) < 1 := by rw [div_lt_one (by positivity)]; linarith
    simp only [Un.f]
    rw [if_pos ⟨h1, h2⟩]
    congr 1
    have : 1 / (1 + Real.exp (-z)) / (1 - 1 / (1 + Real.exp (-z))) = Real.exp z := by
      have h3 : 1 + Real.exp (-z) ≠ 0 := by positivity
      have h4 : (1 - 1 / (1 + Real.exp (-z))) = Real.exp (-z) / (1 + Real.exp (-z)) := by
        field_simp; ring
      rw [h4, div_div_div_cancel_right₀ h3, Real.exp_neg, one_div, inv_inv]
    rw [this, Real.log_exp]
  | softplus =>
    simp only [Un.g, Option.map_eq_some_iff] at h
    obtain ⟨a, ha, rfl⟩ := h
    obtain ⟨hz, rfl⟩ := npLog_some ha
    simp only [Un.f, Option.some.injEq]
    rw [Real.exp_add, Real.exp_log hz]
    have : 1 + -(Real.exp (-z) - 1) * Real.exp z = Real.exp z := by
      rw [Real.exp_neg]
      have := (Real.exp_pos z).ne'
      field_simp
      ring
    rw [this, Real.log_exp]

theorem pull_eval (ps : List Un) (hps : ∀ p ∈ ps, p ≠ Un.sqrt) (y x : ℝ) (h : (pull ps (some y)).1 = some x) :
    evalChain ps x = some y := by
  have key : ∀ (ps : List Un) (v : F), (∀ p ∈ ps, p ≠ Un.sqrt) → (pull ps (some y)).1 = v → v ≠ none →
      ps.foldl (fun v p => v.bind p.f) v = some y := by
    intro ps
    induction ps with
    | nil => intro v _ h _; simpa [pull] using h.symm
    | cons p ps ih =>
      intro v hps h hne
      have h' : (pull ps (some y)).1.bind p.g = v := h
      rcases hw : (pull ps (some y)).1 with _ | w
      · rw [hw] at h'; exact absurd h'.symm hne
      · rw [hw] at h'
        rcases v with _ | v
        · exact absurd rfl hne
        · have hf := p.right_inverse (hps p (by simp)) w v h'
          simp only [List.foldl_cons, Option.bind_some, hf]
          rw [← hw]
          exact ih _ (fun q hq => hps q (by simp [hq])) rfl (by rw [hw]; simp)
  exact key ps (some x) hps h (by simp)

/-- C26 for chains, partial: whatever `y` is, if `inverse` of a chain of registered primitives other than `sqrt`
returns a number `x` then `f x = y`.  With `sqrt` this is false: `inverse_wrong_preimage`. -/
theorem chain_inverse_correct_partial (ps : List Un) (hps : ∀ p ∈ ps, p ≠ Un.sqrt) (y x : ℝ) (l : F)
    (h : InverseRun (chainProg ps) [some y] (some [(some x, l)])) : evalChain ps x = some y := by
  rw [chain_run] at h
  simp only [Option.some.injEq, List.cons.injEq, and_true] at h
  exact pull_eval ps hps y x (by rw [← h])

/-- `inverse` of a chain always returns something, for every order of propagation. -/
theorem chain_inverse_returns (ps : List Un) (y : F) : ∃ r, InverseRun (chainProg ps) [y] (some [r]) ∧
    ∀ res, InverseRun (chainProg ps) [y] res → res = some [r] :=
  ⟨_, (chain_run ps y _).2 rfl, fun _ h => (chain_run ps y _).1 h⟩

/-- The condition under which the registered inverse gives back the input (the branch it chooses). -/
def Un.ok : Un → ℝ → Prop
  | .sin, x => -(Real.pi / 2) ≤ x ∧ x ≤ Real.pi / 2
  | .cos, x => 0 ≤ x ∧ x ≤ Real.pi
  | .ipow n, x => n ≠ 0 ∧ (n = 1 ∨ n = -1 ∨ 0 ≤ x)
  | _, _ => True

theorem zpow_rpow_inv {x : ℝ} (hx : 0 < x) (n : ℤ) (hn : n ≠ 0) : (x ^ n) ^ (1 / (n : ℝ)) = x := by
  rw [← Real.rpow_intCast, ← Real.rpow_mul hx.le]
  have : (n : ℝ) ≠ 0 := by exact_mod_cast hn
  rw [one_div, mul_inv_cancel₀ this, Real.rpow_one]

/-- Every registered inverse undoes its primitive on the branch it chooses. -/
theorem Un.left_inverse (p : Un) (x z : ℝ) (hok : p.ok x) (h : p.f x = some z) : p.g z = some x := by
  cases p with
  | exp => simp only [Un.f, Option.some.injEq] at h; subst h; simp [Un.g, npLog, Real.exp_pos]
  | log => obtain ⟨hx, rfl⟩ := npLog_some h; simp [Un.g, Real.exp_log hx]
  | sin =>
    simp only [Un.f, Option.some.injEq] at h; subst h
    simp only [Un.g]
    rw [if_pos ⟨Real.neg_one_le_sin x, Real.sin_le_one x⟩, Real.arcsin_sin hok.1 hok.2]
  | cos =>
    simp only [Un.f, Option.some.injEq] at h; subst h
    simp only [Un.g]
    rw [if_pos ⟨Real.neg_one_le_cos x, Real.cos_le_one x⟩, Real.arccos_cos hok.1 hok.2]
  | expm1 =>
    simp only [Un.f, Option.some.injEq] at h; subst h
    simp [Un.g, npLog, Real.exp_pos]
  | log1p =>
    obtain ⟨hx, rfl⟩ := npLog_some h
    simp [Un.g, Real.exp_log hx]
  | neg => simp only [Un.f, Option.some.injEq] at h; subst h; simp [Un.g]
  | sqrt =>
    simp only [Un.f] at h
    split at h
    · rename_i hx; simp only [Option.some.injEq] at h; subst h
      simp [Un.g, Real.sq_sqrt hx]
    · simp at h
  | ipow n =>
    obtain ⟨h0, hor⟩ := hok
    simp only [Un.f] at h
    split at h
    · simp at h
    · rename_i hx
      simp only [Option.some.injEq] at h
      simp only [Un.g, if_neg h0]
      split
      · rename_i h1; subst h1; simpa using h.symm
      · rename_i h1
        split
        · rename_i h2; subst h2
          have hx0 : x ≠ 0 := fun hc => hx ⟨hc, by norm_num⟩
          rw [zpow_neg_one] at h
          rw [if_neg (by rw [← h]; exact inv_ne_zero hx0), ← h, inv_inv]
        · rename_i h2
          have hx0 : 0 ≤ x := by rcases hor with h' | h' | h' <;> first | exact absurd h' h1 | exact absurd h' h2 | exact h'
          split
          · rename_i h3; subst h3
            have h' : x ^ 2 = z := by exact_mod_cast h
            rw [if_pos (by rw [← h']; positivity), ← h', Real.sqrt_sq hx0]
          · rcases hx0.eq_or_lt with h4 | h4
            · subst h4
              have hn : 0 < n := by
                rcases lt_or_ge n 0 with h5 | h5
                · exact absurd ⟨rfl, h5⟩ hx
                · omega
              rw [zero_zpow n h0] at h
              subst h
              have : (0 : ℝ) < n := by exact_mod_cast hn
              simp only [npPow, lt_self_iff_false, if_false]
              rw [if_pos ⟨trivial, by positivity⟩]
            · have hz : 0 < z := by rw [← h]; exact zpow_pos h4 n
              simp only [npPow]
              rw [if_pos hz, ← h, zpow_rpow_inv h4 n h0]
  | reshape => simp only [Un.f, Option.some.injEq] at h; subst h; simp [Un.g]
  | convert => simp only [Un.f, Option.some.injEq] at h; subst h; simp [Un.g]
  | expit =>
    simp only [Un.f, Option.some.injEq] at h; subst h
    have hr := Un.right_inverse .logit (by simp) x (1 / (1 + Real.exp (-x))) (by simp [Un.g])
    simpa [Un.f, Un.g] using hr
  | logit =>
    have hr := Un.right_inverse .expit (by simp) x z (by simpa [Un.f, Un.g] using h)
    simpa [Un.f, Un.g] using hr
  | softplus =>
    simp only [Un.f, Option.some.injEq] at h; subst h
    have he := Real.exp_pos x
    have h1 : (0 : ℝ) < 1 + Real.exp x := by positivity
    have h2 : -(Real.exp (-Real.log (1 + Real.exp x)) - 1) = Real.exp x / (1 + Real.exp x) := by
      rw [Real.exp_neg, Real.exp_log h1]; field_simp; ring
    simp only [Un.g]
    rw [h2, npLog, if_pos (by positivity)]
    simp only [Option.map_some, Option.some.injEq]
    rw [Real.log_div he.ne' h1.ne', Real.log_exp]
    ring

/-- C26.  If the input `x` lies, at every primitive of the chain, on the branch the registered inverse chooses,
then `inverse(f)(f(x))` is `x`. -/
theorem chain_inverse_recovers (ps : List Un) (x y : ℝ) (xs : List ℝ) (hx : xs.head? = some x) (hy : xs.getLast? = some y)
    (hl : xs.length = ps.length + 1)
    (hstep : ∀ (i : Nat) (p : Un) (a b : ℝ), ps[i]? = some p → xs[i]? = some a → xs[i + 1]? = some b →
      p.f a = some b ∧ p.ok a)
    (res : Option (List (F × F))) (h : InverseRun (chainProg ps) [some y] res) :
    ∃ l, res = some [(some x, l)] := by
  rw [chain_run] at h
  subst h
  have : (pull ps (some y)).1 = some x := by
    induction ps generalizing x xs with
    | nil =>
      obtain ⟨a, rfl⟩ := List.length_eq_one_iff.1 hl
      simp only [List.head?_cons, Option.some.injEq, List.getLast?_singleton] at hx hy
      subst hx hy; rfl
    | cons p ps ih =>
      obtain _ | ⟨a, _ | ⟨b, xs⟩⟩ := xs
      · simp at hl
      · simp at hl
      · simp only [List.head?_cons, Option.some.injEq] at hx
        subst hx
        have h1 := ih b (b :: xs) rfl (by simpa using hy) (by simpa using hl)
          (fun i q c d h1 h2 h3 => hstep (i + 1) q c d (by simpa using h1) (by simpa using h2) (by simpa using h3))
        obtain ⟨h2, h3⟩ := hstep 0 p a b rfl rfl rfl
        show (pull ps (some y)).1.bind p.g = some a
        rw [h1]
        exact p.left_inverse a b h3 h2
  exact ⟨(pull ps (some y)).2, by rw [← this]⟩

/-! ### Counterexamples -/

/-- C26 (negation).  `f x = sin (sqrt x)`: for `y = sin 4 = f 16` the inverse returns `(π - 4)²`, and
`f ((π - 4)²) = - f 16 ≠ y`. -/
theorem inverse_wrong_preimage : ∃ (y x : ℝ) (l : F), evalChain [.sqrt, .sin] 16 = some y ∧
    InverseRun (chainProg [.sqrt, .sin]) [some y] (some [(some x, l)]) ∧ evalChain [.sqrt, .sin] x ≠ some y := by
  have hs : Real.sqrt 16 = 4 := by rw [show (16 : ℝ) = 4 ^ 2 by norm_num]; exact Real.sqrt_sq (by norm_num)
  have hpi := Real.pi_gt_three
  have hpi4 := Real.pi_lt_four
  have hpi3 : Real.pi < 3.15 := Real.pi_lt_d2
  have hasin : Real.arcsin (Real.sin 4) = Real.pi - 4 := by
    rw [← Real.sin_pi_sub, Real.arcsin_sin (by linarith) (by linarith)]
  refine ⟨Real.sin 4, (Real.pi - 4) ^ 2, (pull [.sqrt, .sin] (some (Real.sin 4))).2, ?_, ?_, ?_⟩
  · simp [evalChain, Un.f, hs]
  · rw [chain_run]
    have : (pull [.sqrt, .sin] (some (Real.sin 4))).1 = some ((Real.pi - 4) ^ 2) := by
      simp [pull, Un.g, Real.neg_one_le_sin, Real.sin_le_one, hasin]
    rw [← this]
  · have h1 : evalChain [.sqrt, .sin] ((Real.pi - 4) ^ 2) = some (Real.sin (4 - Real.pi)) := by
      simp only [evalChain, List.foldl_cons, List.foldl_nil, Option.bind_some, Un.f]
      rw [if_pos (by positivity), Real.sqrt_sq_eq_abs, abs_of_nonpos (by linarith)]
      simp [Un.f]
    rw [h1, Real.sin_sub_pi]
    intro hc
    simp only [Option.some.injEq] at hc
    have hz : Real.sin 4 = 0 := by linarith
    have hneg : 0 < Real.sin (4 - Real.pi) := Real.sin_pos_of_pos_of_lt_pi (by linarith) (by linarith)
    rw [Real.sin_sub_pi, hz] at hneg
    simp at hneg

/-- C26 (negation).  `f x = (-exp x)²`: the output 4 is in the range, and the inverse is nan. -/
theorem inverse_nan_in_range : evalChain [.exp, .neg, .ipow 2] (Real.log 2) = some 4 ∧
    ∀ res, InverseRun (chainProg [.exp, .neg, .ipow 2]) [some 4] res → ∃ l, res = some [(none, l)] := by
  refine ⟨?_, ?_⟩
  · simp only [evalChain, List.foldl_cons, List.foldl_nil, Option.bind_some, Un.f]
    rw [if_neg (by norm_num), Real.exp_log (by norm_num)]
    norm_num
  · intro res h
    rw [chain_run] at h
    have h4 : Real.sqrt 4 = 2 := by rw [show (4 : ℝ) = 2 ^ 2 by norm_num]; exact Real.sqrt_sq (by norm_num)
    have : (pull [.exp, .neg, .ipow 2] (some 4)).1 = none := by
      simp only [pull, List.foldr_cons, List.foldr_nil, Option.bind_some, Un.g]
      rw [if_neg (by norm_num), if_neg (by norm_num), if_neg (by norm_num), if_pos trivial, if_pos (by norm_num), h4]
      simp [Un.g, npLog]
    exact ⟨_, by rw [h, ← this]⟩

/-- C26 (negation).  `f x = x ** 3` at `-8 = f (-2)`: the inverse is nan (`lax.pow(-8., 1/3)`). -/
theorem inverse_cube_nan : evalChain [.ipow 3] (-2) = some (-8) ∧
    ∀ res, InverseRun (chainProg [.ipow 3]) [some (-8)] res → ∃ l, res = some [(none, l)] := by
  refine ⟨?_, ?_⟩
  · simp only [evalChain, List.foldl_cons, List.foldl_nil, Option.bind_some, Un.f]
    rw [if_neg (by norm_num)]
    congr 1
    norm_num
  · intro res h
    rw [chain_run] at h
    have : (pull [.ipow 3] (some (-8))).1 = none := by
      simp only [pull, List.foldr_cons, List.foldr_nil, Option.bind_some, Un.g]
      rw [if_neg (by norm_num), if_neg (by norm_num), if_neg (by norm_num), if_neg (by norm_num)]
      simp only [npPow]
      rw [if_neg (by norm_num), if_neg (by norm_num)]
    exact ⟨_, by rw [h, ← this]⟩

/-- An instance of `chain_inverse_recovers`: `log (1 + exp x)` composed with `exp`, at 0. -/
example (res : Option (List (F × F))) (h : InverseRun (chainProg [.exp, .log1p, .neg]) [some (-Real.log 2)] res) :
    ∃ l, res = some [(some 0, l)] := by
  refine chain_inverse_recovers [.exp, .log1p, .neg] 0 (-Real.log 2) [0, 1, Real.log 2, -Real.log 2] rfl rfl rfl ?_ res h
  rintro (_ | _ | _ | i) p a b h1 h2 h3 <;> simp at h1 h2 h3 <;> subst h1 h2 h3 <;> simp [Un.f, Un.ok, npLog] <;> norm_num

end Verif.Inverse
