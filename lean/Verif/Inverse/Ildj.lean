import Verif.Inverse.Graph
import Mathlib.Analysis.Calculus.Deriv.Inverse
import Mathlib.Analysis.Calculus.Deriv.Comp
import Mathlib.Analysis.SpecialFunctions.Log.Deriv
import Mathlib.Analysis.SpecialFunctions.Pow.Deriv
import Mathlib.LinearAlgebra.Matrix.Block

/-! C27: the inverse log-det-Jacobian. -/
namespace Verif.Inverse

open Verif.Propagate Filter Topology

open Classical in
/-- Where the increment of the ILDJ is a number, it is the log of the absolute derivative of the registered
inverse, which is defined around that point. -/
theorem Un.dlog_spec (p : Un) (hp : p ≠ .reshape ∧ p ≠ .convert) (z x d : ℝ) (hx : p.g z = some x)
    (hd : p.dlog z = some d) :
    ∃ g', HasDerivAt p.gr g' z ∧ g' ≠ 0 ∧ d = Real.log |g'| ∧ ∀ᶠ w in 𝓝 z, p.g w ≠ none := by
  have generic : (if DifferentiableAt ℝ p.gr z ∧ deriv p.gr z ≠ 0 then some (Real.log |deriv p.gr z|) else none) = some d →
      ∃ g', HasDerivAt p.gr g' z ∧ g' ≠ 0 ∧ d = Real.log |g'| ∧ ∀ᶠ w in 𝓝 z, p.g w ≠ none := by
    intro h
    split at h
    · rename_i hc
      refine ⟨deriv p.gr z, hc.1.hasDerivAt, hc.2, (Option.some.inj h).symm, ?_⟩
      have he := hc.1.hasDerivAt.eventually_ne (c := 0) hc.2
      rw [eventually_nhdsWithin_iff] at he
      filter_upwards [he] with w hw
      by_cases hwz : w = z
      · subst hwz; rw [hx]; simp
      · intro hn
        exact hw hwz (by simp [Un.gr, hn])
    · simp at h
  cases p with
  | expit =>
    simp only [Un.dlog] at hd
    split at hd
    · rename_i hz
      have h1 : 0 < 1 - z := by linarith [hz.2]
      have hev : ∀ᶠ w in 𝓝 z, 0 < w ∧ w < 1 :=
        (lt_mem_nhds hz.1).and (gt_mem_nhds hz.2)
      have hd1 : HasDerivAt (fun w : ℝ => Real.log (w / (1 - w))) (1 / (z * (1 - z))) z := by
        have h2 : HasDerivAt (fun w : ℝ => w / (1 - w)) ((1 * (1 - z) - z * (-1)) / (1 - z) ^ 2) z :=
          (hasDerivAt_id z).div ((hasDerivAt_id z).const_sub 1) h1.ne'
        have h3 := h2.log (by have := div_pos hz.1 h1; exact this.ne')
        refine h3.congr_deriv ?_
        have := hz.1.ne'
        have := h1.ne'
        field_simp
        ring
      refine ⟨1 / (z * (1 - z)), ?_, ?_, ?_, ?_⟩
      · refine hd1.congr_of_eventuallyEq ?_
        filter_upwards [hev] with w hw
        simp [Un.gr, Un.g, hw.1, hw.2]
      · have := mul_pos hz.1 h1; positivity
      · simp only [Option.some.injEq] at hd
        rw [← hd]
        have hq := div_pos hz.1 h1
        rw [Real.exp_neg, Real.exp_log hq, abs_of_pos (by have := mul_pos hz.1 h1; positivity),
          ← Real.log_mul (by positivity) (by positivity)]
        congr 1
        have := hz.1.ne'
        have := h1.ne'
        field_simp
        ring
      · filter_upwards [hev] with w hw
        simp [Un.g, hw.1, hw.2]
    · simp at hd
  | logit =>
    simp only [Un.dlog, Option.some.injEq] at hd
    have he := Real.exp_pos (-z)
    have he' := Real.exp_pos z
    have hd1 : HasDerivAt (fun w : ℝ => 1 / (1 + Real.exp (-w))) (Real.exp (-z) / (1 + Real.exp (-z)) ^ 2) z := by
      have h1 : HasDerivAt (fun w : ℝ => 1 + Real.exp (-w)) (Real.exp (-z) * (-1)) z :=
        ((hasDerivAt_neg z).exp).const_add 1
      have h2 := h1.inv (by positivity)
      simp only [one_div]
      refine h2.congr_deriv ?_
      rw [mul_neg_one, neg_neg]
    refine ⟨Real.exp (-z) / (1 + Real.exp (-z)) ^ 2, ?_, by positivity, ?_, ?_⟩
    · refine hd1.congr_of_eventuallyEq (Eventually.of_forall fun w => ?_)
      simp [Un.gr, Un.g]
    · rw [← hd, abs_of_pos (by positivity)]
      have : Real.exp (-z) / (1 + Real.exp (-z)) ^ 2 = ((1 + Real.exp (-z)) * (1 + Real.exp z))⁻¹ := by
        rw [Real.exp_neg]; field_simp; ring
      rw [this, Real.log_inv, Real.log_mul (by positivity) (by positivity)]
      ring
    · exact Eventually.of_forall fun w => by simp [Un.g]
  | softplus =>
    simp only [Un.dlog, Option.map_eq_some_iff] at hd
    obtain ⟨a, ha, rfl⟩ := hd
    obtain ⟨hz, rfl⟩ := npLog_some ha
    have hev : ∀ᶠ w in 𝓝 z, 0 < 1 + -Real.exp (-w) := by
      have hc : Continuous (fun w : ℝ => 1 + -Real.exp (-w)) := by fun_prop
      exact hc.continuousAt.eventually (lt_mem_nhds hz)
    have hgr : ∀ w, 0 < 1 + -Real.exp (-w) → Un.softplus.g w = some (Real.log (-(Real.exp (-w) - 1)) + w) := by
      intro w hw
      simp only [Un.g, npLog]
      rw [if_pos (by linarith)]; rfl
    refine ⟨(1 + -Real.exp (-z))⁻¹, ?_, by positivity, ?_, ?_⟩
    · have h1 : HasDerivAt (fun w : ℝ => -(Real.exp (-w) - 1)) (-(Real.exp (-z) * (-1))) z :=
        (((hasDerivAt_neg z).exp).sub_const 1).neg
      have h2 := (h1.log (by linarith [hz] : -(Real.exp (-z) - 1) ≠ 0)).add (hasDerivAt_id z)
      have h3 : HasDerivAt (fun w : ℝ => Real.log (-(Real.exp (-w) - 1)) + w) (1 + -Real.exp (-z))⁻¹ z := by
        refine h2.congr_deriv ?_
        have h4 : -(Real.exp (-z) - 1) = 1 + -Real.exp (-z) := by ring
        rw [h4]
        have := hz.ne'
        field_simp
        ring
      refine h3.congr_of_eventuallyEq ?_
      filter_upwards [hev] with w hw
      simp [Un.gr, hgr w hw]
    · rw [abs_of_pos (by positivity), Real.log_inv]
    · filter_upwards [hev] with w hw
      simp [hgr w hw]
  | reshape => exact absurd rfl hp.1
  | convert => exact absurd rfl hp.2
  | exp => exact generic hd
  | log => exact generic hd
  | sin => exact generic hd
  | cos => exact generic hd
  | expm1 => exact generic hd
  | log1p => exact generic hd
  | neg => exact generic hd
  | sqrt => exact generic hd
  | ipow n => exact generic hd

theorem pull_ildj (ps : List Un) (hps : ∀ p ∈ ps, p ≠ .reshape ∧ p ≠ .convert) (y x l : ℝ)
    (h : pull ps (some y) = (some x, some l)) :
    ∃ d, HasDerivAt (fun w => ((pull ps (some w)).1).getD 0) d y ∧ d ≠ 0 ∧ l = Real.log |d| ∧
      ∀ᶠ w in 𝓝 y, (pull ps (some w)).1 ≠ none := by
  induction ps generalizing x l with
  | nil =>
    simp only [pull, List.foldr_nil, Prod.mk.injEq, Option.some.injEq] at h
    refine ⟨1, ?_, by norm_num, by simp [← h.2], by simp [pull]⟩
    exact (hasDerivAt_id y).congr_of_eventuallyEq (Eventually.of_forall fun w => by simp [pull])
  | cons p ps ih =>
    have h1 : (pull ps (some y)).1.bind p.g = some x := congrArg Prod.fst h
    have h2 : p.ld (pull ps (some y)).2 (pull ps (some y)).1 = some l := congrArg Prod.snd h
    obtain ⟨z, hz, hx⟩ := Option.bind_eq_some_iff.1 h1
    have hp := hps p (by simp)
    have h3 : addF (pull ps (some y)).2 (p.dlog z) = some l := by
      rw [hz] at h2
      cases p <;> first | exact h2 | exact absurd rfl hp.1 | exact absurd rfl hp.2
    simp only [addF, Option.bind_eq_bind, Option.bind_eq_some_iff, Option.pure_def, Option.some.injEq] at h3
    obtain ⟨m, hm, d, hd, rfl⟩ := h3
    obtain ⟨d1, hd1, hd1', hlog1, hev1⟩ := ih (fun q hq => hps q (by simp [hq])) z m (by rw [← hz, ← hm])
    obtain ⟨d2, hd2, hd2', hlog2, hev2⟩ := p.dlog_spec hp z x d hx hd
    have hG : ((pull ps (some y)).1).getD 0 = z := by rw [hz]; rfl
    have hd2c : HasDerivAt p.gr d2 (((pull ps (some y)).1).getD 0) := by rw [hG]; exact hd2
    have hcomp := hd2c.comp y hd1
    have hcont : ContinuousAt (fun w => ((pull ps (some w)).1).getD 0) y := hd1.continuousAt
    have hev3 : ∀ᶠ w in 𝓝 y, p.g (((pull ps (some w)).1).getD 0) ≠ none := by
      refine hcont.eventually (p := fun v => p.g v ≠ none) ?_
      show ∀ᶠ v in 𝓝 (((pull ps (some y)).1).getD 0), p.g v ≠ none
      rw [hG]; exact hev2
    have hbind : ∀ w, (pull (p :: ps) (some w)).1 = (pull ps (some w)).1.bind p.g := fun w => rfl
    refine ⟨d2 * d1, ?_, mul_ne_zero hd2' hd1', ?_, ?_⟩
    · refine hcomp.congr_of_eventuallyEq ?_
      filter_upwards [hev1] with w hw
      rw [hbind]
      rcases hw' : (pull ps (some w)).1 with _ | v
      · exact absurd hw' hw
      · simp [Un.gr, hw']
    · rw [abs_mul, Real.log_mul (abs_ne_zero.2 hd2') (abs_ne_zero.2 hd1'), hlog1, hlog2]; ring
    · filter_upwards [hev1, hev3] with w hw hw3
      rw [hbind]
      rcases hw' : (pull ps (some w)).1 with _ | v
      · exact absurd hw' hw
      · rw [hw'] at hw3; exact hw3

/-- C27 for chains of elementwise primitives, partial (`reshape` and `convert_element_type` excluded, see
`reshape_resets_ildj`; programs with one input).  `G` is the function that `inverse` computes: if
`inverse_and_ildj` returns `x` and a number `l` at `y`, then `G` is differentiable at `y` and
`l = log |G'(y)|`. -/
theorem chain_ildj_partial (ps : List Un) (hps : ∀ p ∈ ps, p ≠ .reshape ∧ p ≠ .convert) (G : ℝ → ℝ)
    (hG : ∀ w v l, InverseRun (chainProg ps) [some w] (some [(some v, l)]) → G w = v) (y x l : ℝ)
    (h : InverseRun (chainProg ps) [some y] (some [(some x, some l)])) :
    ∃ d, HasDerivAt G d y ∧ l = Real.log |d| := by
  rw [chain_run] at h
  simp only [Option.some.injEq, List.cons.injEq, and_true] at h
  obtain ⟨d, hd, -, hl, hev⟩ := pull_ildj ps hps y x l h.symm
  refine ⟨d, hd.congr_of_eventuallyEq ?_, hl⟩
  filter_upwards [hev] with w hw
  rcases hw' : (pull ps (some w)).1 with _ | v
  · exact absurd hw' hw
  · have := hG w v (pull ps (some w)).2 (by rw [chain_run, ← hw'])
    simpa [hw'] using this

/-- C27 for chains, partial: in terms of the forward function `f`.  Without `sqrt` (whose inverse is not a right
inverse), if `f` is differentiable at the returned `x` then `l = - log |f'(x)|`. -/
theorem chain_ildj_forward_partial (ps : List Un) (hps : ∀ p ∈ ps, p ≠ .reshape ∧ p ≠ .convert ∧ p ≠ .sqrt)
    (f : ℝ → ℝ) (hf : ∀ w v, evalChain ps w = some v → f w = v) (y x l f' : ℝ)
    (h : InverseRun (chainProg ps) [some y] (some [(some x, some l)])) (hf' : HasDerivAt f f' x) :
    l = - Real.log |f'| := by
  rw [chain_run] at h
  simp only [Option.some.injEq, List.cons.injEq, and_true] at h
  obtain ⟨d, hd, hd0, hl, hev⟩ := pull_ildj ps (fun p hp => ⟨(hps p hp).1, (hps p hp).2.1⟩) y x l h.symm
  have hGy : ((pull ps (some y)).1).getD 0 = x := by rw [← h]; rfl
  have hf2 : HasDerivAt f f' (((pull ps (some y)).1).getD 0) := by rw [hGy]; exact hf'
  have hcomp := hf2.comp y hd
  have hid : HasDerivAt (fun w : ℝ => w) (f' * d) y := by
    refine hcomp.congr_of_eventuallyEq ?_
    filter_upwards [hev] with w hw
    rcases hw' : (pull ps (some w)).1 with _ | v
    · exact absurd hw' hw
    · have := hf v w (pull_eval ps (fun p hp => (hps p hp).2.2) w v hw')
      simp [hw', this]
  have h1 : f' * d = 1 := hid.unique (hasDerivAt_id y)
  have hf0 : f' ≠ 0 := by rintro rfl; simp at h1
  have : |d| = |f'|⁻¹ := by
    have h2 : |f'| * |d| = 1 := by rw [← abs_mul, h1, abs_one]
    field_simp
    linarith
  rw [hl, this, Real.log_inv]

/-- An instance of `chain_ildj_partial`: `f x = -exp x` at `y = -2` gives `x = log 2`, `l = log (1/2)`. -/
example : InverseRun (chainProg [.exp, .neg]) [some (-2)] (some [(some (Real.log 2), some (Real.log (1/2)))]) := by
  rw [chain_run]
  have hneg : Un.neg.gr = fun w => -w := by funext w; simp [Un.gr, Un.g]
  have hexp : HasDerivAt Un.exp.gr (1 / 2) 2 := by
    have h1 : HasDerivAt Real.log (1 / 2) 2 := by simpa using Real.hasDerivAt_log (by norm_num : (2:ℝ) ≠ 0)
    refine h1.congr_of_eventuallyEq ?_
    filter_upwards [lt_mem_nhds (show (0:ℝ) < 2 by norm_num)] with w hw
    simp [Un.gr, Un.g, npLog, hw]
  have hd1 : Un.neg.dlog (-2) = some 0 := by
    simp only [Un.dlog]
    have : HasDerivAt Un.neg.gr (-1) (-2) := by rw [hneg]; exact hasDerivAt_neg (-2)
    rw [if_pos ⟨this.differentiableAt, by rw [this.deriv]; norm_num⟩, this.deriv]
    simp
  have hd2 : Un.exp.dlog 2 = some (Real.log (1/2)) := by
    simp only [Un.dlog]
    rw [if_pos ⟨hexp.differentiableAt, by rw [hexp.deriv]; norm_num⟩, hexp.deriv, abs_of_pos (by norm_num)]
  simp [pull, Un.g, Un.ld, npLog, addF, hd1, hd2]

/-- C27 (negation).  `reshape` (and `convert_element_type`) after which the value is transformed further lose
the ILDJ: for `f x = exp (reshape x)` the inverse at 2 is `log 2` with derivative 1/2, but the ILDJ is 0. -/
theorem reshape_resets_ildj (res : Option (List (F × F)))
    (h : InverseRun (chainProg [.reshape, .exp]) [some 2] res) :
    res = some [(some (Real.log 2), some 0)] ∧ HasDerivAt Real.log (1 / 2) 2 ∧ Real.log |1 / 2| ≠ 0 := by
  rw [chain_run] at h
  refine ⟨?_, ?_, ?_⟩
  · rw [h]; simp [pull, Un.g, Un.ld, npLog]
  · simpa using Real.hasDerivAt_log (by norm_num : (2:ℝ) ≠ 0)
  · rw [abs_of_pos (by norm_num)]
    exact Real.log_ne_zero_of_pos_of_ne_one (by norm_num) (by norm_num)

/-- The same for `convert_element_type`. -/
theorem convert_resets_ildj (res : Option (List (F × F)))
    (h : InverseRun (chainProg [.convert, .exp]) [some 2] res) : res = some [(some (Real.log 2), some 0)] := by
  rw [chain_run] at h
  rw [h]; simp [pull, Un.g, Un.ld, npLog]

/-! ### Binary primitives -/

/-- C27 for binary primitives with a known left operand, partial: where the registered increment is a number and
the inverse is defined, it is the log of the absolute derivative of the right operand with respect to the output.
The converse fails: `div_left_ildj_nan`, `pow_left_ildj_nan`. -/
theorem bin_left_ildj_partial (p : Bin) (l z x d : ℝ) (hg : p.gl l z = some x) (h : p.ll l z = some d) :
    ∃ d', HasDerivAt (fun w => (p.gl l w).getD 0) d' z ∧ d = Real.log |d'| := by
  cases p with
  | add =>
    simp only [Bin.ll, Option.some.injEq] at h; subst h
    exact ⟨1, by simpa [Bin.gl] using (hasDerivAt_id z).sub_const l, by simp⟩
  | sub =>
    simp only [Bin.ll, Option.some.injEq] at h; subst h
    exact ⟨-1, by simpa [Bin.gl] using (hasDerivAt_id z).const_sub l, by simp⟩
  | mul =>
    simp only [Bin.ll, Option.map_eq_some_iff] at h
    obtain ⟨a, ha, rfl⟩ := h
    obtain ⟨hl, rfl⟩ := npLog_some ha
    have hl0 : l ≠ 0 := abs_pos.1 hl
    refine ⟨1 / l, ?_, ?_⟩
    · simpa [Bin.gl, hl0] using (hasDerivAt_id z).div_const l
    · rw [abs_div, abs_one, one_div, Real.log_inv]
  | div =>
    simp only [Bin.ll, Option.bind_eq_bind, Option.bind_eq_some_iff, Option.pure_def, Option.some.injEq] at h
    obtain ⟨a, ha, b, hb, rfl⟩ := h
    obtain ⟨hl, rfl⟩ := npLog_some ha
    obtain ⟨hz, rfl⟩ := npLog_some hb
    refine ⟨-(l / z ^ 2), ?_, ?_⟩
    · have h1 : HasDerivAt (fun w : ℝ => l * w⁻¹) (l * -(z ^ 2)⁻¹) z := (hasDerivAt_inv hz.ne').const_mul l
      have h2 : HasDerivAt (fun w : ℝ => l / w) (-(l / z ^ 2)) z := by
        simp only [div_eq_mul_inv]
        exact h1.congr_deriv (by ring)
      refine h2.congr_of_eventuallyEq ?_
      filter_upwards [lt_mem_nhds hz] with w hw
      simp [Bin.gl, hw.ne']
    · rw [abs_neg, abs_of_pos (by positivity), Real.log_div hl.ne' (by positivity), Real.log_pow]
      norm_num
  | pow =>
    simp only [Bin.ll, Option.bind_eq_bind, Option.bind_eq_some_iff, Option.pure_def, Option.some.injEq] at h
    obtain ⟨a, ha, b, hb, c, hc, rfl⟩ := h
    obtain ⟨hz, rfl⟩ := npLog_some ha
    obtain ⟨hl, rfl⟩ := npLog_some hb
    obtain ⟨hll, rfl⟩ := npLog_some hc
    refine ⟨z⁻¹ / Real.log l, ?_, ?_⟩
    · have h1 := (Real.hasDerivAt_log hz.ne').div_const (Real.log l)
      refine h1.congr_of_eventuallyEq ?_
      filter_upwards [lt_mem_nhds hz] with w hw
      simp [Bin.gl, npLog, hl, hw, hll.ne']
    · rw [abs_of_pos (by positivity), Real.log_div (by positivity) hll.ne', Real.log_inv]

/-- C27 for binary primitives with a known right operand, partial, in the same way.  The converse fails:
`pow_right_ildj_nan`. -/
theorem bin_right_ildj_partial (p : Bin) (r z x d : ℝ) (hg : p.gr r z = some x) (h : p.lr r z = some d) :
    ∃ d', HasDerivAt (fun w => (p.gr r w).getD 0) d' z ∧ d = Real.log |d'| := by
  cases p with
  | add =>
    simp only [Bin.lr, Option.some.injEq] at h; subst h
    exact ⟨1, by simpa [Bin.gr] using (hasDerivAt_id z).sub_const r, by simp⟩
  | sub =>
    simp only [Bin.lr, Option.some.injEq] at h; subst h
    exact ⟨1, by simpa [Bin.gr] using (hasDerivAt_id z).add_const r, by simp⟩
  | mul =>
    simp only [Bin.lr, Option.map_eq_some_iff] at h
    obtain ⟨a, ha, rfl⟩ := h
    obtain ⟨hl, rfl⟩ := npLog_some ha
    have hl0 : r ≠ 0 := abs_pos.1 hl
    refine ⟨1 / r, ?_, ?_⟩
    · simpa [Bin.gr, hl0] using (hasDerivAt_id z).div_const r
    · rw [abs_div, abs_one, one_div, Real.log_inv]
  | div =>
    obtain ⟨hr, rfl⟩ := npLog_some h
    exact ⟨r, by simpa [Bin.gr] using (hasDerivAt_id z).mul_const r, rfl⟩
  | pow =>
    simp only [Bin.lr] at h
    split at h
    · simp at h
    · rename_i hr0
      simp only [Option.bind_eq_bind, Option.bind_eq_some_iff, Option.pure_def, Option.some.injEq] at h
      obtain ⟨a, ha, b, hb, rfl⟩ := h
      obtain ⟨hz, rfl⟩ := npLog_some ha
      obtain ⟨hr, rfl⟩ := npLog_some hb
      refine ⟨r⁻¹ * z ^ (r⁻¹ - 1), ?_, ?_⟩
      · have h1 : HasDerivAt (fun w : ℝ => w ^ r⁻¹) (r⁻¹ * z ^ (r⁻¹ - 1)) z :=
          Real.hasDerivAt_rpow_const (.inl hz.ne')
        refine h1.congr_of_eventuallyEq ?_
        filter_upwards [lt_mem_nhds hz] with w hw
        simp [Bin.gr, hr0, npPow, hw]
      · have := Real.rpow_pos_of_pos hz (r⁻¹ - 1)
        rw [abs_of_pos (by positivity), Real.log_mul (by positivity) (by positivity), Real.log_rpow hz, Real.log_inv]
        ring

/-- C27 (negation).  `(-1) / r = 1/2`: the inverse `r = -2` exists and has derivative 4 there, but the ILDJ is nan
because `np.log(left)` is taken without absolute value. -/
theorem div_left_ildj_nan : Bin.div.gl (-1) (1 / 2) = some (-2) ∧ Bin.div.ll (-1) (1 / 2) = none ∧
    HasDerivAt (fun w => (Bin.div.gl (-1) w).getD 0) 4 (1 / 2) := by
  refine ⟨by simp [Bin.gl], by simp [Bin.ll, npLog], ?_⟩
  have h1 : HasDerivAt (fun w : ℝ => (-1) * w⁻¹) ((-1) * -((1 / 2 : ℝ) ^ 2)⁻¹) (1 / 2) :=
    (hasDerivAt_inv (by norm_num)).const_mul (-1)
  refine (h1.congr_deriv (by norm_num)).congr_of_eventuallyEq ?_
  filter_upwards [lt_mem_nhds (show (0:ℝ) < 1 / 2 by norm_num)] with w hw
  simp [Bin.gl, hw.ne', div_eq_mul_inv]

/-- C27 (negation).  `(1/2) ** r = 1/4`: the inverse `r = 2` exists but the ILDJ is nan, because
`np.log(np.log(x))` is taken without absolute value. -/
theorem pow_left_ildj_nan : Bin.pow.gl (1 / 2) (1 / 4) = some 2 ∧ Bin.pow.ll (1 / 2) (1 / 4) = none := by
  have h2 : Real.log 2 ≠ 0 := Real.log_ne_zero_of_pos_of_ne_one (by norm_num) (by norm_num)
  have h4 : Real.log 4 = 2 * Real.log 2 := by
    rw [show (4 : ℝ) = 2 ^ 2 by norm_num, Real.log_pow]; norm_num
  have hp : 0 < Real.log 2 := Real.log_pos (by norm_num)
  constructor
  · simp [Bin.gl, npLog, Real.log_inv, h2, h4]
  · simp [Bin.ll, npLog, Real.log_inv, not_lt.2 hp.le]

/-- C27 (negation).  `x ** (-1) = 1/2` (with a float exponent): the inverse `x = 2` exists but the ILDJ is nan,
because `np.log(y)` is taken of a negative exponent. -/
theorem pow_right_ildj_nan : Bin.pow.gr (-1) (1 / 2) = some 2 ∧ Bin.pow.lr (-1) (1 / 2) = none := by
  constructor
  · simp only [Bin.gr, npPow]
    rw [if_neg (by norm_num), if_pos (by norm_num)]
    rw [show ((-1 : ℝ)⁻¹) = -1 by norm_num, Real.rpow_neg_one]; norm_num
  · simp [Bin.lr, npLog]

/-! ### Several inputs -/

theorem reduceIldj_sum (l : List (F × ℝ)) : reduceIldj (l.map (fun p => (p.1, some p.2))) = some (l.map (·.2)).sum := by
  have key : ∀ (l : List (F × ℝ)) (a : ℝ), (l.map (fun p => ((p.1, some p.2) : F × F))).foldl (fun a p => addF a p.2) (some a) =
      some (a + (l.map (·.2)).sum) := by
    intro l
    induction l with
    | nil => intro a; simp
    | cons p l ih =>
      intro a
      simp only [List.map_cons, List.foldl_cons, addF, Option.bind_eq_bind, Option.bind_some, Option.pure_def, List.sum_cons] at ih ⊢
      rw [ih]; congr 1; ring
  simpa [reduceIldj] using key l 0

/-- C27 for several inputs, partial: if input `i` has the ILDJ `log |d i|` and the Jacobian of the inverse is
triangular (input `i` is computed from output `i` and inputs found before) with diagonal `d`, none of it zero,
then the reduced ILDJ is the log of the absolute determinant.  That the Jacobian is triangular is assumed. -/
theorem reduce_ildj_triangular_partial (n : Nat) (M : Matrix (Fin n) (Fin n) ℝ) (hM : ∀ i j, i < j → M i j = 0)
    (hd : ∀ i, M i i ≠ 0) (xs : Fin n → F) :
    reduceIldj (List.ofFn (fun i => (xs i, some (Real.log |M i i|)))) = some (Real.log |M.det|) := by
  have h1 : List.ofFn (fun i => ((xs i, some (Real.log |M i i|)) : F × F)) =
      (List.ofFn (fun i => (xs i, Real.log |M i i|))).map (fun p => (p.1, some p.2)) := by
    rw [List.map_ofFn]; rfl
  rw [h1, reduceIldj_sum, Matrix.det_of_isLowerTriangular M (fun i j hij => hM i j hij), List.map_ofFn, List.sum_ofFn, Finset.abs_prod,
    Real.log_prod (fun i _ => abs_ne_zero.2 (hd i))]
  rfl

end Verif.Inverse
