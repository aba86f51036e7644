import Verif.Mcmc.Kernels
import Verif.Mcmc.Spec

namespace Verif.Mcmc

open MeasureTheory ProbabilityTheory Spec
open scoped ENNReal

instance : IsProbabilityMeasure uniform := ⟨by simp [uniform]⟩

instance (ι : Type*) [Fintype ι] : IsProbabilityMeasure (stdNormal ι) := by
  unfold stdNormal; infer_instance

theorem npLog_lt {u : ℝ} {d : EReal} : npLog u < d ↔ ENNReal.ofReal u < d.exp := by
  conv_lhs => rw [← EReal.log_exp d]
  exact ENNReal.log_lt_log_iff

theorem measurable_npLog : Measurable npLog :=
  ENNReal.measurable_log.comp ENNReal.measurable_ofReal

theorem uniform_accept (d : EReal) : uniform {u | npLog u < d} = min 1 d.exp := by
  have hset : {u | npLog u < d} = {u : ℝ | ENNReal.ofReal u < d.exp} := by
    ext u; exact npLog_lt
  rw [hset]
  have hm : MeasurableSet {u : ℝ | ENNReal.ofReal u < d.exp} :=
    measurableSet_lt ENNReal.measurable_ofReal measurable_const
  rw [uniform, Measure.restrict_apply hm]
  rcases eq_or_ne d.exp ⊤ with h | h
  · have : {u : ℝ | ENNReal.ofReal u < d.exp} ∩ Set.Ico 0 1 = Set.Ico 0 1 := by
      rw [h]; ext u; simp
    rw [this, h]; simp
  · obtain ⟨c, hc⟩ : ∃ c : NNReal, (c : ℝ≥0∞) = d.exp := ⟨d.exp.toNNReal, ENNReal.coe_toNNReal h⟩
    have : {u : ℝ | ENNReal.ofReal u < d.exp} ∩ Set.Ico 0 1 = Set.Ico 0 (min 1 (c : ℝ)) := by
      rw [← hc]
      ext u
      simp only [Set.mem_inter_iff, Set.mem_ofPred_eq, Set.mem_Ico, lt_min_iff]
      constructor
      · rintro ⟨h1, h2, h3⟩
        refine ⟨h2, h3, ?_⟩
        rw [← ENNReal.ofReal_coe_nnreal] at h1
        exact (ENNReal.ofReal_lt_ofReal_iff_of_nonneg h2).1 h1
      · rintro ⟨h2, h3, h1⟩
        refine ⟨?_, h2, h3⟩
        rw [← ENNReal.ofReal_coe_nnreal]
        exact (ENNReal.ofReal_lt_ofReal_iff_of_nonneg h2).2 h1
    rw [this, Real.volume_Ico, ← hc, sub_zero]
    have h1 : (1 : ℝ≥0∞) = ((1 : NNReal) : ℝ≥0∞) := rfl
    rw [h1, ← ENNReal.coe_min, ← ENNReal.ofReal_coe_nnreal]
    simp

variable {Ω S : Type*}

theorem uniform_acceptReject (d : EReal) (n s : S) (B : Set S) :
    uniform {u | acceptReject d u n s ∈ B}
      = min 1 d.exp * B.indicator 1 n + (1 - min 1 d.exp) * B.indicator 1 s := by
  classical
  have hm : MeasurableSet {u | npLog u < d} := measurableSet_lt measurable_npLog measurable_const
  have hc : uniform {u | npLog u < d}ᶜ = 1 - min 1 d.exp := by
    rw [prob_compl_eq_one_sub hm, uniform_accept]
  by_cases hn : n ∈ B <;> by_cases hs : s ∈ B
  · have : {u | acceptReject d u n s ∈ B} = Set.univ := by
      ext u; simp only [acceptReject, Set.mem_ofPred_eq]; split_ifs <;> simp [hn, hs]
    rw [this]
    simp only [Set.indicator_of_mem hn, Set.indicator_of_mem hs, Pi.one_apply, mul_one,
      measure_univ]
    exact (add_tsub_cancel_of_le (min_le_left _ _)).symm
  · have : {u | acceptReject d u n s ∈ B} = {u | npLog u < d} := by
      ext u; simp only [acceptReject, Set.mem_ofPred_eq]; split_ifs with h <;> simp [hn, hs, h]
    rw [this, uniform_accept]
    simp [Set.indicator_of_mem hn, Set.indicator_of_notMem hs]
  · have : {u | acceptReject d u n s ∈ B} = {u | npLog u < d}ᶜ := by
      ext u; simp only [acceptReject, Set.mem_ofPred_eq, Set.mem_compl_iff]
      split_ifs with h <;> simp [hn, hs, h]
    rw [this, hc]
    simp [Set.indicator_of_mem hs, Set.indicator_of_notMem hn]
  · have : {u | acceptReject d u n s ∈ B} = ∅ := by
      ext u; simp only [acceptReject, Set.mem_ofPred_eq]; split_ifs <;> simp [hn, hs]
    rw [this]
    simp [Set.indicator_of_notMem hs, Set.indicator_of_notMem hn]

variable [MeasurableSpace Ω] [MeasurableSpace S]

/-- The common core of all detailed-balance proofs. -/
theorem flow_symm {Z : Type*} [MeasurableSpace Z] (ρ : Measure Z) (x y : Z → S) (w : Z → ℝ≥0∞)
    (Δ : Z → EReal) (hx : Measurable x) (hy : Measurable y) (hw : Measurable w)
    (hΔ : Measurable Δ)
    (h : ∀ f : S × S → ℝ≥0∞, Measurable f →
      ∫⁻ z, w z * min 1 (Δ z).exp * f (x z, y z) ∂ρ = ∫⁻ z, w z * min 1 (Δ z).exp * f (y z, x z) ∂ρ)
    (A B : Set S) (hA : MeasurableSet A) (hB : MeasurableSet B) :
    ∫⁻ z, A.indicator 1 (x z) * (w z * uniform {u | acceptReject (Δ z) u (y z) (x z) ∈ B}) ∂ρ
      = ∫⁻ z, B.indicator 1 (x z) * (w z * uniform {u | acceptReject (Δ z) u (y z) (x z) ∈ A}) ∂ρ := by
  have hexp : Measurable fun z => min 1 (Δ z).exp :=
    measurable_const.min (EReal.measurable_exp.comp hΔ)
  have key : ∀ C D : Set S, MeasurableSet C → MeasurableSet D →
      ∫⁻ z, C.indicator 1 (x z) * (w z * uniform {u | acceptReject (Δ z) u (y z) (x z) ∈ D}) ∂ρ
      = ∫⁻ z, w z * min 1 (Δ z).exp *
            (fun p : S × S => C.indicator 1 p.1 * D.indicator 1 p.2) (x z, y z) ∂ρ
        + ∫⁻ z, w z * (1 - min 1 (Δ z).exp) * (C.indicator 1 (x z) * D.indicator 1 (x z)) ∂ρ := by
    intro C D hC hD
    rw [← lintegral_add_left]
    · refine lintegral_congr fun z => ?_
      rw [uniform_acceptReject]
      ring
    · have h1 : Measurable (C.indicator (1 : S → ℝ≥0∞)) := measurable_one.indicator hC
      have h2 : Measurable (D.indicator (1 : S → ℝ≥0∞)) := measurable_one.indicator hD
      exact (hw.mul hexp).mul ((h1.comp hx).mul (h2.comp hy))
  rw [key A B hA hB, key B A hB hA]
  have h1 : Measurable (A.indicator (1 : S → ℝ≥0∞)) := measurable_one.indicator hA
  have h2 : Measurable (B.indicator (1 : S → ℝ≥0∞)) := measurable_one.indicator hB
  rw [h (fun p : S × S => A.indicator 1 p.1 * B.indicator 1 p.2)
    ((h1.comp measurable_fst).mul (h2.comp measurable_snd))]
  congr 1
  · refine lintegral_congr fun z => ?_
    dsimp only
    rw [mul_comm (A.indicator 1 (y z))]
  · refine lintegral_congr fun z => ?_
    rw [mul_comm (A.indicator 1 (x z))]

/-- Detailed balance gives stationarity. -/
theorem stationary_of_detailedBalance {P : Measure Ω} [IsProbabilityMeasure P]
    {step : Ω → S → S} {π : Measure S} (h : DetailedBalance P step π) : Stationary P step π := by
  intro B hB
  have := h Set.univ B MeasurableSet.univ hB
  simpa using this

/-- `p · min(1, exp(log q − log p)) = min(p, q)` for `p < ∞`. -/
theorem mul_accept {a b : EReal} (ha : a ≠ ⊤) :
    a.exp * min 1 (b - a).exp = min a.exp b.exp := by
  rcases eq_or_ne a ⊥ with rfl | ha'
  · simp
  have h0 : a.exp ≠ 0 := by simpa using ha'
  have ht : a.exp ≠ ⊤ := by simpa using ha
  rw [sub_eq_add_neg, EReal.exp_add, EReal.exp_neg, mul_min, mul_one, mul_comm b.exp,
    ← mul_assoc, ENNReal.mul_inv_cancel h0 ht, one_mul]

end Verif.Mcmc
