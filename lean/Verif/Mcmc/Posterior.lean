import Mathlib.Probability.Kernel.CondDistrib
import Mathlib.Probability.Kernel.WithDensity
import Mathlib.Probability.Kernel.Composition.MeasureCompProd
import Mathlib.MeasureTheory.Constructions.Pi
import Mathlib.Analysis.SpecialFunctions.Log.ENNRealLogExp
import Verif.LogProb.JointLawProps
import Verif.Mcmc.KeyedProps

/-
C87.  Model of a target for the kernels of oryx/experimental/mcmc/kernels.py that is made of a probabilistic program:
`lambda latents: joint_log_prob(f)({**observations, **latents}, *args)`.
-/
namespace Verif.Mcmc.Bayes

open Verif.LogProb.Joint Verif.Plate Verif.Inverse MeasureTheory ProbabilityTheory
open scoped ENNReal

/-- `{**observations, **latents}` (the dictionary argument of `joint_log_prob`, transformations.py:405-407), as the values of the
random variables in the order of the program: `e` says for every random variable which observation or which component of
the state of the chain it is.  Simplification: every random variable is one number. -/
def merge {ι O L : Type} (e : O ⊕ L ≃ ι) (x : O → ℝ) (z : L → ℝ) : ι → ℝ := fun i => Sum.elim x z (e.symm i)

/-- A log density as the kernels see it (kernels.py:76-85): `-inf` outside of the support.  Simplification: nan counts as
`-inf` (cf. `dens`). -/
noncomputable def toE : F → EReal
  | none => ⊥
  | some r => r

/-- The target of the chain for the observations `x`: `lambda latents: joint_log_prob(f)({**observations, **latents})`, with
`lp` what `joint_log_prob` returns as a function of the values (transformations.py:405-407). -/
noncomputable def posteriorLogProb {ι O L : Type} (e : O ⊕ L ≃ ι) (lp : (ι → ℝ) → F) (x : O → ℝ) (z : L → ℝ) : EReal :=
  toE (lp (merge e x z))

/-! ### Conditioning a density -/

section Condition

variable {ι O L : Type} [Fintype ι] [Fintype O] [Fintype L] (e : O ⊕ L ≃ ι)

/-- The observed and the latent values. -/
def parts (y : ι → ℝ) : (O → ℝ) × (L → ℝ) := (fun o => y (e (.inl o)), fun l => y (e (.inr l)))

omit [Fintype ι] [Fintype O] [Fintype L] in
theorem merge_parts (y : ι → ℝ) : merge e (parts e y).1 (parts e y).2 = y := by
  funext i
  obtain ⟨s, rfl⟩ := e.surjective i
  cases s <;> simp [merge, parts]

omit [Fintype ι] [Fintype O] [Fintype L] in
theorem parts_merge (x : O → ℝ) (z : L → ℝ) : parts e (merge e x z) = (x, z) := by
  simp [merge, parts]

omit [Fintype ι] [Fintype O] [Fintype L] in
theorem measurable_parts : Measurable (parts e) := by
  unfold parts
  fun_prop

omit [Fintype ι] [Fintype O] [Fintype L] in
theorem measurable_merge : Measurable fun w : (O → ℝ) × (L → ℝ) => merge e w.1 w.2 := by
  refine measurable_pi_lambda _ fun i => ?_
  unfold merge
  rcases e.symm i with o | l
  · exact (measurable_pi_apply o).comp measurable_fst
  · exact (measurable_pi_apply l).comp measurable_snd

theorem parts_preserving : MeasurePreserving (parts e) (volume : Measure (ι → ℝ)) volume := by
  have h1 := volume_measurePreserving_piCongrLeft (fun _ : ι => ℝ) e
  have h2 := volume_measurePreserving_sumPiEquivProdPi (fun _ : O ⊕ L => ℝ)
  have := h2.comp h1.symm
  exact this

theorem map_parts (D : (ι → ℝ) → ℝ≥0∞) (hD : Measurable D) :
    ((volume : Measure (ι → ℝ)).withDensity D).map (parts e)
      = ((volume : Measure (O → ℝ)).prod (volume : Measure (L → ℝ))).withDensity fun w => D (merge e w.1 w.2) := by
  have hG : Measurable fun w : (O → ℝ) × (L → ℝ) => D (merge e w.1 w.2) := hD.comp (measurable_merge e)
  refine Measure.ext fun s hs => ?_
  rw [Measure.map_apply (measurable_parts e) hs, withDensity_apply _ (measurable_parts e hs), withDensity_apply _ hs,
    ← Measure.volume_eq_prod, ← (parts_preserving e).map_eq, setLIntegral_map hs hG (measurable_parts e)]
  refine lintegral_congr fun y => ?_
  rw [merge_parts]

/-- The distribution of the observations has this density. -/
noncomputable def evidence (D : (ι → ℝ) → ℝ≥0∞) (x : O → ℝ) : ℝ≥0∞ := ∫⁻ z : L → ℝ, D (merge e x z)

omit [Fintype ι] [Fintype O] in
theorem measurable_evidence (D : (ι → ℝ) → ℝ≥0∞) (hD : Measurable D) : Measurable (evidence e D) :=
  (hD.comp (measurable_merge e)).lintegral_prod_right'

theorem exists_posterior (D : (ι → ℝ) → ℝ≥0∞) (hD : Measurable D)
    [hP : IsProbabilityMeasure ((volume : Measure (ι → ℝ)).withDensity D)] :
    ∃ post : Kernel (O → ℝ) (L → ℝ), IsMarkovKernel post ∧
      ((volume : Measure (ι → ℝ)).withDensity D).map (parts e)
        = (((volume : Measure (ι → ℝ)).withDensity D).map fun y o => y (e (.inl o))) ⊗ₘ post ∧
      ∀ᵐ x ∂((volume : Measure (ι → ℝ)).withDensity D).map fun y o => y (e (.inl o)),
        ∃ c : ℝ≥0∞, post x = c • (volume : Measure (L → ℝ)).withDensity fun z => D (merge e x z) := by
  have hG : Measurable fun w : (O → ℝ) × (L → ℝ) => D (merge e w.1 w.2) := hD.comp (measurable_merge e)
  have hev := measurable_evidence e D hD
  set ev := evidence e D with hevdef
  -- the distribution of the observations
  have hobs : ((volume : Measure (ι → ℝ)).withDensity D).map (fun y o => y (e (.inl o)))
      = (volume : Measure (O → ℝ)).withDensity ev := by
    have h1 : (fun (y : ι → ℝ) (o : O) => y (e (.inl o))) = Prod.fst ∘ parts e := rfl
    rw [h1, ← Measure.map_map measurable_fst (measurable_parts e), map_parts e D hD]
    refine Measure.ext fun A hA => ?_
    rw [Measure.map_apply measurable_fst hA, withDensity_apply _ (measurable_fst hA), withDensity_apply _ hA,
      ← lintegral_indicator (measurable_fst hA), lintegral_prod _ ((hG.indicator (measurable_fst hA)).aemeasurable),
      ← lintegral_indicator hA]
    refine lintegral_congr fun x => ?_
    by_cases hx : x ∈ A <;> simp [Set.indicator, hx, hevdef, evidence]
  rw [hobs]
  -- almost surely the evidence is finite and not zero
  have hfin : ∀ᵐ x : O → ℝ, ev x ≠ ∞ := by
    have : ∫⁻ x, ev x = 1 := by
      have := measure_univ (μ := (volume : Measure (ι → ℝ)).withDensity D)
      have h2 : ((volume : Measure (O → ℝ)).withDensity ev) Set.univ = 1 := by
        rw [← hobs, Measure.map_apply (by fun_prop) MeasurableSet.univ]
        exact this
      rwa [withDensity_apply _ MeasurableSet.univ, Measure.restrict_univ] at h2
    refine (ae_lt_top hev (by rw [this]; simp)).mono fun x hx => hx.ne
  let good : Set (O → ℝ) := {x | ev x ≠ 0} ∩ {x | ev x ≠ ∞}
  have hgood : MeasurableSet good :=
    (hev (measurableSet_singleton 0)).compl.inter (hev (measurableSet_singleton ∞)).compl
  have hsure : ∀ᵐ x ∂(volume : Measure (O → ℝ)).withDensity ev, x ∈ good := by
    rw [ae_withDensity_iff hev]
    filter_upwards [hfin] with x h1 h2
    exact ⟨h2, h1⟩
  classical
  let T : Kernel (O → ℝ) (L → ℝ) :=
    Kernel.withDensity (Kernel.const (O → ℝ) (volume : Measure (L → ℝ))) fun x z => (ev x)⁻¹ * D (merge e x z)
  have hTm : Measurable (Function.uncurry fun (x : O → ℝ) (z : L → ℝ) => (ev x)⁻¹ * D (merge e x z)) :=
    ((hev.comp measurable_fst).inv).mul hG
  have hT : ∀ x, T x = (ev x)⁻¹ • (volume : Measure (L → ℝ)).withDensity fun z => D (merge e x z) := by
    intro x
    have hx : Measurable fun z : L → ℝ => D (merge e x z) := hG.comp (by fun_prop : Measurable fun z => (x, z))
    rw [Kernel.withDensity_apply _ hTm, Kernel.const_apply, ← withDensity_smul _ hx]
    rfl
  let post := Kernel.piecewise hgood T (Kernel.const (O → ℝ) (Measure.dirac 0))
  have hmark : IsMarkovKernel post := by
    refine ⟨fun x => ⟨?_⟩⟩
    by_cases hx : x ∈ good
    · rw [Kernel.piecewise_apply, if_pos hx, hT, Measure.smul_apply, withDensity_apply _ MeasurableSet.univ,
        Measure.restrict_univ, smul_eq_mul]
      exact ENNReal.inv_mul_cancel hx.1 hx.2
    · rw [Kernel.piecewise_apply, if_neg hx]
      simp
  refine ⟨post, hmark, ?_, ?_⟩
  · rw [map_parts e D hD]
    have : SFinite ((volume : Measure (O → ℝ)).withDensity ev) := inferInstance
    refine Measure.ext fun s hs => ?_
    rw [Measure.compProd_apply hs, withDensity_apply _ hs, ← lintegral_indicator hs,
      lintegral_prod _ ((hG.indicator hs).aemeasurable),
      lintegral_withDensity_eq_lintegral_mul _ hev (Kernel.measurable_kernel_prodMk_left hs)]
    refine lintegral_congr_ae ?_
    filter_upwards [hfin] with x hx
    have hsx : MeasurableSet (Prod.mk x ⁻¹' s) := measurable_prodMk_left hs
    have hl : ∫⁻ z : L → ℝ, s.indicator (fun w : (O → ℝ) × (L → ℝ) => D (merge e w.1 w.2)) (x, z)
        = ∫⁻ z in Prod.mk x ⁻¹' s, D (merge e x z) := by
      rw [← lintegral_indicator hsx]
      rfl
    rw [hl, Pi.mul_apply]
    by_cases h0 : ev x = 0
    · rw [h0, zero_mul]
      refine le_antisymm ((setLIntegral_le_lintegral _ _).trans ?_) zero_le
      exact h0.le
    · have hxg : x ∈ good := ⟨h0, hx⟩
      rw [Kernel.piecewise_apply, if_pos hxg, hT, Measure.smul_apply, withDensity_apply _ hsx,
        smul_eq_mul, ← mul_assoc, ENNReal.mul_inv_cancel h0 hx, one_mul]
  · filter_upwards [hsure] with x hx
    exact ⟨(ev x)⁻¹, by rw [Kernel.piecewise_apply, if_pos hx, hT]⟩

end Condition

/-! ### Log densities -/

theorem toE_dens (v : F) : toE v = ENNReal.log (dens v) := by
  cases v with
  | none => simp [toE, dens]
  | some r => simp [toE, dens, ENNReal.log_ofReal_of_pos (Real.exp_pos r)]

theorem exp_toE (v : F) : (toE v).exp = dens v := by
  rw [toE_dens, ENNReal.exp_log]

theorem toE_ne_top (v : F) : toE v ≠ ⊤ := by cases v <;> simp [toE]

end Verif.Mcmc.Bayes
