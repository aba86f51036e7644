import Verif.Mcmc.Hmc
import Verif.Mcmc.Hastings

namespace Verif.Mcmc

open MeasureTheory ProbabilityTheory Spec
open scoped ENNReal

theorem stdNormal_neg (ι : Type*) [Fintype ι] :
    MeasurePreserving (fun m : ι → ℝ => -m) (stdNormal ι) (stdNormal ι) := by
  have h : MeasurePreserving (fun t : ℝ => -t) (gaussianReal 0 1) (gaussianReal 0 1) :=
    ⟨measurable_neg, by rw [gaussianReal_map_neg]; simp⟩
  exact measurePreserving_pi _ _ fun _ => h

theorem measurable_randomWalk (ι : Type*) [Fintype ι] (c : ℝ) :
    Measurable (Function.uncurry (randomWalk (ι := ι) c)) := by
  refine measurable_pi_lambda _ fun i => ?_
  simp only [Function.uncurry, randomWalk]
  fun_prop

theorem randomWalk_eq {ι : Type*} (c : ℝ) (ω x : ι → ℝ) : randomWalk c ω x = x + c • ω := rfl

theorem randomWalk_symmetric (ι : Type*) [Fintype ι] (c : ℝ) :
    SymmetricProposal (stdNormal ι) (randomWalk c) volume := by
  intro f hf
  have hw := measurable_randomWalk ι c
  have hw' : Measurable fun z : (ι → ℝ) × (ι → ℝ) => randomWalk c z.2 z.1 :=
    hw.comp measurable_swap
  have m1 : Measurable (Function.uncurry fun (x ω : ι → ℝ) => f (x, randomWalk c ω x)) :=
    hf.comp (measurable_fst.prodMk hw')
  have m2 : Measurable (Function.uncurry fun (x ω : ι → ℝ) => f (randomWalk c ω x, x)) :=
    hf.comp (hw'.prodMk measurable_fst)
  rw [lintegral_lintegral_swap m1.aemeasurable, lintegral_lintegral_swap m2.aemeasurable]
  have hm : Measurable fun ω : ι → ℝ => ∫⁻ x : ι → ℝ, f (x, randomWalk c ω x) := by
    have : Measurable (Function.uncurry fun (ω x : ι → ℝ) => f (x, randomWalk c ω x)) :=
      hf.comp (measurable_snd.prodMk hw)
    exact this.lintegral_prod_right'
  rw [← (stdNormal_neg ι).lintegral_comp hm]
  refine lintegral_congr fun ω => ?_
  simp only [randomWalk_eq]
  have := lintegral_add_right_eq_self (μ := (volume : Measure (ι → ℝ)))
    (fun x => f (x, x + c • -ω)) (c • ω)
  rw [← this]
  refine lintegral_congr fun x => ?_
  congr 2
  rw [smul_neg, add_neg_cancel_right]

/-- `ppl.log_prob(random_walk(scale))(sample, given)`: the sum of the normal log densities of the
coordinates (`kernels.py:51-57`, log density of `Independent(Normal(given, scale))`). -/
noncomputable def randomWalkLogProb {ι : Type*} [Fintype ι] (scale : ℝ) (sample given : ι → ℝ) : EReal :=
  ((∑ i, Real.log (gaussianPDFReal (given i) (scale ^ 2).toNNReal (sample i)) : ℝ) : EReal)

theorem randomWalkLogProb_exp {ι : Type*} [Fintype ι] (c : ℝ) (hc : c ≠ 0) (y x : ι → ℝ) :
    (randomWalkLogProb c y x).exp = ∏ i, gaussianPDF (x i) (c ^ 2).toNNReal (y i) := by
  have hv : (c ^ 2).toNNReal ≠ 0 := by
    simpa using hc
  rw [randomWalkLogProb, EReal.exp_coe, Real.exp_sum, ENNReal.ofReal_prod_of_nonneg]
  · refine Finset.prod_congr rfl fun i _ => ?_
    rw [Real.exp_log (gaussianPDFReal_pos _ _ _ hv)]
    rfl
  · intro i _
    exact (Real.exp_pos _).le

theorem randomWalk_law (ι : Type*) [Fintype ι] (c : ℝ) (x : ι → ℝ) :
    MeasurePreserving (fun ω => randomWalk c ω x) (stdNormal ι)
      (Measure.pi fun i => gaussianReal (x i) (c ^ 2).toNNReal) := by
  refine measurePreserving_pi (fun _ => gaussianReal 0 1)
    (fun i => gaussianReal (x i) (c ^ 2).toNNReal) (f := fun i t => x i + c * t) fun i => ?_
  refine ⟨(measurable_id.const_mul c).const_add (x i), ?_⟩
  have e : (fun t : ℝ => x i + c * t) = (fun t => x i + t) ∘ (fun t => c * t) := rfl
  rw [e, ← Measure.map_map (by fun_prop) (by fun_prop),
    gaussianReal_map_const_mul, gaussianReal_map_const_add]
  congr 1
  · ring
  · rw [mul_one]
    ext
    simp [Real.coe_toNNReal _ (sq_nonneg c)]

theorem randomWalk_density (ι : Type*) [Fintype ι] (c : ℝ) (hc : c ≠ 0) :
    HasLogDensity (stdNormal ι) (randomWalk c) volume (randomWalkLogProb c) := by
  have hv : (c ^ 2).toNNReal ≠ 0 := by
    simpa using hc
  intro x f hf
  have hlaw : (Measure.pi fun i => gaussianReal (x i) (c ^ 2).toNNReal)
      = (volume : Measure (ι → ℝ)).withDensity (fun y => (randomWalkLogProb c y x).exp) := by
    simp only [randomWalkLogProb_exp c hc]
    refine Measure.pi_eq fun g hg => ?_
    rw [withDensity_apply _ (MeasurableSet.univ_pi hg)]
    have := pi_withDensity volume (fun i => gaussianPDF (x i) (c ^ 2).toNNReal)
      (fun _ => measurable_gaussianPDF _ _) g hg
    rw [volume_pi, this]
    refine Finset.prod_congr rfl fun i _ => ?_
    rw [gaussianReal_apply _ hv]
  rw [(randomWalk_law ι c x).lintegral_comp hf, hlaw, lintegral_withDensity_eq_lintegral_mul _ _ hf]
  · refine lintegral_congr fun y => ?_
    simp [mul_comm]
  · simp only [randomWalkLogProb_exp c hc]
    exact Finset.measurable_prod _ fun i _ =>
      (measurable_gaussianPDF _ _).comp (measurable_pi_apply i)

theorem measurable_randomWalkLogProb (ι : Type*) [Fintype ι] (c : ℝ) :
    Measurable (Function.uncurry (randomWalkLogProb (ι := ι) c)) := by
  refine measurable_coe_real_ereal.comp ?_
  refine Finset.measurable_sum _ fun i _ => Real.measurable_log.comp ?_
  have h : Measurable fun z : (ι → ℝ) × (ι → ℝ) => (z.2 i, (c ^ 2).toNNReal, z.1 i) := by
    fun_prop
  exact measurable_uncurry_gaussianPDFReal.comp h

theorem randomWalkLogProb_symm {ι : Type*} [Fintype ι] (c : ℝ) (x y : ι → ℝ) :
    randomWalkLogProb c y x = randomWalkLogProb c x y := by
  unfold randomWalkLogProb
  congr 1
  refine Finset.sum_congr rfl fun i _ => ?_
  congr 1
  simp only [gaussianPDFReal]
  rw [show (y i - x i) ^ 2 = (x i - y i) ^ 2 by ring]

end Verif.Mcmc
