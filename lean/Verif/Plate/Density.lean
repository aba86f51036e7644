import Verif.Plate.Props
import Verif.Mcmc.Hmc

/-!
# C80: the samples of a plate have the density that `log_prob` computes

`log_prob` of a plate is the sum over the axis of the log-densities of the lanes (C59,
`LogProb.plate_log_prob_partial`). Here: that sum is the log-density of the joint distribution of the samples.
-/

namespace Verif.Plate

open MeasureTheory ProbabilityTheory
open scoped ENNReal

variable {Ω : Type} [MeasurableSpace Ω]

theorem exp_sum {ι : Type} (s : Finset ι) (l : ι → EReal) : (∑ i ∈ s, l i).exp = ∏ i ∈ s, (l i).exp := by
  classical
  induction s using Finset.induction_on with
  | empty => simp
  | insert i s hi ih => rw [Finset.sum_insert hi, Finset.prod_insert hi, EReal.exp_add, ih]

theorem pi_withDensity (n : ℕ) (μ : Measure ℝ) [SigmaFinite μ] (f : Fin n → ℝ → ℝ≥0∞)
    (hf : ∀ i, Measurable (f i)) [∀ i, SigmaFinite (μ.withDensity (f i))] :
    Measure.pi (fun i => μ.withDensity (f i))
      = (Measure.pi fun _ : Fin n => μ).withDensity fun y => ∏ i, f i (y i) := by
  refine Measure.pi_eq fun s hs => ?_
  rw [withDensity_apply _ (MeasurableSet.univ_pi hs), Verif.Mcmc.pi_withDensity_fin n μ f hf s hs]
  exact Finset.prod_congr rfl fun i _ => (withDensity_apply _ (hs i)).symm

/-- **C80.** If the value `r` returned by the program of a plate has, in lane `i`, the log-density `lp i` with
respect to `μ`, then the values of all lanes together have the log-density `∑ i, lp i (y i)`: the one that
`log_prob` of the plate returns. -/
theorem plate_log_density (P : Measure Ω) [IsProbabilityMeasure P] (a : String) (n : ℕ)
    (axes : String → Option ℕ) (f : Prog Ω) (hf : Meas f) (key : Key) (args : Fin n → ℕ → ℝ) (r : ℕ)
    (μ : Measure ℝ) [SigmaFinite μ] (lp : Fin n → ℝ → EReal) (hlp : ∀ i, Measurable (lp i))
    (hd : ∀ i : Fin n, (law P (withAxis axes a i) f (args i)).map (fun o => o.1 r)
      = μ.withDensity fun y => (lp i y).exp) :
    (oracle P).map (fun ω => fun i =>
        (values (vmap a n (fun ax k x => callPlate a ax ω f k x) axes (fun _ => key) args i)).1 r)
      = (Measure.pi fun _ : Fin n => μ).withDensity fun y => (∑ i, lp i (y i)).exp := by
  have hr : Measurable fun o : (ℕ → ℝ) × (String → ℝ) => o.1 r :=
    (measurable_pi_apply r).comp measurable_fst
  have hp : ∀ i : Fin n, IsProbabilityMeasure (law P (withAxis axes a i) f (args i)) := fun i =>
    law_probability P _ f hf (args i)
  have hp' : ∀ i : Fin n, IsProbabilityMeasure (μ.withDensity fun y => (lp i y).exp) := fun i => by
    rw [← hd i]
    exact Measure.isProbabilityMeasure_map hr.aemeasurable
  have hm : ∀ i : Fin n, Measurable fun ω : Key → Ω =>
      values (vmap a n (fun ax k x => callPlate a ax ω f k x) axes (fun _ => key) args i) := by
    intro i
    have := values_measurable (withAxis axes a i) f hf (.foldIn i :: key) (args i)
    simpa [vmap, callPlate, withAxis] using this
  have h1 := plate_joint_law P a n axes f hf key args
  have h2 := congrArg (fun ν => ν.map fun (x : Fin n → (ℕ → ℝ) × (String → ℝ)) i => (x i).1 r) h1
  have hM : Measurable fun (x : Fin n → (ℕ → ℝ) × (String → ℝ)) i => (x i).1 r :=
    measurable_pi_lambda _ fun i => hr.comp (measurable_pi_apply i)
  have h4 : (Measure.infinitePi fun i : Fin n => law P (withAxis axes a i) f (args i)).map
        (fun x i => (x i).1 r)
      = Measure.infinitePi fun i : Fin n => (law P (withAxis axes a i) f (args i)).map fun o => o.1 r :=
    Measure.infinitePi_map_pi (μ := fun i : Fin n => law P (withAxis axes a i) f (args i))
      (f := fun _ o => o.1 r) (fun _ => hr)
  rw [Measure.map_map hM (measurable_pi_lambda _ hm), ← Measure.infinitePi_eq_pi, h4] at h2
  have h3 : (fun i : Fin n => (law P (withAxis axes a i) f (args i)).map fun o => o.1 r)
      = fun i => μ.withDensity fun y => (lp i y).exp := funext hd
  rw [h3, Measure.infinitePi_eq_pi,
    pi_withDensity n μ (fun i y => (lp i y).exp) fun i => (EReal.measurable_exp).comp (hlp i)] at h2
  simp only [exp_sum]
  exact h2

/-- The hypotheses hold for `gaussian` and the standard normal distribution. -/
example (key : Key) (n : ℕ) :
    (oracle (gaussianReal 0 1)).map (fun ω => fun i =>
        (values (vmap "foo" n (fun ax k x => callPlate "foo" ax ω gaussian k x) (fun _ => none) (fun _ => key)
          (fun _ _ => 0) i)).1 0)
      = (Measure.pi fun _ : Fin n => (volume : Measure ℝ)).withDensity
          fun y => (∑ i, ENNReal.log (gaussianPDF 0 1 (y i))).exp := by
  refine plate_log_density (gaussianReal 0 1) "foo" n _ gaussian ⟨measurable_fst, trivial⟩ key _ 0 volume
    (fun _ y => ENNReal.log (gaussianPDF 0 1 y)) (fun _ => ?_) (fun i => ?_)
  · exact ENNReal.measurable_log.comp (measurable_gaussianPDF 0 1)
  · have hf : Meas gaussian := ⟨measurable_fst, trivial⟩
    simp only [ENNReal.exp_log]
    have hr : Measurable fun o : (ℕ → ℝ) × (String → ℝ) => o.1 0 :=
      (measurable_pi_apply 0).comp measurable_fst
    rw [← gaussianReal_of_var_ne_zero 0 one_ne_zero, law, Measure.map_map hr (values_measurable _ gaussian hf _ _)]
    have : ((fun o : (ℕ → ℝ) × (String → ℝ) => o.1 0) ∘ fun ω : Key → ℝ =>
        values (call (withAxis (fun _ => none) "foo" i) ω gaussian [] fun _ => 0)) = fun ω => ω [] := by
      funext ω
      simp [call, exec, gaussian, values, set]
    rw [this]
    exact Measure.infinitePi_map_eval (fun _ : Key => gaussianReal 0 1) []

end Verif.Plate
