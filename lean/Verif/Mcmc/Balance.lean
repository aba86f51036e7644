import Verif.Mcmc.Lemmas

namespace Verif.Mcmc

open MeasureTheory ProbabilityTheory Spec
open scoped ENNReal

variable {Ω S : Type*} [MeasurableSpace Ω] [MeasurableSpace S]

theorem measurable_uniform_acceptReject {Z : Type*} [MeasurableSpace Z] {x y : Z → S}
    {Δ : Z → EReal} (hx : Measurable x) (hy : Measurable y) (hΔ : Measurable Δ) {B : Set S}
    (hB : MeasurableSet B) :
    Measurable fun z => uniform {u | acceptReject (Δ z) u (y z) (x z) ∈ B} := by
  have h2 : Measurable (B.indicator (1 : S → ℝ≥0∞)) := measurable_one.indicator hB
  have hexp : Measurable fun z => min 1 (Δ z).exp :=
    measurable_const.min (EReal.measurable_exp.comp hΔ)
  simp only [uniform_acceptReject]
  exact (hexp.mul (h2.comp hy)).add ((measurable_const.sub hexp).mul (h2.comp hx))

theorem measurable_acceptReject {Z : Type*} [MeasurableSpace Z] {x y : Z → S} {u : Z → ℝ}
    {Δ : Z → EReal} (hx : Measurable x) (hy : Measurable y) (hΔ : Measurable Δ)
    (hu : Measurable u) : Measurable fun z => acceptReject (Δ z) (u z) (y z) (x z) := by
  unfold acceptReject
  exact Measurable.ite (measurableSet_lt (measurable_npLog.comp hu) hΔ) hy hx

/-- The transition probabilities of an accept/reject program. -/
theorem acceptReject_law (P : Measure Ω) [SFinite P] {proposal : Ω → S} (hp : Measurable proposal)
    {ratio : Ω → EReal} (hr : Measurable ratio) (x : S) {B : Set S} (hB : MeasurableSet B) :
    (P.prod uniform) {k | acceptReject (ratio k.1) k.2 (proposal k.1) x ∈ B} = acceptLaw P proposal ratio x B := by
  have hm : Measurable fun k : Ω × ℝ => acceptReject (ratio k.1) k.2 (proposal k.1) x :=
    measurable_acceptReject measurable_const (hp.comp measurable_fst) (hr.comp measurable_fst) measurable_snd
  have hset : MeasurableSet {k : Ω × ℝ | acceptReject (ratio k.1) k.2 (proposal k.1) x ∈ B} := hm hB
  rw [Measure.prod_apply hset, acceptLaw]
  refine lintegral_congr fun ω => ?_
  exact uniform_acceptReject (ratio ω) (proposal ω) x B

/-- The one-step flow of an accept/reject program with proposal `inner`, as an integral over the
current state and the proposal randomness. -/
theorem flow_eq (P : Measure Ω) [SFinite P] (μ : Measure S) [SFinite μ] (logp : S → EReal)
    (hlogp : Measurable logp) (inner : Ω → S → S) (hinner : Measurable (Function.uncurry inner))
    (Δ : S → Ω → EReal) (hΔ : Measurable (Function.uncurry Δ)) (A B : Set S)
    (hA : MeasurableSet A) (hB : MeasurableSet B) :
    ∫⁻ x in A, (P.prod uniform)
        {k | acceptReject (Δ x k.1) k.2 (inner k.1 x) x ∈ B} ∂(target μ logp)
      = ∫⁻ z, A.indicator 1 z.1 * ((logp z.1).exp *
          uniform {u | acceptReject (Δ z.1 z.2) u (inner z.2 z.1) z.1 ∈ B})
            ∂(μ.prod P) := by
  have hin : Measurable fun z : S × Ω => inner z.2 z.1 :=
    hinner.comp (measurable_snd.prodMk measurable_fst)
  have hD : Measurable fun z : S × Ω => Δ z.1 z.2 :=
    hΔ
  have hU := measurable_uniform_acceptReject measurable_fst hin hD hB
  have h1 : Measurable (A.indicator (1 : S → ℝ≥0∞)) := measurable_one.indicator hA
  have hexp : Measurable fun x => (logp x).exp := EReal.measurable_exp.comp hlogp
  have hprod : ∀ x, (P.prod uniform)
        {k | acceptReject (Δ x k.1) k.2 (inner k.1 x) x ∈ B}
      = ∫⁻ ω, uniform {u | acceptReject (Δ x ω) u (inner ω x) x ∈ B} ∂P := by
    intro x
    rw [Measure.prod_apply]
    · rfl
    · have hin' : Measurable fun k : Ω × ℝ => inner k.1 x :=
        hinner.comp (measurable_fst.prodMk measurable_const)
      exact (measurable_acceptReject measurable_const hin'
        (hΔ.comp (measurable_const.prodMk measurable_fst)) measurable_snd) hB
  have hmeas : Measurable fun x => ∫⁻ ω, uniform
      {u | acceptReject (Δ x ω) u (inner ω x) x ∈ B} ∂P :=
    hU.lintegral_prod_right'
  rw [lintegral_prod]
  · simp only [hprod]
    rw [target, restrict_withDensity hA, lintegral_withDensity_eq_lintegral_mul _ hexp hmeas,
      ← lintegral_indicator hA]
    refine lintegral_congr fun x => ?_
    have hux : Measurable fun ω => uniform
        {u | acceptReject (Δ x ω) u (inner ω x) x ∈ B} :=
      hU.comp (measurable_const.prodMk measurable_id)
    rw [lintegral_const_mul _ (hux.const_mul _), lintegral_const_mul _ hux]
    by_cases hx : x ∈ A
    · rw [Set.indicator_of_mem hx, Set.indicator_of_mem hx]
      simp
    · rw [Set.indicator_of_notMem hx, Set.indicator_of_notMem hx]
      simp
  · exact ((h1.comp measurable_fst).mul ((hexp.comp measurable_fst).mul hU)).aemeasurable

theorem balance_of_symm (P : Measure Ω) [SFinite P] (μ : Measure S) [SFinite μ]
    (logp : S → EReal)
    (hlogp : Measurable logp) (inner : Ω → S → S) (hinner : Measurable (Function.uncurry inner))
    (Δ : S → S → EReal) (hΔ : Measurable (Function.uncurry Δ))
    (h : ∀ f : S × S → ℝ≥0∞, Measurable f →
      ∫⁻ x, ∫⁻ ω, (logp x).exp * min 1 (Δ x (inner ω x)).exp * f (x, inner ω x) ∂P ∂μ
        = ∫⁻ x, ∫⁻ ω, (logp x).exp * min 1 (Δ x (inner ω x)).exp * f (inner ω x, x) ∂P ∂μ) :
    DetailedBalance (P.prod uniform)
      (fun k x => acceptReject (Δ x (inner k.1 x)) k.2 (inner k.1 x) x) (target μ logp) := by
  intro A B hA hB
  have hin : Measurable fun z : S × Ω => inner z.2 z.1 :=
    hinner.comp (measurable_snd.prodMk measurable_fst)
  have hD : Measurable fun z : S × Ω => Δ z.1 (inner z.2 z.1) :=
    hΔ.comp (measurable_fst.prodMk hin)
  have hexp : Measurable fun x => (logp x).exp := EReal.measurable_exp.comp hlogp
  have hmin : Measurable fun z : S × Ω => min 1 (Δ z.1 (inner z.2 z.1)).exp :=
    measurable_const.min (EReal.measurable_exp.comp hD)
  rw [flow_eq P μ logp hlogp inner hinner (fun x ω => Δ x (inner ω x)) hD A B hA hB,
    flow_eq P μ logp hlogp inner hinner (fun x ω => Δ x (inner ω x)) hD B A hB hA]
  refine flow_symm (μ.prod P) (fun z => z.1) (fun z => inner z.2 z.1) (fun z => (logp z.1).exp)
    (fun z => Δ z.1 (inner z.2 z.1)) measurable_fst hin (hexp.comp measurable_fst) hD ?_ A B hA hB
  intro f hf
  rw [lintegral_prod, lintegral_prod]
  · exact h f hf
  · exact (((hexp.comp measurable_fst).mul hmin).mul
      (hf.comp (hin.prodMk measurable_fst))).aemeasurable
  · exact (((hexp.comp measurable_fst).mul hmin).mul
      (hf.comp (measurable_fst.prodMk hin))).aemeasurable

/-- Metropolis with a symmetric proposal. -/
theorem metropolis_balance (P : Measure Ω) [IsProbabilityMeasure P] (μ : Measure S) [SigmaFinite μ]
    (logp : S → EReal) (hlogp : Measurable logp) (hfin : ∀ x, logp x ≠ ⊤)
    (inner : Ω → S → S) (hinner : Measurable (Function.uncurry inner))
    (hsym : SymmetricProposal P inner μ) :
    DetailedBalance (P.prod uniform) (metropolis logp inner) (target μ logp) := by
  have hΔ : Measurable (Function.uncurry fun x y => logp y - logp x) := by
    have : Measurable fun z : EReal × EReal => z.1 - z.2 := by
      simp only [sub_eq_add_neg]
      fun_prop
    exact this.comp ((hlogp.comp measurable_snd).prodMk (hlogp.comp measurable_fst))
  refine balance_of_symm P μ logp hlogp inner hinner (fun x y => logp y - logp x) hΔ ?_
  intro f hf
  simp only [mul_accept (hfin _)]
  have hexp : Measurable fun x => (logp x).exp := EReal.measurable_exp.comp hlogp
  have := hsym (fun p => min (logp p.1).exp (logp p.2).exp * f p)
    (((hexp.comp measurable_fst).min (hexp.comp measurable_snd)).mul hf)
  simp only at this
  rw [this]
  refine lintegral_congr fun x => lintegral_congr fun ω => ?_
  rw [min_comm]

end Verif.Mcmc
