import Verif.Mcmc.Balance
import Mathlib.Probability.UniformOn

namespace Verif.Mcmc

open MeasureTheory ProbabilityTheory Spec
open scoped ENNReal

variable {Ω S : Type*} [MeasurableSpace Ω] [MeasurableSpace S]

/-- If `p(x) q(y|x) a(x,y)` is symmetric, the accept/reject program is in detailed balance. -/
theorem density_balance (P : Measure Ω) [IsProbabilityMeasure P] (μ : Measure S) [SigmaFinite μ]
    (logp : S → EReal) (hlogp : Measurable logp)
    (inner : Ω → S → S) (hinner : Measurable (Function.uncurry inner))
    (logq : S → S → EReal) (hlogq : Measurable (Function.uncurry logq))
    (hdens : HasLogDensity P inner μ logq)
    (Δ : S → S → EReal) (hΔ : Measurable (Function.uncurry Δ))
    (hsym : ∀ x y, (logp x).exp * (logq y x).exp * min 1 (Δ x y).exp
      = (logp y).exp * (logq x y).exp * min 1 (Δ y x).exp) :
    DetailedBalance (P.prod uniform)
      (fun k x => acceptReject (Δ x (inner k.1 x)) k.2 (inner k.1 x) x) (target μ logp) := by
  have hexp : Measurable fun x => (logp x).exp := EReal.measurable_exp.comp hlogp
  have hmin : Measurable fun z : S × S => min 1 (Δ z.1 z.2).exp :=
    measurable_const.min (EReal.measurable_exp.comp hΔ)
  have hq : Measurable fun z : S × S => (logq z.2 z.1).exp :=
    EReal.measurable_exp.comp (hlogq.comp measurable_swap)
  refine balance_of_symm P μ logp hlogp inner hinner Δ hΔ ?_
  intro f hf
  have key : ∀ g : S × S → ℝ≥0∞, Measurable g →
      ∫⁻ x, ∫⁻ ω, (logp x).exp * min 1 (Δ x (inner ω x)).exp * g (x, inner ω x) ∂P ∂μ
      = ∫⁻ x, ∫⁻ y, (logp x).exp * (logq y x).exp * min 1 (Δ x y).exp * g (x, y) ∂μ ∂μ := by
    intro g hg
    refine lintegral_congr fun x => ?_
    have hm : Measurable fun y => (logp x).exp * min 1 (Δ x y).exp * g (x, y) :=
      ((measurable_const.mul (hmin.comp (measurable_const.prodMk measurable_id)))).mul
        (hg.comp (measurable_const.prodMk measurable_id))
    rw [hdens x _ hm]
    refine lintegral_congr fun y => ?_
    ring
  rw [key f hf]
  have := key (fun p => f p.swap) (hf.comp measurable_swap)
  simp only [Prod.swap_prod_mk] at this
  rw [this, lintegral_lintegral_swap]
  · refine lintegral_congr fun y => lintegral_congr fun x => ?_
    rw [hsym]
  · exact ((((hexp.comp measurable_fst).mul hq).mul hmin).mul hf).aemeasurable

theorem measurable_four {a b c d : S × S → EReal} (ha : Measurable a) (hb : Measurable b)
    (hc : Measurable c) (hd : Measurable d) : Measurable fun z => a z + b z - c z - d z := by
  simp only [sub_eq_add_neg]
  fun_prop

/-- `p q · min(1, (p' q')/(p q)) = min (p q) (p' q')`. -/
theorem mul_accept_hastings {a b c d : EReal} (ha : a ≠ ⊤) (hb : b ≠ ⊤) (hc : c ≠ ⊤)
    (hd : d ≠ ⊤) :
    a.exp * b.exp * min 1 (c + d - a - b).exp = min (a.exp * b.exp) (c.exp * d.exp) := by
  have : c + d - a - b = (c + d) - (a + b) := by
    induction a using EReal.rec <;> induction b using EReal.rec <;> induction c using EReal.rec <;>
      induction d using EReal.rec <;> first
        | contradiction
        | rfl
        | skip
    all_goals first | norm_cast; ring
  have hab : a + b ≠ ⊤ := EReal.add_ne_top ha hb
  rw [this, ← EReal.exp_add, mul_accept hab, ← EReal.exp_add]

/-- The algorithm documented at `kernels.py:100-105`, with the two proposal densities the right way
round: it is `metropolisHastings` with `ppl.log_prob(inner_step)` called on the swapped pair. -/
noncomputable def metropolisHastingsCorrected (logProb : S → EReal) (inner : Ω → S → S)
    (innerLogProb : S → S → EReal) : Ω × ℝ → S → S :=
  metropolisHastings logProb inner (fun sample given => innerLogProb given sample)

theorem metropolisHastingsCorrected_balance (P : Measure Ω) [IsProbabilityMeasure P]
    (μ : Measure S) [SigmaFinite μ]
    (logp : S → EReal) (hlogp : Measurable logp) (hfin : ∀ x, logp x ≠ ⊤)
    (inner : Ω → S → S) (hinner : Measurable (Function.uncurry inner))
    (logq : S → S → EReal) (hlogq : Measurable (Function.uncurry logq))
    (hqfin : ∀ y x, logq y x ≠ ⊤)
    (hdens : HasLogDensity P inner μ logq) :
    DetailedBalance (P.prod uniform) (metropolisHastingsCorrected logp inner logq)
      (target μ logp) := by
  refine density_balance P μ logp hlogp inner hinner logq hlogq hdens
    (fun x y => logp y + logq x y - logp x - logq y x) ?_ ?_
  · exact measurable_four (hlogp.comp measurable_snd) hlogq (hlogp.comp measurable_fst)
      (hlogq.comp measurable_swap)
  · intro x y
    rw [mul_accept_hastings (hfin _) (hqfin _ _) (hfin _) (hqfin _ _),
      mul_accept_hastings (hfin _) (hqfin _ _) (hfin _) (hqfin _ _), min_comm]

theorem metropolisHastings_balance_symm (P : Measure Ω) [IsProbabilityMeasure P]
    (μ : Measure S) [SigmaFinite μ]
    (logp : S → EReal) (hlogp : Measurable logp) (hfin : ∀ x, logp x ≠ ⊤)
    (inner : Ω → S → S) (hinner : Measurable (Function.uncurry inner))
    (logq : S → S → EReal) (hlogq : Measurable (Function.uncurry logq))
    (hqfin : ∀ y x, logq y x ≠ ⊤)
    (hdens : HasLogDensity P inner μ logq) (hsym : ∀ x y, logq y x = logq x y) :
    DetailedBalance (P.prod uniform) (metropolisHastings logp inner logq)
      (target μ logp) := by
  have h := metropolisHastingsCorrected_balance P μ logp hlogp hfin inner hinner logq hlogq hqfin
    hdens
  have e : metropolisHastingsCorrected logp inner logq = metropolisHastings logp inner logq := by
    unfold metropolisHastingsCorrected
    congr 1
    funext a b
    exact hsym a b
  rwa [e] at h

/-! ### The counterexample: an asymmetric proposal on two states -/

/-- From `false` propose a fair coin, from `true` always propose `false`. -/
def lopsided (coin : Bool) (state : Bool) : Bool := if state then false else coin

/-- A fair coin. -/
noncomputable def fairCoin : Measure Bool :=
  (2⁻¹ : ℝ≥0∞) • Measure.dirac true + (2⁻¹ : ℝ≥0∞) • Measure.dirac false

/-- The log density of `lopsided` with respect to the counting measure. -/
noncomputable def lopsidedLogProb (sample given : Bool) : EReal :=
  if given then (if sample then ⊥ else 0) else ENNReal.log 2⁻¹

theorem fairCoin_prob : IsProbabilityMeasure fairCoin := ⟨by
  simp [fairCoin, ENNReal.inv_two_add_inv_two]⟩

theorem lopsided_density : HasLogDensity fairCoin lopsided Measure.count lopsidedLogProb := by
  intro x f hf
  rw [lintegral_count, tsum_bool, fairCoin, lintegral_add_measure, lintegral_smul_measure,
    lintegral_smul_measure, lintegral_dirac' _ (by fun_prop), lintegral_dirac' _ (by fun_prop)]
  cases x
  · simp [lopsided, lopsidedLogProb, mul_comm, add_comm]
  · simp [lopsided, lopsidedLogProb, ← add_mul, ENNReal.inv_two_add_inv_two]

/-- The probability that one step of the code's kernel from `x` ends in `true`. -/
theorem lopsided_flow (x : Bool) :
    (fairCoin.prod uniform)
      {k | metropolisHastings (fun _ => 0) lopsided lopsidedLogProb k x ∈ ({true} : Set Bool)}
      = if x then 0 else 2⁻¹ * 2⁻¹ := by
  have hm : MeasurableSet {k : Bool × ℝ |
      metropolisHastings (fun _ => 0) lopsided lopsidedLogProb k x ∈ ({true} : Set Bool)} := by
    have : Measurable fun k : Bool × ℝ =>
        metropolisHastings (fun _ => 0) lopsided lopsidedLogProb k x := by
      unfold metropolisHastings
      refine measurable_acceptReject (x := fun _ => x) (y := fun k : Bool × ℝ => lopsided k.1 x)
        (u := Prod.snd) measurable_const (Measurable.of_discrete.comp measurable_fst) ?_
        measurable_snd
      exact (Measurable.of_discrete (f := fun n : Bool =>
        (0 : EReal) + lopsidedLogProb (lopsided n x) x - 0 - lopsidedLogProb x (lopsided n x))).comp
          measurable_fst
    exact this (MeasurableSet.singleton true)
  rw [Measure.prod_apply hm, fairCoin, lintegral_add_measure, lintegral_smul_measure,
    lintegral_smul_measure, lintegral_dirac, lintegral_dirac]
  have hs : ∀ c, (Prod.mk c ⁻¹' {k : Bool × ℝ |
      metropolisHastings (fun _ => 0) lopsided lopsidedLogProb k x ∈ ({true} : Set Bool)})
      = {u | acceptReject ((0 : EReal) + lopsidedLogProb (lopsided c x) x - 0
          - lopsidedLogProb x (lopsided c x)) u (lopsided c x) x ∈ ({true} : Set Bool)} :=
    fun c => rfl
  rw [hs, hs, uniform_acceptReject, uniform_acceptReject]
  have h2 : (2⁻¹ : ℝ≥0∞) ≤ 1 := by simp
  cases x
  · simp [lopsided, lopsidedLogProb, h2, min_eq_right]
  · simp [lopsided, lopsidedLogProb, sub_eq_add_neg, ← ENNReal.log_inv]

theorem lopsided_not_stationary :
    ¬ Stationary (fairCoin.prod uniform)
      (metropolisHastings (fun _ => 0) lopsided lopsidedLogProb)
      (target Measure.count (fun _ : Bool => 0)) := by
  intro h
  have := h {true} (MeasurableSet.singleton true)
  simp only [lopsided_flow] at this
  have ht : target Measure.count (fun _ : Bool => (0 : EReal)) = Measure.count := by
    simp [target]
  rw [ht, lintegral_count, tsum_bool] at this
  simp only [Measure.count_singleton] at this
  norm_num at this
  have h4 : (2⁻¹ * 2⁻¹ : ℝ≥0∞) < 1 := by
    rw [← ENNReal.mul_inv (by simp) (by simp)]
    simp
  exact absurd this h4.ne

end Verif.Mcmc
