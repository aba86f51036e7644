import Verif.Mcmc.Lemmas
import Mathlib.MeasureTheory.Function.Jacobian

namespace Verif.Mcmc

open MeasureTheory ProbabilityTheory Spec
open scoped ENNReal

section Chain

variable {S Key M C : Type*}

theorem runCallbacks_eq (cbs : List (M → S → C)) (c : M × S) : runCallbacks cbs c = c := by
  unfold runCallbacks
  induction cbs with
  | nil => rfl
  | cons cb cbs ih => exact ih

theorem sampleChain_trajectory (call : M → Key → S → S × M) (cbs : List (M → S → C))
    (keys : List Key) (init : M × S) :
    ∃ traj : Nat → M × S, traj 0 = init ∧
      (∀ i (h : i < keys.length),
        traj (i + 1) = ((call (traj i).1 keys[i] (traj i).2).2,
          (call (traj i).1 keys[i] (traj i).2).1)) ∧
      (sampleChain call cbs init keys).1 = traj keys.length ∧
      (sampleChain call cbs init keys).2
        = (List.range keys.length).map fun i => (traj (i + 1)).2 := by
  induction keys generalizing init with
  | nil => exact ⟨fun _ => init, rfl, fun i h => absurd h (Nat.not_lt_zero _), rfl, rfl⟩
  | cons key keys ih =>
    obtain ⟨traj, h0, hs, hf, hl⟩ := ih ((call init.1 key init.2).2, (call init.1 key init.2).1)
    refine ⟨fun i => Nat.casesOn i init traj, rfl, ?_, ?_, ?_⟩
    · intro i h
      cases i with
      | zero => exact h0
      | succ i => exact hs i (Nat.lt_of_succ_lt_succ h)
    · simp only [sampleChain, runCallbacks_eq]
      exact hf
    · simp only [sampleChain, runCallbacks_eq, List.length_cons, List.range_succ_eq_map,
        List.map_cons, List.map_map]
      rw [hl, h0]
      rfl

theorem sampleChain_append (call : M → Key → S → S × M) (cbs : List (M → S → C))
    (keys₁ keys₂ : List Key) (init : M × S) :
    sampleChain call cbs init (keys₁ ++ keys₂)
      = let r := sampleChain call cbs init keys₁
        ((sampleChain call cbs r.1 keys₂).1, r.2 ++ (sampleChain call cbs r.1 keys₂).2) := by
  induction keys₁ generalizing init with
  | nil => rfl
  | cons key keys ih =>
    simp only [List.cons_append, sampleChain, ih]

end Chain

section Law

variable {Ω S : Type*} [MeasurableSpace Ω] [MeasurableSpace S]

/-- Stationarity for integrals of arbitrary functions. -/
theorem Stationary.lintegral {P : Measure Ω} [IsProbabilityMeasure P] {π : Measure S} [SFinite π]
    {step : Ω → S → S} (hstep : Measurable (Function.uncurry step)) (h : Stationary P step π)
    {g : S → ℝ≥0∞} (hg : Measurable g) :
    ∫⁻ x, ∫⁻ ω, g (step ω x) ∂P ∂π = ∫⁻ x, g x ∂π := by
  have hm : Measurable fun z : S × Ω => step z.2 z.1 := hstep.comp measurable_swap
  have hmap : (π.prod P).map (fun z => step z.2 z.1) = π := by
    ext B hB
    rw [Measure.map_apply hm hB, Measure.prod_apply (hm hB), ← h B hB]
    rfl
  have h2 := lintegral_map (μ := π.prod P) hg hm
  rw [hmap] at h2
  rw [h2, lintegral_prod]
  exact (hg.comp hm).aemeasurable

/-- The kernel of a stateless program, as a module without variables. -/
def stateless (step : Ω → S → S) : Unit → Ω → S → S × Unit := fun _ ω s => (step ω s, ())

/-- The last state of a chain of `n` steps. -/
def lastState (step : Ω → S → S) {n : Nat} (keys : Fin n → Ω) (s : S) : S :=
  (sampleChain (C := Unit) (stateless step) [] ((), s) (List.ofFn keys)).1.2

omit [MeasurableSpace Ω] [MeasurableSpace S] in
theorem lastState_zero (step : Ω → S → S) (keys : Fin 0 → Ω) (s : S) :
    lastState step keys s = s := rfl

omit [MeasurableSpace Ω] [MeasurableSpace S] in
theorem lastState_succ (step : Ω → S → S) {n : Nat} (keys : Fin (n + 1) → Ω) (s : S) :
    lastState step keys s = lastState step (fun i => keys i.succ) (step (keys 0) s) := by
  unfold lastState
  rw [List.ofFn_succ]
  rfl

theorem measurable_lastState {step : Ω → S → S} (hstep : Measurable (Function.uncurry step))
    (n : Nat) : Measurable (Function.uncurry (lastState step (n := n))) := by
  induction n with
  | zero => exact measurable_snd
  | succ n ih =>
    have e : Function.uncurry (lastState step (n := n + 1)) = fun z =>
        Function.uncurry (lastState step (n := n))
          (fun i => z.1 i.succ, Function.uncurry step (z.1 0, z.2)) := by
      funext z
      exact lastState_succ step z.1 z.2
    rw [e]
    refine ih.comp (Measurable.prodMk ?_ (hstep.comp ?_))
    · exact measurable_pi_lambda _ fun i => (measurable_pi_apply i.succ).comp measurable_fst
    · exact ((measurable_pi_apply 0).comp measurable_fst).prodMk measurable_snd

theorem lastState_stationary {P : Measure Ω} [IsProbabilityMeasure P] {π : Measure S} [SFinite π]
    {step : Ω → S → S} (hstep : Measurable (Function.uncurry step)) (h : Stationary P step π)
    (n : Nat) : Stationary (Measure.pi fun _ : Fin n => P) (lastState step) π := by
  induction n with
  | zero =>
    intro B hB
    simp only [lastState_zero]
    have : ∀ x : S, (Measure.pi fun _ : Fin 0 => P) {_ω | x ∈ B} = B.indicator 1 x := by
      intro x
      by_cases hx : x ∈ B <;> simp [hx]
    simp only [this]
    rw [lintegral_indicator_one hB]
  | succ n ih =>
    intro B hB
    rw [← ih B hB]
    have hmn := measurable_lastState hstep n
    have hmeas : Measurable fun y => (Measure.pi fun _ : Fin n => P) {ks | lastState step ks y ∈ B} :=
      measurable_measure_prodMk_left ((hmn.comp measurable_swap) hB)
    rw [← Stationary.lintegral hstep h hmeas]
    refine lintegral_congr fun x => ?_
    have hmp := (measurePreserving_piFinSuccAbove (fun _ : Fin (n + 1) => P) 0)
    have hset : MeasurableSet {z : Ω × (Fin n → Ω) | lastState step z.2 (step z.1 x) ∈ B} := by
      have : Measurable fun z : Ω × (Fin n → Ω) => lastState step z.2 (step z.1 x) :=
        hmn.comp (measurable_snd.prodMk (hstep.comp (measurable_fst.prodMk measurable_const)))
      exact this hB
    have e : {ks : Fin (n + 1) → Ω | lastState step ks x ∈ B}
        = (MeasurableEquiv.piFinSuccAbove (fun _ : Fin (n + 1) => Ω) 0) ⁻¹'
            {z : Ω × (Fin n → Ω) | lastState step z.2 (step z.1 x) ∈ B} := by
      ext ks
      rw [Set.mem_preimage]
      show lastState step ks x ∈ B ↔ lastState step _ _ ∈ B
      rw [lastState_succ]
      rfl
    rw [e, hmp.measure_preimage hset.nullMeasurableSet, Measure.prod_apply hset]
    rfl

end Law

section Constrain

variable {E : Type*} [NormedAddCommGroup E] [NormedSpace ℝ E] [FiniteDimensional ℝ E]
  [MeasurableSpace E] [BorelSpace E]

theorem constrain_pushforward_aux (μ : Measure E) [μ.IsAddHaarMeasure] (f : E → E)
    (f' : E → E →L[ℝ] E) (hf : ∀ x, HasFDerivAt f (f' x) x) (hinj : Function.Injective f)
    (hdet : ∀ x, (f' x).det ≠ 0) (ildj : E → E → EReal)
    (hildj : ∀ x, ildj x (f x) = ((-Real.log |(f' x).det| : ℝ) : EReal))
    (logp : E → EReal) (hlogp : Measurable logp) :
    (target μ (constrain f ildj logp)).map f = (target μ logp).restrict (Set.range f) := by
  have hcont : Continuous f := continuous_iff_continuousAt.2 fun x => (hf x).continuousAt
  have hrange : MeasurableSet (Set.range f) := by
    rw [← Set.image_univ]
    exact measurable_image_of_fderivWithin MeasurableSet.univ
      (fun x _ => (hf x).hasFDerivWithinAt) hinj.injOn
  ext B hB
  have hpre : MeasurableSet (f ⁻¹' B) := hcont.measurable hB
  rw [Measure.map_apply hcont.measurable hB, Measure.restrict_apply hB, target, target,
    withDensity_apply _ hpre, withDensity_apply _ (hB.inter hrange), ← Set.image_preimage_eq_inter_range,
    lintegral_image_eq_lintegral_abs_det_fderiv_mul μ hpre (fun x _ => (hf x).hasFDerivWithinAt)
      hinj.injOn]
  refine lintegral_congr fun x => ?_
  have hpos : 0 < |(f' x).det| := abs_pos.2 (hdet x)
  have : constrain f ildj logp x = logp (f x) + ((Real.log |(f' x).det| : ℝ) : EReal) := by
    simp only [constrain, hildj, sub_eq_add_neg, ← EReal.coe_neg, neg_neg]
  rw [this, EReal.exp_add, EReal.exp_coe, Real.exp_log hpos, mul_comm]

end Constrain

end Verif.Mcmc
