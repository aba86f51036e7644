import Verif.LogProb.JointLinks

/-! C81: `sqrt` in a random variable's function: `joint_log_prob` gives a density to impossible values. -/
namespace Verif.LogProb.Joint

open Verif.Propagate Verif.Inverse Verif.Plate MeasureTheory
open scoped ENNReal

variable {Ω : Type}

open Classical in
/-- The log density of the exponential distribution. -/
noncomputable def expLp (_ : List F) (vs : List F) : F :=
  (vs.headD none).bind fun x => if 0 ≤ x then some (-x) else none

/-- `def f(key): return rv(lambda k: sqrt(random_exponential(k)), name='r')(key)`. -/
noncomputable def rootExp : Source where
  key := 0
  args := []
  body := [.draw ⟨0, expLp, [.var 0], 1, [(.un .sqrt, 2)], some "r"⟩]
  outs := [.var 2]

theorem rootExp_wf : rootExp.WF where
  once := by simp [rootExp, Stmt.defs]
  order := by simp [rootExp, Scoped, Stmt.uses, Stmt.defs, Link.operand, Atom.node]
  sized := by
    intro st hst
    simp only [rootExp, List.mem_cons, List.not_mem_nil, or_false] at hst
    subst hst
    trivial

theorem sqrt_dlog {z : ℝ} (hz : z ≠ 0) : Un.sqrt.dlog z = some (Real.log |2 * z|) := by
  have hg : Un.sqrt.gr = fun z => z ^ 2 := by funext z; simp [Un.gr, Un.g]
  have hd : deriv Un.sqrt.gr z = 2 * z := by rw [hg]; simp
  have hdiff : DifferentiableAt ℝ Un.sqrt.gr z := by rw [hg]; fun_prop
  rw [Un.dlog, if_pos ⟨hdiff, by rw [hd]; simpa using hz⟩, hd]
  all_goals simp

/-- The value that `joint_log_prob` returns at `y`, negative or not. -/
theorem rootExp_value (y : Fin (draws rootExp.body).length → ℝ) (h : y (0 : Fin 1) ≠ 0) :
    JointLogProb rootExp (named rootExp y) [] (.ok (some (-(y (0 : Fin 1)) ^ 2 + Real.log |2 * y (0 : Fin 1)|))) := by
  have hnm : rootExp.names = ["r"] := by simp [Source.names, rootExp, Stmt.sown]
  have hl : named rootExp y = [("r", some (y (0 : Fin 1)))] := rfl
  have hT : rootExp.NoTags := by
    intro st hst n a
    simp only [rootExp, List.mem_cons, List.not_mem_nil, or_false] at hst
    subst hst
    simp
  rw [joint_log_prob_named_partial rootExp_wf hT _ [] rfl (by rw [hnm]; simp) (by rw [hnm, hl]; exact List.Perm.refl _)
    (by simp [draws, rootExp]), hl]
  have e1 : dict [("r", some (y (0 : Fin 1)))] "r" = some (some (y (0 : Fin 1))) := by simp [dict, List.lookup]
  have hld : Un.sqrt.ld (some 0) (some (y (0 : Fin 1))) = some (Real.log |2 * y (0 : Fin 1)|) := by
    simp [Un.ld, sqrt_dlog h, addF]
  have hpos : 0 ≤ (y (0 : Fin 1)) ^ 2 := sq_nonneg _
  simp only [Source.joint, rootExp, terms, Draw.term, Draw.given, chainCell, Link.back, e1, Option.bind_some, Option.map_some,
    hld, Un.g]
  simp [expLp, hpos, addF, sumF]

/-- `joint_log_prob` returns on every dictionary, so there is such a function `lp` as in the next theorem. -/
theorem rootExp_returns : ∃ lp : (Fin (draws rootExp.body).length → ℝ) → F,
    ∀ y res, JointLogProb rootExp (named rootExp y) [] res ↔ res = .ok (lp y) := by
  have hnm : rootExp.names = ["r"] := by simp [Source.names, rootExp, Stmt.sown]
  have hT : rootExp.NoTags := by
    intro st hst n a
    simp only [rootExp, List.mem_cons, List.not_mem_nil, or_false] at hst
    subst hst
    simp
  have : ∀ y : Fin (draws rootExp.body).length → ℝ, ∃ r, rootExp.joint (dict (named rootExp y)) [] = .ok r := by
    intro y
    have hl : named rootExp y = [("r", some (y (0 : Fin 1)))] := rfl
    have e1 : dict [("r", some (y (0 : Fin 1)))] "r" = some (some (y (0 : Fin 1))) := by simp [dict, List.lookup]
    simp only [Source.joint, rootExp, terms, Draw.term, Draw.given, chainCell, Link.back, hl, e1, Option.bind_some,
      Option.map_some]
    exact ⟨_, rfl⟩
  choose lp hlp using this
  refine ⟨lp, fun y res => ?_⟩
  have hl : named rootExp y = [("r", some (y (0 : Fin 1)))] := rfl
  rw [joint_log_prob_named_partial rootExp_wf hT _ [] rfl (by rw [hnm]; simp) (by rw [hnm, hl]; exact List.Perm.refl _)
    (by simp [draws, rootExp]), hlp]

variable [MeasurableSpace Ω]

/-- **C81** is false for `sqrt`: `joint_sample(f)` never returns a negative `r`, whatever the sampler is, but the
exponential of `joint_log_prob(f)` gives the negative values a positive mass (the inverse of `sqrt` is registered as
`square`, for negative values too). -/
theorem joint_log_prob_sqrt_wrong (P : Measure Ω) [IsProbabilityMeasure P] (samp : Draw → List F → (Key → Ω) → ℝ)
    (keyOf : ℕ → Key) (lp : (Fin (draws rootExp.body).length → ℝ) → F)
    (hlp : ∀ y res, JointLogProb rootExp (named rootExp y) [] res ↔ res = .ok (lp y)) :
    (∀ ω, 0 ≤ sampled rootExp samp keyOf [] ω (0 : Fin 1)) ∧
    (oracle P).map (sampled rootExp samp keyOf []) {y | y (0 : Fin 1) < 0} = 0 ∧
    (Measure.pi fun _ => (volume : Measure ℝ)).withDensity (fun y => dens (lp y)) {y | y (0 : Fin 1) < 0} ≠ 0 := by
  have hpos : ∀ ω, 0 ≤ sampled rootExp samp keyOf [] ω (0 : Fin 1) := by
    intro ω
    simp only [sampled, jointSample, rootExp, pushes, Link.map, Un.fr, Un.f]
    split_ifs <;> simp [Real.sqrt_nonneg]
  have hset : MeasurableSet {y : Fin (draws rootExp.body).length → ℝ | y (0 : Fin 1) < 0} :=
    measurableSet_lt (measurable_pi_apply _) measurable_const
  refine ⟨hpos, ?_, ?_⟩
  · by_cases hm : AEMeasurable (sampled rootExp samp keyOf []) (oracle P)
    · rw [Measure.map_apply_of_aemeasurable hm hset]
      have : sampled rootExp samp keyOf [] ⁻¹' {y | y (0 : Fin 1) < 0} = ∅ := by
        ext ω
        simpa using hpos ω
      rw [this, measure_empty]
    · rw [Measure.map_of_not_aemeasurable hm]
      rfl
  · rw [withDensity_apply _ hset]
    have he : ∀ y : Fin (draws rootExp.body).length → ℝ, y (0 : Fin 1) < 0 → dens (lp y) =
        ENNReal.ofReal (Real.exp (-(y (0 : Fin 1)) ^ 2 + Real.log |2 * y (0 : Fin 1)|)) := by
      intro y hy
      have := (hlp y _).1 (rootExp_value y hy.ne)
      simp only [Except.ok.injEq] at this
      rw [← this]
      rfl
    rw [setLIntegral_congr_fun hset he]
    intro h0
    have hmeas : Measurable fun y : Fin (draws rootExp.body).length → ℝ =>
        ENNReal.ofReal (Real.exp (-(y (0 : Fin 1)) ^ 2 + Real.log |2 * y (0 : Fin 1)|)) := by
      have hy : Measurable fun y : Fin (draws rootExp.body).length → ℝ => y (0 : Fin 1) := measurable_pi_apply _
      have habs : Measurable fun y : Fin (draws rootExp.body).length → ℝ => |2 * y (0 : Fin 1)| :=
        continuous_abs.measurable.comp (hy.const_mul 2)
      exact (Real.measurable_exp.comp ((hy.pow_const 2).neg.add (Real.measurable_log.comp habs))).ennreal_ofReal
    rw [lintegral_eq_zero_iff hmeas] at h0
    have hvol : (Measure.pi fun _ => (volume : Measure ℝ)) {y : Fin (draws rootExp.body).length → ℝ | y (0 : Fin 1) < 0} = 0 := by
      rw [Filter.EventuallyEq, ae_restrict_iff' hset, ae_iff] at h0
      refine measure_mono_null (fun y hy => ?_) h0
      simp only [Set.mem_ofPred_eq, Pi.zero_apply, ENNReal.ofReal_eq_zero] at hy ⊢
      intro hc
      exact absurd (hc hy) (not_le.2 (Real.exp_pos _))
    have : {y : Fin (draws rootExp.body).length → ℝ | y (0 : Fin 1) < 0} = Set.pi Set.univ fun _ => Set.Iio 0 := by
      ext y
      simp only [Set.mem_ofPred_eq, Set.mem_pi, Set.mem_univ, Set.mem_Iio, true_imp_iff]
      refine ⟨fun h i => ?_, fun h => h _⟩
      have : i = (0 : Fin 1) := Subsingleton.elim (α := Fin 1) _ _
      rw [this]; exact h
    rw [this, Measure.pi_pi] at hvol
    simp at hvol

end Verif.LogProb.Joint
