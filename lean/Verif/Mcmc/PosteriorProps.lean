import Verif.Mcmc.Posterior

/-! C87: the kernels of `mcmc` with `joint_log_prob` sample from the posterior distribution. -/
namespace Verif.Mcmc.Keyed

open Verif.LogProb.Joint Verif.Plate Verif.Inverse Verif.Mcmc.Spec Verif.Mcmc.Bayes MeasureTheory ProbabilityTheory
open scoped ENNReal

variable {Ω : Type} [MeasurableSpace Ω]

theorem sampled_measurable (P : Measure Ω) [IsProbabilityMeasure P] (S : Source)
    (samp : Draw → List F → (Key → Ω) → ℝ) (keyOf : ℕ → Key) (args : List ℝ) (hT : S.NoTags)
    (hnm : ∀ D ∈ draws S.body, D.name ≠ none) (hs : ∀ st ∈ S.body, st.Sampled (oracle P) samp) :
    Measurable (sampled S samp keyOf args) := by
  have hm : Measurable (vec samp S.body (startVal S args)) :=
    vec_measurable (oracle P) samp S.body hs (fun _ => startVal S args) (fun w => w) measurable_const measurable_id
  have e : sampled S samp keyOf args
      = vec samp S.body (startVal S args) ∘ fun ω i q => ω (q ++ keyOf ((draws S.body).get i).keyVar) := by
    funext ω i
    have := (jointSample_vec samp keyOf ω S.body hT hnm (startVal S args)).1
    simp only [sampled, this, Function.comp_apply]
    simp
  rw [e]
  exact hm.comp (by fun_prop)

theorem stationary_smul {Ω' S : Type} [MeasurableSpace Ω'] [MeasurableSpace S] (P : Measure Ω') (step : Ω' → S → S)
    (π : Measure S) (c : ℝ≥0∞) (h : Stationary P step π) : Stationary P step (c • π) := by
  intro B hB
  rw [lintegral_smul_measure, h B hB, Measure.smul_apply]

/-- **C87.** Bayesian inference with `joint_log_prob` and the kernels of `mcmc`.  `f` is a program whose random variables are
named, with the hypotheses of C81; the names are divided by `e` into observations and components of the state of
the chain, a pytree of arrays.  Let `x` be observed values.  Then each state that
`sample_chain(kernel(lambda latents: joint_log_prob(f)({**x, **latents}, *args)), n)(key, state)` returns has the conditional
distribution of the latents of `f(key, *args)` given that the observations are `x`, if the initial state has it: for `metropolis` with
`random_walk`, for `hmc` and for `mala`, for every key, number of steps, scale, step size, and almost all `x`.

Missing: as in C81. -/
theorem posterior_chain_partial (P : Measure Ω) [IsProbabilityMeasure P] (S : Source)
    (samp : Draw → List F → (Key → Ω) → ℝ) (keyOf : ℕ → Key) (args : List ℝ) (h : S.WF) (hT : S.NoTags)
    (hn : S.names.Nodup) (hd : Determined S.args S.body) (hl : S.Local) (hk : S.KeysApart keyOf)
    (htot : ∀ st ∈ S.body, st.Total) (hs : ∀ st ∈ S.body, st.Sampled (oracle P) samp)
    (ha : args.length = S.args.length)
    {O : Type} [Fintype O] {l : ℕ} (dims : Fin l → ℕ)
    (e : O ⊕ (Σ i : Fin l, Fin (dims i)) ≃ Fin (draws S.body).length)
    {Ω' C : Type} [MeasurableSpace Ω'] (P' : Measure Ω') [IsProbabilityMeasure P'] (smp : Samplers Ω') (hs' : Exact P' smp) :
    ∃ lp : (Fin (draws S.body).length → ℝ) → F,
      (∀ y res, JointLogProb S (named S y) (args.map some) res ↔ res = .ok (lp y)) ∧
      ∀ᵐ x ∂(oracle P).map fun ω o => sampled S samp keyOf args ω (e (.inl o)),
        ∀ (n : ℕ) (callbacks : List (Unit → Tree dims → C)) (key : Key) (i : ℕ), i < n →
          (∀ scale : ℝ, Stationary (oracle P')
            (fun ω s => nth (sampleChain (metropolis smp (posteriorLogProb e lp x) (randomWalk smp scale)) n callbacks ω key s) i s)
            (condDistrib (fun ω j => sampled S samp keyOf args ω (e (.inr j)))
              (fun ω o => sampled S samp keyOf args ω (e (.inl o))) (oracle P) x)) ∧
          (∀ grad : Tree dims → Tree dims, Measurable grad → ∀ (numSteps : ℕ) (stepSize : ℝ), Stationary (oracle P')
            (fun ω s => nth (sampleChain (hmc smp (posteriorLogProb e lp x) grad numSteps stepSize) n callbacks ω key s) i s)
            (condDistrib (fun ω j => sampled S samp keyOf args ω (e (.inr j)))
              (fun ω o => sampled S samp keyOf args ω (e (.inl o))) (oracle P) x)) ∧
          (∀ grad : Tree dims → Tree dims, Measurable grad → ∀ stepSize : ℝ, Stationary (oracle P')
            (fun ω s => nth (sampleChain (mala smp (posteriorLogProb e lp x) grad stepSize) n callbacks ω key s) i s)
            (condDistrib (fun ω j => sampled S samp keyOf args ω (e (.inr j)))
              (fun ω o => sampled S samp keyOf args ω (e (.inl o))) (oracle P) x)) := by
  obtain ⟨lp, hlp, hm, hlaw⟩ := joint_density_fun P S samp keyOf args h hT hn hd hl hk htot hs ha
  refine ⟨lp, hlp, ?_⟩
  have hnm := determined_named S.body S.args hd
  have hsm := sampled_measurable P S samp keyOf args hT hnm hs
  rw [← volume_pi] at hlaw
  have hprob : IsProbabilityMeasure ((volume : Measure (Fin (draws S.body).length → ℝ)).withDensity fun y => dens (lp y)) := by
    rw [← hlaw]
    exact Measure.isProbabilityMeasure_map hsm.aemeasurable
  obtain ⟨post, hmk, h1, h2⟩ := exists_posterior e (fun y => dens (lp y)) hm
  rw [← hlaw] at h1 h2
  have ho : Measurable fun (y : Fin (draws S.body).length → ℝ) (o : O) => y (e (.inl o)) := by fun_prop
  rw [Measure.map_map (measurable_parts e) hsm, Measure.map_map ho hsm] at h1
  rw [Measure.map_map ho hsm] at h2
  have hcond := condDistrib_ae_eq_of_measure_eq_compProd (μ := oracle P)
    (fun ω o => sampled S samp keyOf args ω (e (.inl o)))
    (Y := fun ω j => sampled S samp keyOf args ω (e (.inr j)))
    (by
      refine (measurable_pi_lambda _ fun j => ?_).aemeasurable
      exact (measurable_pi_apply (e (.inr j))).comp hsm) (κ := post) h1
  filter_upwards [hcond, h2] with x hx hpost n callbacks key i hi
  rw [hx]
  obtain ⟨c, hc⟩ := hpost
  rw [hc]
  have hmeas : Measurable (posteriorLogProb e lp x) := by
    have : (posteriorLogProb e lp x) = fun z => ENNReal.log (dens (lp (merge e x z))) := funext fun z => toE_dens _
    rw [this]
    have hz : Measurable fun z : Tree dims => merge e x z :=
      (measurable_merge e).comp (by fun_prop : Measurable fun z : Tree dims => (x, z))
    exact ENNReal.measurable_log.comp (hm.comp hz)
  have htop : ∀ z, posteriorLogProb e lp x z ≠ ⊤ := fun z => toE_ne_top _
  have htarget : (volume : Measure (Tree dims)).withDensity (fun z => dens (lp (merge e x z)))
      = target volume (posteriorLogProb e lp x) := by
    unfold target posteriorLogProb
    simp only [exp_toE]
  rw [htarget]
  refine ⟨fun scale => stationary_smul _ _ _ c ?_, fun grad hg numSteps stepSize => stationary_smul _ _ _ c ?_,
    fun grad hg stepSize => stationary_smul _ _ _ c ?_⟩
  · exact random_walk_chain_samples_target dims P' smp hs' scale _ hmeas htop n callbacks key i hi
  · exact hmc_chain_samples_target dims P' smp hs' _ hmeas htop grad hg numSteps stepSize n callbacks key i hi
  · exact mala_chain_samples_target dims P' smp hs' _ hmeas htop grad hg stepSize n callbacks key i hi

end Verif.Mcmc.Keyed
