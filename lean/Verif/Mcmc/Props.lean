import Verif.Mcmc.RandomWalk
import Verif.Mcmc.Chain

/-!
# Properties C37, C38, C50, C51, C52: MCMC
-/

namespace Verif.Mcmc

open MeasureTheory ProbabilityTheory Spec
open scoped ENNReal

variable {Ω S : Type*} [MeasurableSpace Ω] [MeasurableSpace S]

/-! ### C37 -/

/-- **C37 (metropolis).** For every measurable state space, σ-finite reference measure, finite
measurable log density and symmetric proposal, `metropolis` satisfies detailed balance for the
target density, and so leaves it stationary. -/
theorem metropolis_detailed_balance (P : Measure Ω) [IsProbabilityMeasure P] (μ : Measure S)
    [SigmaFinite μ] (logp : S → EReal) (hlogp : Measurable logp) (hfin : ∀ x, logp x ≠ ⊤)
    (inner : Ω → S → S) (hinner : Measurable (Function.uncurry inner))
    (hsym : SymmetricProposal P inner μ) :
    DetailedBalance (P.prod uniform) (metropolis logp inner) (target μ logp) ∧
      Stationary (P.prod uniform) (metropolis logp inner) (target μ logp) :=
  have h := metropolis_balance P μ logp hlogp hfin inner hinner hsym
  ⟨h, stationary_of_detailedBalance h⟩

/-- **C37 (metropolis with random_walk).** The Gaussian random walk is a symmetric proposal on
the pytrees of real arrays (coordinates `ι`) for every scale, so `metropolis(logp, random_walk(scale))` leaves every target stationary. -/
theorem metropolis_random_walk_detailed_balance (ι : Type*) [Fintype ι] (scale : ℝ)
    (logp : (ι → ℝ) → EReal) (hlogp : Measurable logp) (hfin : ∀ x, logp x ≠ ⊤) :
    DetailedBalance ((stdNormal ι).prod uniform) (metropolis logp (randomWalk scale))
        (target volume logp) ∧
      Stationary ((stdNormal ι).prod uniform) (metropolis logp (randomWalk scale))
        (target volume logp) :=
  metropolis_detailed_balance _ _ logp hlogp hfin _ (measurable_randomWalk ι scale)
    (randomWalk_symmetric ι scale)

/-- **C37 (metropolis_hastings), partial.** `metropolis_hastings` satisfies detailed balance when
the proposal density is symmetric. Missing: asymmetric proposals, for which the property is false
of the code (`metropolisHastings_asymmetric_fails`). -/
theorem metropolisHastings_detailed_balance_partial (P : Measure Ω) [IsProbabilityMeasure P]
    (μ : Measure S) [SigmaFinite μ] (logp : S → EReal) (hlogp : Measurable logp)
    (hfin : ∀ x, logp x ≠ ⊤) (inner : Ω → S → S) (hinner : Measurable (Function.uncurry inner))
    (logq : S → S → EReal) (hlogq : Measurable (Function.uncurry logq))
    (hqfin : ∀ y x, logq y x ≠ ⊤) (hdens : HasLogDensity P inner μ logq)
    (hsym : ∀ x y, logq y x = logq x y) :
    DetailedBalance (P.prod uniform) (metropolisHastings logp inner logq) (target μ logp) ∧
      Stationary (P.prod uniform) (metropolisHastings logp inner logq) (target μ logp) :=
  have h := metropolisHastings_balance_symm P μ logp hlogp hfin inner hinner logq hlogq hqfin hdens
    hsym
  ⟨h, stationary_of_detailedBalance h⟩

/-- The hypotheses of the partial theorem are met by the random walk (the proposal the tests use),
for every nonzero scale and every target. -/
theorem metropolisHastings_random_walk_detailed_balance (ι : Type*) [Fintype ι] (scale : ℝ) (hs : scale ≠ 0)
    (logp : (ι → ℝ) → EReal) (hlogp : Measurable logp) (hfin : ∀ x, logp x ≠ ⊤) :
    DetailedBalance ((stdNormal ι).prod uniform)
        (metropolisHastings logp (randomWalk scale) (randomWalkLogProb scale))
        (target volume logp) ∧
      Stationary ((stdNormal ι).prod uniform)
        (metropolisHastings logp (randomWalk scale) (randomWalkLogProb scale))
        (target volume logp) :=
  metropolisHastings_detailed_balance_partial _ _ logp hlogp hfin _ (measurable_randomWalk ι scale)
    _ (measurable_randomWalkLogProb ι scale) (fun _ _ => EReal.coe_ne_top _)
    (randomWalk_density ι scale hs) (randomWalkLogProb_symm scale)

/-- **C37 (metropolis_hastings), the code's defect.** There are a proposal with the right
`log_prob` and a target for which the code's kernel does not leave the target stationary: the
proposal ratio at `kernels.py:121-128` is inverted. -/
theorem metropolisHastings_asymmetric_fails :
    ∃ (P : Measure Bool) (_ : IsProbabilityMeasure P) (inner : Bool → Bool → Bool)
      (logq : Bool → Bool → EReal) (logp : Bool → EReal),
      HasLogDensity P inner Measure.count logq ∧ (∀ x, logp x ≠ ⊤) ∧ (∀ y x, logq y x ≠ ⊤) ∧
      ¬ Stationary (P.prod uniform) (metropolisHastings logp inner logq)
        (target Measure.count logp) := by
  refine ⟨fairCoin, fairCoin_prob, lopsided, lopsidedLogProb, fun _ => 0, lopsided_density,
    fun _ => EReal.zero_ne_top, ?_, lopsided_not_stationary⟩
  intro y x
  have h2 : ENNReal.log 2⁻¹ ≠ ⊤ := by simp
  cases x <;> cases y <;> simp [lopsidedLogProb, h2]

/-- **C37 (metropolis_hastings), the repair.** With the two calls of `log_prob` exchanged, detailed
balance holds for every proposal with a density, symmetric or not. -/
theorem metropolisHastings_swapped_detailed_balance (P : Measure Ω) [IsProbabilityMeasure P]
    (μ : Measure S) [SigmaFinite μ] (logp : S → EReal) (hlogp : Measurable logp)
    (hfin : ∀ x, logp x ≠ ⊤) (inner : Ω → S → S) (hinner : Measurable (Function.uncurry inner))
    (logq : S → S → EReal) (hlogq : Measurable (Function.uncurry logq))
    (hqfin : ∀ y x, logq y x ≠ ⊤) (hdens : HasLogDensity P inner μ logq) :
    DetailedBalance (P.prod uniform)
        (metropolisHastings logp inner (fun sample given => logq given sample)) (target μ logp) ∧
      Stationary (P.prod uniform)
        (metropolisHastings logp inner (fun sample given => logq given sample)) (target μ logp) :=
  have h := metropolisHastingsCorrected_balance P μ logp hlogp hfin inner hinner logq hlogq hqfin
    hdens
  ⟨h, stationary_of_detailedBalance h⟩

/-- The acceptance probability of both kernels is `min(1, exp(log ratio))`, for every log ratio
including `±∞`, and a rejected proposal leaves the state unchanged. -/
theorem acceptance_probability (logRatio : EReal) (next state : S) (hne : next ≠ state) :
    uniform {u | acceptReject logRatio u next state = next} = min 1 logRatio.exp ∧
      ∀ u, acceptReject logRatio u next state = next ∨ acceptReject logRatio u next state = state := by
  constructor
  · have := uniform_acceptReject logRatio next state {next}
    simpa [Set.indicator_of_notMem (show state ∉ ({next} : Set S) from fun h => hne h.symm)]
      using this
  · intro u
    unfold acceptReject
    split_ifs
    · exact Or.inl rfl
    · exact Or.inr rfl

/-- **C37 (metropolis, transition probabilities).** From every state, `metropolis` moves to the proposal with
probability `min(1, p(next) / p(state))` and stays otherwise. -/
theorem metropolis_transition (P : Measure Ω) [IsProbabilityMeasure P] (logp : S → EReal) (hlogp : Measurable logp)
    (inner : Ω → S → S) (hinner : Measurable (Function.uncurry inner)) (x : S) (B : Set S) (hB : MeasurableSet B) :
    (P.prod uniform) {k | metropolis logp inner k x ∈ B}
      = acceptLaw P (fun ω => inner ω x) (fun ω => logp (inner ω x) - logp x) x B := by
  have hi : Measurable fun ω => inner ω x := hinner.comp (measurable_id.prodMk measurable_const)
  have hsub : Measurable fun z : EReal × EReal => z.1 - z.2 := by
    simp only [sub_eq_add_neg]
    fun_prop
  exact acceptReject_law P hi (hsub.comp ((hlogp.comp hi).prodMk measurable_const)) x hB

/-- **C37 (metropolis_hastings with random_walk).** For the random walk, whose density is symmetric,
`metropolis_hastings` does what `metropolis` does, with the same randomness. -/
theorem metropolisHastings_random_walk_eq {ι : Type*} [Fintype ι] (scale : ℝ) (logp : (ι → ℝ) → EReal)
    (key : (ι → ℝ) × ℝ) (x : ι → ℝ) :
    metropolisHastings logp (randomWalk scale) (randomWalkLogProb scale) key x
      = metropolis logp (randomWalk scale) key x := by
  have hc : ∀ (a b : EReal) (r : ℝ), a + (r : EReal) - b - (r : EReal) = a - b := by
    intro a b r
    induction a with
    | bot => simp
    | top =>
      induction b with
      | bot => simp
      | top => simp
      | coe b => simp [← EReal.coe_add, ← EReal.coe_sub]
    | coe a =>
      induction b with
      | bot => simp
      | top => simp
      | coe b =>
        norm_cast
        ring
  unfold metropolisHastings metropolis
  simp only
  rw [randomWalkLogProb_symm scale x (randomWalk scale key.1 x)]
  congr 1
  exact hc _ _ _

/-! ### C38 -/

/-- **C38.** Integrating `n` leapfrog steps, flipping the momentum and integrating `n` steps again
returns to the start with the momentum flipped: for every gradient function, step size (also
negative), number of steps and state. -/
theorem leapfrog_reversible {V : Type*} [AddCommGroup V] [Module ℝ V] (grad : V → V)
    (stepSize : ℝ) (n : Nat) (x m x' m' : V)
    (h : leapfrogs grad stepSize n (x, m) = (x', m')) :
    leapfrogs grad stepSize n (x', -m') = (x, -m) := by
  have := leapfrogs_flip grad stepSize n (x, m)
  rw [h] at this
  exact this

/-- **C38 (volume).** The integrator preserves Lebesgue measure on phase space, so the Metropolis
correction needs no Jacobian. -/
theorem leapfrog_volume_preserving {ι : Type*} [Fintype ι] (grad : (ι → ℝ) → (ι → ℝ))
    (hg : Measurable grad) (stepSize : ℝ) (n : Nat) :
    MeasurePreserving (leapfrogs grad stepSize n) (volume : Measure ((ι → ℝ) × (ι → ℝ)))
      volume :=
  leapfrogs_preserving grad hg stepSize n

/-- A nontrivial case: a harmonic oscillator, one step of size `1`, from `(1, 0)`. -/
example : leapfrogs (fun x : ℝ => -x) 1 1 (1, 0) = (0.5, -0.75) ∧
    leapfrogs (fun x : ℝ => -x) 1 1 (0.5, 0.75) = (1, -0) := by
  constructor <;> simp only [leapfrogs, leapfrog, smul_eq_mul] <;> norm_num

/-! ### C50 -/

/-- **C50 (hmc).** `hmc` satisfies detailed balance for its target and leaves it stationary: in any
dimension, for any number of leapfrog steps, step size, finite measurable log density, and whatever
(measurable) vector field is used as the gradient. The proposal of the inner `metropolis` is not
symmetric (the momentum is not flipped); the marginal on the state is. -/
theorem hmc_detailed_balance (ι : Type*) [Fintype ι] (logp : (ι → ℝ) → EReal) (hlogp : Measurable logp)
    (hfin : ∀ x, logp x ≠ ⊤) (grad : (ι → ℝ) → (ι → ℝ)) (hg : Measurable grad)
    (numSteps : Nat) (stepSize : ℝ) :
    DetailedBalance ((stdNormal ι).prod uniform) (hmc logp grad numSteps stepSize)
        (target volume logp) ∧
      Stationary ((stdNormal ι).prod uniform) (hmc logp grad numSteps stepSize)
        (target volume logp) :=
  have h := hmc_balance_aux logp hlogp hfin grad hg numSteps stepSize
  ⟨h, stationary_of_detailedBalance h⟩

/-- **C50 (hmc, transition probabilities).** From every state `x`, with Gaussian momentum `m`, `hmc` moves to the end of
the leapfrog trajectory with probability `min(1, exp(H(end) - H(x, m)))`, where `H` is the log density of the state
plus that of the momentum, and stays otherwise. -/
theorem hmc_transition (ι : Type*) [Fintype ι] (logp : (ι → ℝ) → EReal) (hlogp : Measurable logp)
    (grad : (ι → ℝ) → (ι → ℝ)) (hg : Measurable grad) (numSteps : Nat) (stepSize : ℝ) (x : ι → ℝ) (B : Set (ι → ℝ))
    (hB : MeasurableSet B) :
    ((stdNormal ι).prod uniform) {k | hmc logp grad numSteps stepSize k x ∈ B}
      = acceptLaw (stdNormal ι) (fun m => (leapfrogs grad stepSize numSteps (x, m)).1)
          (fun m => logp (leapfrogs grad stepSize numSteps (x, m)).1
            + ((momentumLogProb (leapfrogs grad stepSize numSteps (x, m)).2 : ℝ) : EReal)
            - (logp x + (momentumLogProb m : EReal))) x B := by
  have hT : Measurable fun m => leapfrogs grad stepSize numSteps (x, m) :=
    (leapfrogs_preserving grad hg stepSize numSteps).measurable.comp (measurable_const.prodMk measurable_id)
  have hmom : Measurable fun m : ι → ℝ => (momentumLogProb m : EReal) :=
    measurable_coe_real_ereal.comp measurable_momentumLogProb
  have hsub : Measurable fun z : EReal × EReal => z.1 - z.2 := by
    simp only [sub_eq_add_neg]
    fun_prop
  have hadd : Measurable fun z : EReal × EReal => z.1 + z.2 := by fun_prop
  have h1 : Measurable fun m => logp (leapfrogs grad stepSize numSteps (x, m)).1
      + ((momentumLogProb (leapfrogs grad stepSize numSteps (x, m)).2 : ℝ) : EReal) :=
    hadd.comp ((hlogp.comp (measurable_fst.comp hT)).prodMk (hmom.comp (measurable_snd.comp hT)))
  have h2 : Measurable fun m : ι → ℝ => logp x + (momentumLogProb m : EReal) :=
    hadd.comp (measurable_const.prodMk hmom)
  refine Eq.trans ?_ (acceptReject_law (stdNormal ι) (measurable_fst.comp hT) (hsub.comp (h1.prodMk h2)) x hB)
  congr 1
  ext k
  exact iff_of_eq (congrArg (· ∈ B) (acceptReject_fst _ _ _ _))

/-- **C50 (mala).** -/
theorem mala_detailed_balance (ι : Type*) [Fintype ι] (logp : (ι → ℝ) → EReal) (hlogp : Measurable logp)
    (hfin : ∀ x, logp x ≠ ⊤) (grad : (ι → ℝ) → (ι → ℝ)) (hg : Measurable grad)
    (stepSize : ℝ) :
    DetailedBalance ((stdNormal ι).prod uniform) (mala logp grad stepSize)
        (target volume logp) ∧
      Stationary ((stdNormal ι).prod uniform) (mala logp grad stepSize)
        (target volume logp) :=
  hmc_detailed_balance ι logp hlogp hfin grad hg 1 stepSize

/-- **C50 (mala is Langevin).** With momentum `m`, a step of `mala` from `x` either stays at `x` or moves to the
Langevin proposal `x + ε²/2 ∇ log p(x) + ε m`. -/
theorem mala_langevin {ι : Type*} [Fintype ι] (logp : (ι → ℝ) → EReal) (grad : (ι → ℝ) → (ι → ℝ)) (ε : ℝ)
    (m : ι → ℝ) (u : ℝ) (x : ι → ℝ) :
    mala logp grad ε (m, u) x = x ∨
      mala logp grad ε (m, u) x = x + (ε ^ 2 / 2) • grad x + ε • m := by
  have h : mala logp grad ε (m, u) x = acceptReject
      (logp (leapfrogs grad ε 1 (x, m)).1 + (momentumLogProb (leapfrogs grad ε 1 (x, m)).2 : EReal)
        - (logp x + (momentumLogProb m : EReal))) u (leapfrogs grad ε 1 (x, m)).1 x :=
    acceptReject_fst _ _ _ _
  have hp : (leapfrogs grad ε 1 (x, m)).1 = x + (ε ^ 2 / 2) • grad x + ε • m := by
    funext i
    simp only [leapfrogs, leapfrog, Pi.add_apply, Pi.smul_apply, smul_eq_mul]
    ring
  rw [h, hp]
  unfold acceptReject
  split_ifs
  · exact Or.inr rfl
  · exact Or.inl rfl

/-- A target meeting the hypotheses: the density that is `exp 0 = 1` on the unit cube and zero
elsewhere, with the (measurable) zero gradient. -/
example : Measurable (fun x : Fin 2 → ℝ => if ∀ i, x i ∈ Set.Icc (0 : ℝ) 1 then (0 : EReal) else ⊥)
    ∧ ∀ x : Fin 2 → ℝ, (if ∀ i, x i ∈ Set.Icc (0 : ℝ) 1 then (0 : EReal) else ⊥) ≠ ⊤ := by
  constructor
  · refine Measurable.ite ?_ measurable_const measurable_const
    have : {x : Fin 2 → ℝ | ∀ i, x i ∈ Set.Icc (0 : ℝ) 1}
        = Set.pi Set.univ fun _ => Set.Icc (0 : ℝ) 1 := by
      ext x; exact Set.mem_univ_pi.symm
    rw [this]
    exact MeasurableSet.univ_pi fun _ => measurableSet_Icc
  · intro x; split_ifs <;> simp

/-! ### C51 -/

/-- **C51 (what sample_chain computes).** With `n` keys, `sample_chain` runs the kernel exactly `n`
times, threading both the chain state and the kernel's own variables, returns the `n` states after
each step in order and leaves the kernel's final variables assigned; the callbacks have no
effect on any of it. -/
theorem sample_chain_spec {Key M C : Type*} {S : Type*} (callAndUpdate : M → Key → S → S × M)
    (callbacks : List (M → S → C)) (keys : List Key) (kernel : M) (state : S) :
    ∃ (kernels : Nat → M) (states : Nat → S), kernels 0 = kernel ∧ states 0 = state ∧
      (∀ i (h : i < keys.length),
        callAndUpdate (kernels i) keys[i] (states i) = (states (i + 1), kernels (i + 1))) ∧
      (sampleChain callAndUpdate callbacks (kernel, state) keys).1.1 = kernels keys.length ∧
      (sampleChain callAndUpdate callbacks (kernel, state) keys).2
        = (List.range keys.length).map fun i => states (i + 1) := by
  obtain ⟨traj, h0, hs, hf, hl⟩ :=
    sampleChain_trajectory callAndUpdate callbacks keys (kernel, state)
  refine ⟨fun i => (traj i).1, fun i => (traj i).2, by simp [h0], by simp [h0], ?_, by rw [hf], hl⟩
  intro i h
  simp [hs i h]

/-- **C51 (resuming).** Running `n + m` steps is running `n` steps and then `m` more from the
kernel and state reached. -/
theorem sample_chain_resume {Key M C : Type*} {S : Type*} (callAndUpdate : M → Key → S → S × M)
    (callbacks : List (M → S → C)) (keys₁ keys₂ : List Key) (init mid final : M × S)
    (states₁ states₂ : List S)
    (h₁ : sampleChain callAndUpdate callbacks init keys₁ = (mid, states₁))
    (h₂ : sampleChain callAndUpdate callbacks mid keys₂ = (final, states₂)) :
    sampleChain callAndUpdate callbacks init (keys₁ ++ keys₂) = (final, states₁ ++ states₂) := by
  rw [sampleChain_append, h₁]
  simp only [h₂]

/-- **C51 (distribution).** If the kernel leaves `π` stationary then, with independent keys, every
state of a chain started from `π` is distributed as `π`: after any number of steps. -/
theorem sample_chain_stationary (P : Measure Ω) [IsProbabilityMeasure P] (π : Measure S)
    [SFinite π] (step : Ω → S → S) (hstep : Measurable (Function.uncurry step))
    (h : Stationary P step π) (n : Nat) :
    Stationary (Measure.pi fun _ : Fin n => P)
      (fun keys s => (sampleChain (C := Unit) (fun (_ : Unit) ω s => (step ω s, ())) [] ((), s)
        (List.ofFn keys)).1.2) π :=
  lastState_stationary hstep h n

example : sampleChain (C := Nat) (fun k (key : Nat) s => (s + key * k, k + 1)) [fun k s => k + s]
    (1, 0) [5, 7, 9] = ((4, 46), [5, 19, 46]) := by decide

/-! ### C52 -/

/-- **C52.** If `ildj` is the log absolute Jacobian determinant of the inverse, sampling the
unconstrained variable from `constrain(f)(logp)` and mapping it through `f` gives the target
restricted to the range of `f`: for every injective differentiable map with nonzero Jacobian. -/
theorem constrain_pushforward {E : Type*} [NormedAddCommGroup E] [NormedSpace ℝ E]
    [FiniteDimensional ℝ E] [MeasurableSpace E] [BorelSpace E] (μ : Measure E)
    [μ.IsAddHaarMeasure] (f : E → E) (f' : E → E →L[ℝ] E)
    (hf : ∀ x, HasFDerivAt f (f' x) x) (hinj : Function.Injective f)
    (hdet : ∀ x, (f' x).det ≠ 0) (ildj : E → E → EReal)
    (hildj : ∀ x, ildj x (f x) = ((-Real.log |(f' x).det| : ℝ) : EReal))
    (logp : E → EReal) (hlogp : Measurable logp) :
    (target μ (constrain f ildj logp)).map f = (target μ logp).restrict (Set.range f) :=
  constrain_pushforward_aux μ f f' hf hinj hdet ildj hildj logp hlogp

/-- A case that meets the hypotheses: scaling `ℝ` by `2`, whose inverse has log Jacobian
`-log 2`. -/
example : (target volume (constrain (fun x : ℝ => (2 : ℝ) • x)
      (fun _ _ => ((-Real.log 2 : ℝ) : EReal)) (fun _ => 0))).map (fun x : ℝ => (2 : ℝ) • x)
    = (target volume (fun _ : ℝ => 0)).restrict (Set.range fun x : ℝ => (2 : ℝ) • x) := by
  have hd : ((2 : ℝ) • ContinuousLinearMap.id ℝ ℝ).det = 2 := by
    simp [ContinuousLinearMap.det]
  refine constrain_pushforward volume _ (fun _ => (2 : ℝ) • ContinuousLinearMap.id ℝ ℝ) ?_ ?_ ?_ _
    ?_ _ measurable_const
  · intro x
    exact (hasFDerivAt_id x).const_smul (2 : ℝ)
  · intro a b h
    simpa using h
  · intro x; rw [hd]; norm_num
  · intro x; rw [hd]; norm_num

end Verif.Mcmc
