import Verif.Mcmc.KeyedLemmas

/-!
# Property C84: the kernels never use a PRNG key twice

`oracle P` is an ideal generator: the randomness of different keys is independent, each with distribution `P`.
`Exact P smp`: with the randomness of one key, the samplers return standard normal numbers and a uniform number.
-/

namespace Verif.Mcmc.Keyed

open MeasureTheory ProbabilityTheory Spec
open Verif.Plate (Key oracle splitKeys)
open scoped ENNReal

variable {Ω S : Type} [MeasurableSpace Ω]

/-! ### One step -/

/-- **C84 (random_walk).** With any key, `random_walk(scale)(key, state)` is an independent
`Normal(state, scale)` for every element of every leaf: no two leaves share a key. -/
theorem random_walk_keyed_law {l : ℕ} (dims : Fin l → ℕ) (P : Measure Ω) [IsProbabilityMeasure P] (smp : Samplers Ω)
    (hs : Exact P smp) (scale : ℝ) (key : Key) (state : Tree dims) :
    (oracle P).map (fun ω => randomWalk smp scale ω key state)
      = Measure.pi fun c => gaussianReal (state c) (scale ^ 2).toNNReal :=
  ((randomWalk_law _ scale state).comp (momentum_law dims hs key)).map_eq

/-- **C84 (metropolis).** For every proposal program that draws only from its key and is symmetric with an ideal
generator, the step with any key satisfies detailed balance for the target and leaves it stationary: the key of the
accept decision is independent of those of the proposal. -/
theorem metropolis_keyed_balance [MeasurableSpace S] (P : Measure Ω) [IsProbabilityMeasure P] (smp : Samplers Ω)
    (hs : Exact P smp) (μ : Measure S) [SigmaFinite μ] (logp : S → EReal) (hlogp : Measurable logp)
    (hfin : ∀ x, logp x ≠ ⊤) (inner : Program Ω S) (hin : DrawsFromKey inner)
    (hmeas : Measurable fun z : (Key → Ω) × S => inner z.1 [] z.2)
    (hsym : SymmetricProposal (oracle P) (fun ω s => inner ω [] s) μ) (key : Key) :
    DetailedBalance (oracle P) (fun ω s => metropolis smp logp inner ω key s) (target μ logp) ∧
      Stationary (oracle P) (fun ω s => metropolis smp logp inner ω key s) (target μ logp) := by
  have h := metropolis_balance (oracle P) μ logp hlogp hfin (fun ω s => inner ω [] s) hmeas hsym
  have hb := pull_balance (accept_law hs key) (measurable_metropolis hlogp (inner := fun ω s => inner ω [] s) hmeas) h
  have e : (fun ω s => metropolis smp logp inner ω key s) = _ :=
    funext fun ω => funext fun s => metropolis_split smp logp inner hin ω key s
  rw [← e] at hb
  exact ⟨hb, stationary_of_detailedBalance hb⟩

/-- The random walk, read with any key, is a symmetric proposal. -/
theorem random_walk_keyed_symmetric {l : ℕ} (dims : Fin l → ℕ) (P : Measure Ω) [IsProbabilityMeasure P]
    (smp : Samplers Ω) (hs : Exact P smp) (scale : ℝ) (key : Key) :
    SymmetricProposal (oracle P) (fun ω (s : Tree dims) => randomWalk smp scale ω key s) volume :=
  pull_symmetric (momentum_law dims hs key) (measurable_randomWalk _ scale) (randomWalk_symmetric _ scale)

/-- **C84 (metropolis with random_walk).** -/
theorem metropolis_random_walk_keyed_balance {l : ℕ} (dims : Fin l → ℕ) (P : Measure Ω) [IsProbabilityMeasure P]
    (smp : Samplers Ω) (hs : Exact P smp) (scale : ℝ) (logp : Tree dims → EReal) (hlogp : Measurable logp)
    (hfin : ∀ x, logp x ≠ ⊤) (key : Key) :
    DetailedBalance (oracle P) (fun ω s => metropolis smp logp (randomWalk smp scale) ω key s)
        (target volume logp) ∧
      Stationary (oracle P) (fun ω s => metropolis smp logp (randomWalk smp scale) ω key s)
        (target volume logp) :=
  metropolis_keyed_balance P smp hs volume logp hlogp hfin _ (randomWalk_draws smp scale) (randomWalk_meas hs scale)
    (random_walk_keyed_symmetric dims P smp hs scale []) key

/-- **C84 (metropolis_hastings), partial.** For a proposal with a symmetric log density, as in C37: for asymmetric
proposals the code inverts the proposal ratio (`metropolisHastings_asymmetric_fails`), whatever the keys. -/
theorem metropolis_hastings_keyed_balance_partial [MeasurableSpace S] (P : Measure Ω) [IsProbabilityMeasure P]
    (smp : Samplers Ω) (hs : Exact P smp) (μ : Measure S) [SigmaFinite μ] (logp : S → EReal)
    (hlogp : Measurable logp) (hfin : ∀ x, logp x ≠ ⊤) (inner : Program Ω S) (hin : DrawsFromKey inner)
    (hmeas : Measurable fun z : (Key → Ω) × S => inner z.1 [] z.2) (logq : S → S → EReal)
    (hlogq : Measurable (Function.uncurry logq)) (hqfin : ∀ y x, logq y x ≠ ⊤)
    (hdens : HasLogDensity (oracle P) (fun ω s => inner ω [] s) μ logq) (hsym : ∀ x y, logq y x = logq x y)
    (key : Key) :
    DetailedBalance (oracle P) (fun ω s => metropolisHastings smp logp inner logq ω key s) (target μ logp) ∧
      Stationary (oracle P) (fun ω s => metropolisHastings smp logp inner logq ω key s) (target μ logp) := by
  have h := metropolisHastings_balance_symm (oracle P) μ logp hlogp hfin (fun ω s => inner ω [] s) hmeas logq hlogq
    hqfin hdens hsym
  have hb := pull_balance (accept_law hs key)
    (measurable_metropolisHastings hlogp (inner := fun ω s => inner ω [] s) hmeas hlogq) h
  have e : (fun ω s => metropolisHastings smp logp inner logq ω key s) = _ :=
    funext fun ω => funext fun s => metropolisHastings_split smp logp inner hin logq ω key s
  rw [← e] at hb
  exact ⟨hb, stationary_of_detailedBalance hb⟩

/-- The hypotheses of the partial theorem are met by the random walk. -/
theorem metropolis_hastings_random_walk_keyed_balance {l : ℕ} (dims : Fin l → ℕ) (P : Measure Ω)
    [IsProbabilityMeasure P] (smp : Samplers Ω) (hs : Exact P smp) (scale : ℝ) (hc : scale ≠ 0)
    (logp : Tree dims → EReal) (hlogp : Measurable logp) (hfin : ∀ x, logp x ≠ ⊤) (key : Key) :
    Stationary (oracle P)
      (fun ω s => metropolisHastings smp logp (randomWalk smp scale) (randomWalkLogProb scale) ω key s)
      (target volume logp) :=
  (metropolis_hastings_keyed_balance_partial P smp hs volume logp hlogp hfin _ (randomWalk_draws smp scale)
    (randomWalk_meas hs scale) _ (measurable_randomWalkLogProb _ scale) (fun _ _ => EReal.coe_ne_top _)
    (pull_density (momentum_law dims hs []) (measurable_randomWalk _ scale) (randomWalk_density _ scale hc))
    (randomWalkLogProb_symm scale) key).2

/-- **C84 (hmc).** The momentum of every leaf and the accept decision are drawn with unrelated keys, so the step with
any key satisfies detailed balance for the target. -/
theorem hmc_keyed_balance {l : ℕ} (dims : Fin l → ℕ) (P : Measure Ω) [IsProbabilityMeasure P] (smp : Samplers Ω)
    (hs : Exact P smp) (logp : Tree dims → EReal) (hlogp : Measurable logp) (hfin : ∀ x, logp x ≠ ⊤)
    (grad : Tree dims → Tree dims) (hg : Measurable grad) (numSteps : ℕ) (stepSize : ℝ) (key : Key) :
    DetailedBalance (oracle P) (fun ω s => hmc smp logp grad numSteps stepSize ω key s) (target volume logp) ∧
      Stationary (oracle P) (fun ω s => hmc smp logp grad numSteps stepSize ω key s) (target volume logp) := by
  have hb := pull_balance (hmc_law dims hs key) (measurable_hmc hlogp hg numSteps stepSize)
    (hmc_balance_aux logp hlogp hfin grad hg numSteps stepSize)
  have e : (fun ω s => hmc smp logp grad numSteps stepSize ω key s) = _ :=
    funext fun ω => funext fun s => hmc_split smp logp grad numSteps stepSize ω key s
  rw [← e] at hb
  exact ⟨hb, stationary_of_detailedBalance hb⟩

/-- **C84 (mala).** -/
theorem mala_keyed_balance {l : ℕ} (dims : Fin l → ℕ) (P : Measure Ω) [IsProbabilityMeasure P] (smp : Samplers Ω)
    (hs : Exact P smp) (logp : Tree dims → EReal) (hlogp : Measurable logp) (hfin : ∀ x, logp x ≠ ⊤)
    (grad : Tree dims → Tree dims) (hg : Measurable grad) (stepSize : ℝ) (key : Key) :
    DetailedBalance (oracle P) (fun ω s => mala smp logp grad stepSize ω key s) (target volume logp) ∧
      Stationary (oracle P) (fun ω s => mala smp logp grad stepSize ω key s) (target volume logp) :=
  hmc_keyed_balance dims P smp hs logp hlogp hfin grad hg 1 stepSize key

/-- **C84 (mala is Langevin).** A step of `mala` stays or moves to the Langevin proposal with fresh Gaussian noise,
drawn with the keys of the leaves. -/
theorem mala_keyed_langevin {l : ℕ} (dims : Fin l → ℕ) (P : Measure Ω) [IsProbabilityMeasure P] (smp : Samplers Ω)
    (hs : Exact P smp) (logp : Tree dims → EReal) (grad : Tree dims → Tree dims) (ε : ℝ) (key : Key) :
    ∃ noise : (Key → Ω) → Tree dims,
      MeasurePreserving noise (oracle P) (Spec.stdNormal (Σ i : Fin l, Fin (dims i))) ∧
      ∀ ω x, mala smp logp grad ε ω key x = x ∨
        mala smp logp grad ε ω key x = x + (ε ^ 2 / 2) • grad x + ε • noise ω := by
  refine ⟨fun ω => momentum smp (graft (.split 2 1 :: key) ω) [],
    (momentum_law dims hs []).comp (graft_one P _), fun ω x => ?_⟩
  unfold mala
  rw [hmc_split]
  exact mala_langevin logp grad ε _ _ x

/-- **C84 (metropolis, transition probabilities).** With any key the step moves to the proposal with probability
`min(1, p(next) / p(state))`, independently of how the proposal was drawn. -/
theorem metropolis_keyed_transition [MeasurableSpace S] (P : Measure Ω) [IsProbabilityMeasure P] (smp : Samplers Ω)
    (hs : Exact P smp) (logp : S → EReal) (hlogp : Measurable logp) (inner : Program Ω S) (hin : DrawsFromKey inner)
    (hmeas : Measurable fun z : (Key → Ω) × S => inner z.1 [] z.2) (key : Key) (x : S) (B : Set S)
    (hB : MeasurableSet B) :
    oracle P {ω | metropolis smp logp inner ω key x ∈ B}
      = acceptLaw (oracle P) (fun ω => inner ω [] x) (fun ω => logp (inner ω [] x) - logp x) x B := by
  rw [← metropolis_transition (oracle P) logp hlogp (fun ω s => inner ω [] s) hmeas x B hB,
    ← pull_measure (accept_law hs key) (measurable_metropolis hlogp (inner := fun ω s => inner ω [] s) hmeas) x hB]
  congr 1
  ext ω
  exact iff_of_eq (congrArg (· ∈ B) (metropolis_split smp logp inner hin ω key x))

/-- **C84 (hmc, transition probabilities).** With any key the step has the transition probabilities of `hmc` with
independent Gaussian momentum and accept decision (`hmc_transition`). -/
theorem hmc_keyed_transition {l : ℕ} (dims : Fin l → ℕ) (P : Measure Ω) [IsProbabilityMeasure P] (smp : Samplers Ω)
    (hs : Exact P smp) (logp : Tree dims → EReal) (hlogp : Measurable logp) (grad : Tree dims → Tree dims)
    (hg : Measurable grad) (numSteps : ℕ) (stepSize : ℝ) (key : Key) (x : Tree dims) (B : Set (Tree dims))
    (hB : MeasurableSet B) :
    oracle P {ω | hmc smp logp grad numSteps stepSize ω key x ∈ B}
      = acceptLaw (Spec.stdNormal (Σ i : Fin l, Fin (dims i)))
          (fun m => (leapfrogs grad stepSize numSteps (x, m)).1)
          (fun m => logp (leapfrogs grad stepSize numSteps (x, m)).1
            + ((momentumLogProb (leapfrogs grad stepSize numSteps (x, m)).2 : ℝ) : EReal)
            - (logp x + (momentumLogProb m : EReal))) x B := by
  rw [← hmc_transition _ logp hlogp grad hg numSteps stepSize x B hB,
    ← pull_measure (hmc_law dims hs key) (measurable_hmc hlogp hg numSteps stepSize) x hB]
  rfl

/-! ### Chains -/

/-- **C84 (sample_chain).** For every kernel that draws only from its key: the states of `sample_chain(kernel, n)` are
jointly distributed as those of a Markov chain whose `n` steps use independent generators, whatever the key, the
callbacks and the start. -/
theorem sample_chain_keyed_law [MeasurableSpace S] {C : Type} (P : Measure Ω) [IsProbabilityMeasure P]
    (kernel : Program Ω S) (hk : DrawsFromKey kernel)
    (hmeas : Measurable fun z : (Key → Ω) × S => kernel z.1 [] z.2) (n : ℕ) (callbacks : List (Unit → S → C))
    (key : Key) (start : S) :
    (∀ ω, (sampleChain kernel n callbacks ω key start).length = n) ∧
    (oracle P).map (fun ω (i : Fin n) => nth (sampleChain kernel n callbacks ω key start) i start)
      = (Measure.pi fun _ : Fin n => oracle P).map
          (fun ws (i : Fin n) => nth (trajectory (fun ω s => kernel ω [] s) (List.ofFn ws) start) i start) := by
  constructor
  · intro ω
    rw [chain_trajectory hk]
    have hl : ∀ (ws : List (Key → Ω)) s, (trajectory (fun ω s => kernel ω [] s) ws s).length = ws.length := by
      intro ws
      induction ws with
      | nil => intro s; rfl
      | cons w ws ih => intro s; simp only [trajectory, List.length_cons, ih]
    rw [hl, List.length_ofFn]
  · have hmp := graft_pi P (splitKeys n key) (split_unrelated key)
    have hm : Measurable fun (ws : Fin n → Key → Ω) (i : Fin n) =>
        nth (trajectory (fun ω s => kernel ω [] s) (List.ofFn ws) start) i start := by
      refine measurable_pi_lambda _ fun i => ?_
      have e : (fun ws : Fin n → Key → Ω => nth (trajectory (fun ω s => kernel ω [] s) (List.ofFn ws) start) i start)
          = fun ws => lastState (fun ω s => kernel ω [] s) (fun j : Fin (i + 1) => ws ⟨j, by omega⟩) start :=
        funext fun ws => nth_trajectory _ ws start start i i.2
      rw [e]
      have harg : Measurable fun ws : Fin n → Key → Ω => ((fun j : Fin (i + 1) => ws ⟨j, by omega⟩), start) :=
        (measurable_pi_lambda _ fun j => measurable_pi_apply _).prodMk measurable_const
      exact (measurable_lastState (step := fun ω s => kernel ω [] s) hmeas (i + 1)).comp harg
    rw [← hmp.map_eq, Measure.map_map hm hmp.measurable]
    congr 1
    funext ω i
    simp only [chain_trajectory hk]
    rfl

/-- **C84 (sample_chain, distribution).** If the kernel leaves `π` stationary and the start is distributed as `π`,
then so is every state that `sample_chain` returns, with any key. -/
theorem sample_chain_keyed_stationary [MeasurableSpace S] {C : Type} (P : Measure Ω) [IsProbabilityMeasure P]
    (kernel : Program Ω S) (hk : DrawsFromKey kernel)
    (hmeas : Measurable fun z : (Key → Ω) × S => kernel z.1 [] z.2) (π : Measure S) [SFinite π]
    (h : Stationary (oracle P) (fun ω s => kernel ω [] s) π) (n : ℕ) (callbacks : List (Unit → S → C)) (key : Key)
    (i : ℕ) (hi : i < n) :
    Stationary (oracle P) (fun ω s => nth (sampleChain kernel n callbacks ω key s) i s) π := by
  have hst := lastState_stationary (step := fun ω s => kernel ω [] s) hmeas h (i + 1)
  have hmp := graft_pi P (fun j : Fin (i + 1) => splitKeys n key ⟨j, by omega⟩)
    (fun a b hab => split_unrelated key _ _ fun e => hab (Fin.ext (by simpa using e)))
  have := pull_stationary hmp (measurable_lastState (step := fun ω s => kernel ω [] s) hmeas (i + 1)) hst
  intro B hB
  rw [← this B hB]
  refine lintegral_congr fun x => ?_
  congr 1
  ext ω
  simp only [Set.mem_ofPred_eq]
  rw [chain_trajectory hk, nth_trajectory _ _ x x i hi]

/-- **C84 (parallel chains).** Chains run with the keys of `random.split(key, m)`, as `vmap` does, are independent, each
distributed as the chain with a fresh key. -/
theorem sample_chain_parallel_independent [MeasurableSpace S] {C : Type} (P : Measure Ω) [IsProbabilityMeasure P]
    (kernel : Program Ω S) (hk : DrawsFromKey kernel)
    (hmeas : Measurable fun z : (Key → Ω) × S => kernel z.1 [] z.2) (n m : ℕ) (callbacks : List (Unit → S → C))
    (key : Key) (start : Fin m → S) :
    (oracle P).map (fun ω (c : Fin m) (i : Fin n) =>
        nth (sampleChain kernel n callbacks ω (splitKeys m key c) (start c)) i (start c))
      = Measure.pi fun c => (oracle P).map fun ω (i : Fin n) =>
          nth (sampleChain kernel n callbacks ω [] (start c)) i (start c) := by
  have hmp := graft_pi P (splitKeys m key) (split_unrelated key)
  have hm : ∀ c, Measurable fun (ω : Key → Ω) (i : Fin n) =>
      nth (sampleChain kernel n callbacks ω [] (start c)) i (start c) := by
    intro c
    refine measurable_pi_lambda _ fun i => ?_
    simp only [chain_trajectory hk, nth_trajectory _ _ _ _ _ i.2]
    exact (measurable_lastState (step := fun ω s => kernel ω [] s) hmeas (i + 1)).comp
      ((measurable_pi_lambda _ fun j => measurable_graft _).prodMk measurable_const)
  have h2 := (measurePreserving_pi (fun _ : Fin m => oracle P) _ (hν := fun c => by
    have := Measure.isProbabilityMeasure_map (μ := oracle P) (hm c).aemeasurable
    infer_instance) fun c => (hm c).measurePreserving (oracle P)).comp hmp
  rw [← h2.map_eq]
  congr 1
  funext ω c i
  simp only [Function.comp_apply, chain_trajectory hk]
  congr 2
  refine congrArg List.ofFn (funext fun j => ?_)
  funext q
  simp only [graft, splitKeys, List.append_assoc, List.cons_append, List.nil_append]

instance target_sfinite [MeasurableSpace S] (μ : Measure S) [SFinite μ] (logp : S → EReal) :
    SFinite (target μ logp) := by
  unfold target; infer_instance

/-- **C84 (end to end).** Every state returned by `sample_chain(metropolis(logp, random_walk(scale)), n)(key, s)` is
distributed as the target when `s` is, for every key, number of steps, pytree of arrays and log density. -/
theorem random_walk_chain_samples_target {l : ℕ} (dims : Fin l → ℕ) {C : Type} (P : Measure Ω)
    [IsProbabilityMeasure P] (smp : Samplers Ω) (hs : Exact P smp) (scale : ℝ) (logp : Tree dims → EReal)
    (hlogp : Measurable logp) (hfin : ∀ x, logp x ≠ ⊤) (n : ℕ) (callbacks : List (Unit → Tree dims → C)) (key : Key)
    (i : ℕ) (hi : i < n) :
    Stationary (oracle P)
      (fun ω s => nth (sampleChain (metropolis smp logp (randomWalk smp scale)) n callbacks ω key s) i s)
      (target volume logp) :=
  sample_chain_keyed_stationary P _ (metropolis_draws smp logp (randomWalk_draws smp scale))
    (metropolis_meas hs hlogp (randomWalk_draws smp scale) (randomWalk_meas hs scale)) _
    (metropolis_random_walk_keyed_balance dims P smp hs scale logp hlogp hfin []).2 n callbacks key i hi

/-- **C84 (end to end, hmc).** -/
theorem hmc_chain_samples_target {l : ℕ} (dims : Fin l → ℕ) {C : Type} (P : Measure Ω) [IsProbabilityMeasure P]
    (smp : Samplers Ω) (hs : Exact P smp) (logp : Tree dims → EReal) (hlogp : Measurable logp)
    (hfin : ∀ x, logp x ≠ ⊤) (grad : Tree dims → Tree dims) (hg : Measurable grad) (numSteps : ℕ) (stepSize : ℝ)
    (n : ℕ) (callbacks : List (Unit → Tree dims → C)) (key : Key) (i : ℕ) (hi : i < n) :
    Stationary (oracle P)
      (fun ω s => nth (sampleChain (hmc smp logp grad numSteps stepSize) n callbacks ω key s) i s)
      (target volume logp) :=
  sample_chain_keyed_stationary P _ (hmc_draws smp logp grad numSteps stepSize)
    (hmc_meas hs hlogp hg numSteps stepSize) _
    (hmc_keyed_balance dims P smp hs logp hlogp hfin grad hg numSteps stepSize []).2 n callbacks key i hi

/-- **C84 (end to end, mala).** -/
theorem mala_chain_samples_target {l : ℕ} (dims : Fin l → ℕ) {C : Type} (P : Measure Ω) [IsProbabilityMeasure P]
    (smp : Samplers Ω) (hs : Exact P smp) (logp : Tree dims → EReal) (hlogp : Measurable logp)
    (hfin : ∀ x, logp x ≠ ⊤) (grad : Tree dims → Tree dims) (hg : Measurable grad) (stepSize : ℝ)
    (n : ℕ) (callbacks : List (Unit → Tree dims → C)) (key : Key) (i : ℕ) (hi : i < n) :
    Stationary (oracle P)
      (fun ω s => nth (sampleChain (mala smp logp grad stepSize) n callbacks ω key s) i s)
      (target volume logp) :=
  hmc_chain_samples_target dims P smp hs logp hlogp hfin grad hg 1 stepSize n callbacks key i hi

/-! ### The hypotheses are met -/

/-- A generator with exact samplers: the randomness of a key is a sequence of numbers and one more number. -/
def streams : Samplers ((ℕ → ℝ) × ℝ) where
  normal _ ω j := ω.1 j
  uniform ω := ω.2

/-- The distribution of one key of `streams`. -/
noncomputable def streamLaw : Measure ((ℕ → ℝ) × ℝ) :=
  (Measure.infinitePi fun _ : ℕ => gaussianReal 0 1).prod Spec.uniform

instance : IsProbabilityMeasure streamLaw := by
  unfold streamLaw; infer_instance

theorem streams_exact : Exact streamLaw streams := by
  refine ⟨fun n => ?_, measurePreserving_snd⟩
  have h : MeasurePreserving (fun (x : ℕ → ℝ) (j : Fin n) => x j) (Measure.infinitePi fun _ : ℕ => gaussianReal 0 1)
      (Spec.stdNormal (Fin n)) := by
    refine ⟨by fun_prop, ?_⟩
    have := Measure.map_infinitePi_infinitePi_of_inj (Ω := fun _ : ℕ => ℝ) (P := fun _ => gaussianReal 0 1)
      (f := fun j : Fin n => (j : ℕ)) Fin.val_injective
    rw [this, Measure.infinitePi_eq_pi]
    rfl
  exact h.comp measurePreserving_fst

/-- The log density that is zero on the unit box and `-∞` elsewhere. -/
noncomputable def boxLogProb {ι : Type*} (x : ι → ℝ) : EReal :=
  open Classical in if x ∈ Set.pi Set.univ fun _ => Set.Icc (0 : ℝ) 1 then 0 else ⊥

theorem measurable_boxLogProb {ι : Type*} [Fintype ι] : Measurable (boxLogProb (ι := ι)) :=
  Measurable.ite (MeasurableSet.univ_pi fun _ => measurableSet_Icc) measurable_const measurable_const

theorem boxLogProb_fin {ι : Type*} (x : ι → ℝ) : boxLogProb x ≠ ⊤ := by
  unfold boxLogProb; split_ifs <;> simp

/-- A chain on a pytree of two arrays (3 elements and 1 element): the tenth of twelve states has the target
distribution, here the uniform density on a box. -/
example (key : Key) : Stationary (oracle streamLaw)
    (fun ω s => nth (sampleChain (C := Unit)
      (metropolis streams boxLogProb (randomWalk (dims := ![3, 1]) streams 2)) 12 [] ω key s) 9 s)
    (target volume boxLogProb) :=
  random_walk_chain_samples_target _ _ _ streams_exact 2 _ measurable_boxLogProb boxLogProb_fin 12 [] key 9
    (by norm_num)

/-- The same with `hmc`. -/
example (key : Key) : Stationary (oracle streamLaw)
    (fun ω s => nth (sampleChain (C := Unit)
      (hmc (dims := ![3, 1]) streams boxLogProb (fun x => -x) 5 0.1) 12 [] ω key s) 9 s)
    (target volume boxLogProb) :=
  hmc_chain_samples_target _ _ _ streams_exact _ measurable_boxLogProb boxLogProb_fin _ measurable_neg 5 0.1 12 []
    key 9 (by norm_num)

end Verif.Mcmc.Keyed
