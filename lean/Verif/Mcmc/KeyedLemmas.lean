import Verif.Mcmc.KeyedSpec
import Verif.Mcmc.Props
import Verif.Plate.Lemmas

namespace Verif.Mcmc.Keyed

open MeasureTheory ProbabilityTheory
open Verif.Plate (Key oracle oracle_graft splitKeys)
open scoped ENNReal

variable {Ω S : Type} [MeasurableSpace Ω]

instance oracle_prob (P : Measure Ω) [IsProbabilityMeasure P] : IsProbabilityMeasure (oracle P) := by
  unfold oracle; infer_instance

/-- The randomness of the keys made from `key`, with `key` as the root. -/
def graft (key : Key) (ω : Key → Ω) : Key → Ω := fun q => ω (q ++ key)

theorem measurable_graft (key : Key) : Measurable (graft (Ω := Ω) key) :=
  measurable_pi_lambda _ fun q => measurable_pi_apply (q ++ key)

theorem graft_pi {ι : Type} [Fintype ι] (P : Measure Ω) [IsProbabilityMeasure P] (keys : ι → Key)
    (h : ∀ i j, i ≠ j → ¬ keys i <:+ keys j) :
    MeasurePreserving (fun ω (i : ι) => graft (keys i) ω) (oracle P) (Measure.pi fun _ : ι => oracle P) := by
  refine ⟨measurable_pi_lambda _ fun i => measurable_graft _, ?_⟩
  rw [← Measure.infinitePi_eq_pi]
  exact oracle_graft P keys h

theorem split_unrelated {n : ℕ} (key : Key) (i j : Fin n) (h : i ≠ j) :
    ¬ splitKeys n key i <:+ splitKeys n key j := by
  intro hs
  have := hs.eq_of_length (by simp [splitKeys])
  simp only [splitKeys, List.cons.injEq, Plate.Step.split.injEq, and_true, true_and] at this
  exact h (Fin.ext this)

/-- A fresh generator, from one key. -/
theorem graft_one (P : Measure Ω) [IsProbabilityMeasure P] (key : Key) :
    MeasurePreserving (graft key) (oracle P) (oracle P) := by
  have h := graft_pi P (fun _ : Fin 1 => key) fun i j hij => absurd (Subsingleton.elim i j) hij
  exact (measurePreserving_eval (fun _ : Fin 1 => oracle P) 0).comp h

/-- The two keys of `random.split(key)` are independent. -/
theorem graft_two (P : Measure Ω) [IsProbabilityMeasure P] (key : Key) :
    MeasurePreserving (fun ω : Key → Ω => (graft (.split 2 0 :: key) ω, graft (.split 2 1 :: key) ω)) (oracle P)
      ((oracle P).prod (oracle P)) :=
  (measurePreserving_finTwoArrow (oracle P)).comp (graft_pi P (splitKeys 2 key) (split_unrelated key))

theorem root_law (P : Measure Ω) [IsProbabilityMeasure P] :
    MeasurePreserving (fun ω : Key → Ω => ω []) (oracle P) P :=
  measurePreserving_eval_infinitePi (fun _ : Key => P) []

/-- The noise of all leaves, each from its own key. -/
theorem momentum_law {l : ℕ} (dims : Fin l → ℕ) {P : Measure Ω} [IsProbabilityMeasure P] {smp : Samplers Ω}
    (hs : Exact P smp) (key : Key) :
    MeasurePreserving (fun ω => momentum (dims := dims) smp ω key) (oracle P)
      (Spec.stdNormal (Σ i : Fin l, Fin (dims i))) := by
  have h1 : MeasurePreserving (fun (ω : Key → Ω) (i : Fin l) => ω (.split l i :: key)) (oracle P)
      (Measure.pi fun _ : Fin l => P) := by
    have := (measurePreserving_pi (fun _ : Fin l => oracle P) (fun _ => P) fun _ => root_law P).comp
      (graft_pi P (splitKeys l key) (split_unrelated key))
    exact this
  have h2 := (measurePreserving_pi (fun _ : Fin l => P) (fun i => Spec.stdNormal (Fin (dims i)))
    (hν := fun i => by unfold Spec.stdNormal; infer_instance)
    fun i => hs.normal (dims i)).comp h1
  refine ⟨?_, ?_⟩
  · refine measurable_pi_lambda _ fun c => ?_
    exact (measurable_pi_apply c.2).comp ((measurable_pi_apply c.1).comp h2.measurable)
  · have h3 := Measure.infinitePi_map_piCurry_symm fun (i : Fin l) (_ : Fin (dims i)) => gaussianReal 0 1
    simp only [Measure.infinitePi_eq_pi] at h3
    unfold Spec.stdNormal
    rw [← h3]
    have h4 := h2.map_eq
    simp only [Spec.stdNormal] at h4
    rw [← h4, Measure.map_map (MeasurableEquiv.measurable _) h2.measurable]
    rfl

/-! ### Pulling the balance equations back along the generator -/

section Pull

variable {Ω₁ Ω₂ : Type*} [MeasurableSpace Ω₁] [MeasurableSpace Ω₂] [MeasurableSpace S]

theorem pull_measure {Q₁ : Measure Ω₁} {Q₂ : Measure Ω₂} {φ : Ω₁ → Ω₂} (hφ : MeasurePreserving φ Q₁ Q₂)
    {step : Ω₂ → S → S} (hstep : Measurable (Function.uncurry step)) (x : S) {B : Set S} (hB : MeasurableSet B) :
    Q₁ {ω | step (φ ω) x ∈ B} = Q₂ {ω | step ω x ∈ B} := by
  have hm : Measurable fun ω => step ω x := hstep.comp (measurable_id.prodMk measurable_const)
  exact hφ.measure_preimage (hm hB).nullMeasurableSet

theorem pull_balance {Q₁ : Measure Ω₁} {Q₂ : Measure Ω₂} {φ : Ω₁ → Ω₂} (hφ : MeasurePreserving φ Q₁ Q₂)
    {step : Ω₂ → S → S} (hstep : Measurable (Function.uncurry step)) {π : Measure S}
    (h : Spec.DetailedBalance Q₂ step π) : Spec.DetailedBalance Q₁ (fun ω => step (φ ω)) π := by
  intro A B hA hB
  simp only [pull_measure hφ hstep _ hA, pull_measure hφ hstep _ hB]
  exact h A B hA hB

theorem pull_stationary {Q₁ : Measure Ω₁} {Q₂ : Measure Ω₂} {φ : Ω₁ → Ω₂} (hφ : MeasurePreserving φ Q₁ Q₂)
    {step : Ω₂ → S → S} (hstep : Measurable (Function.uncurry step)) {π : Measure S}
    (h : Spec.Stationary Q₂ step π) : Spec.Stationary Q₁ (fun ω => step (φ ω)) π := by
  intro B hB
  simp only [pull_measure hφ hstep _ hB]
  exact h B hB

theorem pull_symmetric {Q₁ : Measure Ω₁} {Q₂ : Measure Ω₂} {φ : Ω₁ → Ω₂} (hφ : MeasurePreserving φ Q₁ Q₂)
    {step : Ω₂ → S → S} (hstep : Measurable (Function.uncurry step)) {μ : Measure S}
    (h : Spec.SymmetricProposal Q₂ step μ) : Spec.SymmetricProposal Q₁ (fun ω => step (φ ω)) μ := by
  intro f hf
  have hm : ∀ x, Measurable fun ω => step ω x := fun x => hstep.comp (measurable_id.prodMk measurable_const)
  have e1 : ∀ x, ∫⁻ ω, f (x, step (φ ω) x) ∂Q₁ = ∫⁻ ω, f (x, step ω x) ∂Q₂ := fun x =>
    hφ.lintegral_comp (f := fun ω => f (x, step ω x)) (hf.comp (measurable_const.prodMk (hm x)))
  have e2 : ∀ x, ∫⁻ ω, f (step (φ ω) x, x) ∂Q₁ = ∫⁻ ω, f (step ω x, x) ∂Q₂ := fun x =>
    hφ.lintegral_comp (f := fun ω => f (step ω x, x)) (hf.comp ((hm x).prodMk measurable_const))
  simp only [e1, e2]
  exact h f hf

theorem pull_density {Q₁ : Measure Ω₁} {Q₂ : Measure Ω₂} {φ : Ω₁ → Ω₂} (hφ : MeasurePreserving φ Q₁ Q₂)
    {step : Ω₂ → S → S} (hstep : Measurable (Function.uncurry step)) {μ : Measure S} {logq : S → S → EReal}
    (h : Spec.HasLogDensity Q₂ step μ logq) : Spec.HasLogDensity Q₁ (fun ω => step (φ ω)) μ logq := by
  intro x f hf
  have hm : Measurable fun ω => step ω x := hstep.comp (measurable_id.prodMk measurable_const)
  rw [← h x f hf]
  exact hφ.lintegral_comp (f := fun ω => f (step ω x)) (hf.comp hm)

end Pull

/-! ### The kernels as functions of independent numbers -/

theorem randomWalk_momentum {l : ℕ} {dims : Fin l → ℕ} (smp : Samplers Ω) (scale : ℝ) (ω : Key → Ω) (key : Key)
    (s : Tree dims) : randomWalk smp scale ω key s = Mcmc.randomWalk scale (momentum smp ω key) s := rfl

theorem metropolis_split (smp : Samplers Ω) (logp : S → EReal) (inner : Program Ω S) (hin : DrawsFromKey inner)
    (ω : Key → Ω) (key : Key) (s : S) :
    metropolis smp logp inner ω key s = Mcmc.metropolis logp (fun ω s => inner ω [] s)
      (graft (.split 2 0 :: key) ω, smp.uniform (graft (.split 2 1 :: key) ω [])) s := by
  unfold metropolis Mcmc.metropolis
  simp only
  rw [hin ω (.split 2 0 :: key)]
  rfl

theorem metropolisHastings_split (smp : Samplers Ω) (logp : S → EReal) (inner : Program Ω S)
    (hin : DrawsFromKey inner) (logq : S → S → EReal) (ω : Key → Ω) (key : Key) (s : S) :
    metropolisHastings smp logp inner logq ω key s = Mcmc.metropolisHastings logp (fun ω s => inner ω [] s) logq
      (graft (.split 2 0 :: key) ω, smp.uniform (graft (.split 2 1 :: key) ω [])) s := by
  unfold metropolisHastings Mcmc.metropolisHastings
  simp only
  rw [hin ω (.split 2 0 :: key)]
  rfl

theorem hmc_split {l : ℕ} {dims : Fin l → ℕ} (smp : Samplers Ω) (logp : Tree dims → EReal)
    (grad : Tree dims → Tree dims) (n : ℕ) (ε : ℝ) (ω : Key → Ω) (key : Key) (s : Tree dims) :
    hmc smp logp grad n ε ω key s = Mcmc.hmc logp grad n ε
      (momentum smp (graft (.split 2 1 :: key) ω) [],
        smp.uniform (graft (.split 2 0 :: key) ω [.split 2 1])) s := rfl

theorem accept_law {P : Measure Ω} [IsProbabilityMeasure P] {smp : Samplers Ω} (hs : Exact P smp) (key : Key) :
    MeasurePreserving (fun ω : Key → Ω => (graft (.split 2 0 :: key) ω,
      smp.uniform (graft (.split 2 1 :: key) ω []))) (oracle P) ((oracle P).prod Spec.uniform) :=
  ((MeasurePreserving.id (oracle P)).prod (hs.uniform.comp (root_law P))).comp (graft_two P key)

theorem hmc_law {l : ℕ} (dims : Fin l → ℕ) {P : Measure Ω} [IsProbabilityMeasure P] {smp : Samplers Ω}
    (hs : Exact P smp) (key : Key) :
    MeasurePreserving (fun ω : Key → Ω => (momentum (dims := dims) smp (graft (.split 2 1 :: key) ω) [],
      smp.uniform (graft (.split 2 0 :: key) ω [.split 2 1]))) (oracle P)
      ((Spec.stdNormal (Σ i : Fin l, Fin (dims i))).prod Spec.uniform) := by
  have h0 : MeasurePreserving (fun ω : Key → Ω => smp.uniform (ω [.split 2 1])) (oracle P) Spec.uniform :=
    hs.uniform.comp (measurePreserving_eval_infinitePi (fun _ : Key => P) [.split 2 1])
  have : SFinite (Spec.stdNormal (Σ i : Fin l, Fin (dims i))) := by unfold Spec.stdNormal; infer_instance
  exact ((momentum_law dims hs []).prod h0).comp (Measure.measurePreserving_swap.comp (graft_two P key))

/-! ### Measurability -/

section Meas

variable [MeasurableSpace S]

omit [MeasurableSpace Ω] [MeasurableSpace S] in
theorem measurable_metropolis {Ω' S : Type*} [MeasurableSpace Ω'] [MeasurableSpace S] {logp : S → EReal} (hlogp : Measurable logp)
    {inner : Ω' → S → S} (hinner : Measurable (Function.uncurry inner)) :
    Measurable (Function.uncurry (Mcmc.metropolis logp inner)) := by
  have hn : Measurable fun z : (Ω' × ℝ) × S => inner z.1.1 z.2 :=
    hinner.comp ((measurable_fst.comp measurable_fst).prodMk measurable_snd)
  have hsub : Measurable fun z : EReal × EReal => z.1 - z.2 := by
    simp only [sub_eq_add_neg]
    fun_prop
  exact measurable_acceptReject measurable_snd hn
    (hsub.comp ((hlogp.comp hn).prodMk (hlogp.comp measurable_snd))) (measurable_snd.comp measurable_fst)

theorem measurable_metropolisHastings {Ω' : Type*} [MeasurableSpace Ω'] {logp : S → EReal}
    (hlogp : Measurable logp) {inner : Ω' → S → S} (hinner : Measurable (Function.uncurry inner))
    {logq : S → S → EReal} (hlogq : Measurable (Function.uncurry logq)) :
    Measurable (Function.uncurry (Mcmc.metropolisHastings logp inner logq)) := by
  have hn : Measurable fun z : (Ω' × ℝ) × S => inner z.1.1 z.2 :=
    hinner.comp ((measurable_fst.comp measurable_fst).prodMk measurable_snd)
  have hf : Measurable fun z : (Ω' × ℝ) × S => logq z.2 (inner z.1.1 z.2) :=
    hlogq.comp (measurable_snd.prodMk hn)
  have hb : Measurable fun z : (Ω' × ℝ) × S => logq (inner z.1.1 z.2) z.2 :=
    hlogq.comp (hn.prodMk measurable_snd)
  have hsub : Measurable fun z : EReal × EReal => z.1 - z.2 := by
    simp only [sub_eq_add_neg]
    fun_prop
  have hadd : Measurable fun z : EReal × EReal => z.1 + z.2 := by fun_prop
  have h1 := hadd.comp ((hlogp.comp hn).prodMk hb)
  have h2 := hsub.comp (h1.prodMk (hlogp.comp measurable_snd))
  exact measurable_acceptReject measurable_snd hn (hsub.comp (h2.prodMk hf)) (measurable_snd.comp measurable_fst)

theorem measurable_hmc {ι : Type*} [Fintype ι] {logp : (ι → ℝ) → EReal} (hlogp : Measurable logp)
    {grad : (ι → ℝ) → (ι → ℝ)} (hg : Measurable grad) (n : ℕ) (ε : ℝ) :
    Measurable (Function.uncurry (Mcmc.hmc logp grad n ε)) := by
  have hmom : Measurable fun m : ι → ℝ => (momentumLogProb m : EReal) :=
    measurable_coe_real_ereal.comp measurable_momentumLogProb
  have hH : Measurable fun z : (ι → ℝ) × (ι → ℝ) => logp z.1 + (momentumLogProb z.2 : EReal) := by
    have h1 : Measurable fun z : (ι → ℝ) × (ι → ℝ) => logp z.1 := hlogp.comp measurable_fst
    have h2 : Measurable fun z : (ι → ℝ) × (ι → ℝ) => (momentumLogProb z.2 : EReal) := hmom.comp measurable_snd
    exact h1.add h2
  have hin : Measurable (Function.uncurry fun (_ : Unit) sm => leapfrogs grad ε n sm) :=
    (leapfrogs_preserving grad hg ε n).measurable.comp measurable_snd
  have h := measurable_metropolis hH hin
  have harg : Measurable fun z : ((ι → ℝ) × ℝ) × (ι → ℝ) => (((), z.1.2), (z.2, z.1.1)) :=
    (measurable_const.prodMk (measurable_snd.comp measurable_fst)).prodMk
      (measurable_snd.prodMk (measurable_fst.comp measurable_fst))
  exact measurable_fst.comp (h.comp harg)

/-- A program read with a fresh key, measurable in the randomness and the state together. -/
def MeasProgram (f : Program Ω S) : Prop := Measurable fun z : (Key → Ω) × S => f z.1 [] z.2

theorem randomWalk_meas {l : ℕ} {dims : Fin l → ℕ} {P : Measure Ω} [IsProbabilityMeasure P] {smp : Samplers Ω}
    (hs : Exact P smp) (scale : ℝ) : MeasProgram (randomWalk (dims := dims) smp scale) :=
  (measurable_randomWalk _ scale).comp
    (((momentum_law dims hs []).measurable.comp measurable_fst).prodMk measurable_snd)

theorem metropolis_meas {P : Measure Ω} [IsProbabilityMeasure P] {smp : Samplers Ω} (hs : Exact P smp)
    {logp : S → EReal} (hlogp : Measurable logp) {inner : Program Ω S} (hin : DrawsFromKey inner)
    (hmeas : MeasProgram inner) : MeasProgram (metropolis smp logp inner) := by
  unfold MeasProgram
  simp only [metropolis_split smp logp inner hin]
  exact (measurable_metropolis hlogp (inner := fun ω s => inner ω [] s) hmeas).comp
    (((accept_law hs []).measurable.comp measurable_fst).prodMk measurable_snd)

theorem metropolisHastings_meas {P : Measure Ω} [IsProbabilityMeasure P] {smp : Samplers Ω} (hs : Exact P smp)
    {logp : S → EReal} (hlogp : Measurable logp) {inner : Program Ω S} (hin : DrawsFromKey inner)
    (hmeas : MeasProgram inner) {logq : S → S → EReal} (hlogq : Measurable (Function.uncurry logq)) :
    MeasProgram (metropolisHastings smp logp inner logq) := by
  unfold MeasProgram
  simp only [metropolisHastings_split smp logp inner hin]
  exact (measurable_metropolisHastings hlogp (inner := fun ω s => inner ω [] s) hmeas hlogq).comp
    (((accept_law hs []).measurable.comp measurable_fst).prodMk measurable_snd)

theorem hmc_meas {l : ℕ} {dims : Fin l → ℕ} {P : Measure Ω} [IsProbabilityMeasure P] {smp : Samplers Ω}
    (hs : Exact P smp) {logp : Tree dims → EReal} (hlogp : Measurable logp) {grad : Tree dims → Tree dims}
    (hg : Measurable grad) (n : ℕ) (ε : ℝ) : MeasProgram (hmc smp logp grad n ε) := by
  unfold MeasProgram
  simp only [hmc_split]
  exact (measurable_hmc hlogp hg n ε).comp
    (((hmc_law dims hs []).measurable.comp measurable_fst).prodMk measurable_snd)

end Meas

/-! ### The programs draw only from their key -/

omit [MeasurableSpace Ω] in
theorem randomWalk_draws {l : ℕ} {dims : Fin l → ℕ} (smp : Samplers Ω) (scale : ℝ) :
    DrawsFromKey (randomWalk (dims := dims) smp scale) := fun _ _ _ => rfl

theorem metropolis_draws (smp : Samplers Ω) (logp : S → EReal) {inner : Program Ω S} (hin : DrawsFromKey inner) :
    DrawsFromKey (metropolis smp logp inner) := by
  intro ω key s
  rw [metropolis_split smp logp inner hin, metropolis_split smp logp inner hin]
  have hg : graft (.split 2 0 :: key) ω = graft [.split 2 0] (fun q => ω (q ++ key)) := by
    funext q
    simp only [graft, List.append_assoc, List.cons_append, List.nil_append]
  rw [hg]
  rfl

theorem metropolisHastings_draws (smp : Samplers Ω) (logp : S → EReal) {inner : Program Ω S}
    (hin : DrawsFromKey inner) (logq : S → S → EReal) :
    DrawsFromKey (metropolisHastings smp logp inner logq) := by
  intro ω key s
  rw [metropolisHastings_split smp logp inner hin, metropolisHastings_split smp logp inner hin]
  have hg : graft (.split 2 0 :: key) ω = graft [.split 2 0] (fun q => ω (q ++ key)) := by
    funext q
    simp only [graft, List.append_assoc, List.cons_append, List.nil_append]
  rw [hg]
  rfl

omit [MeasurableSpace Ω] in
theorem hmc_draws {l : ℕ} {dims : Fin l → ℕ} (smp : Samplers Ω) (logp : Tree dims → EReal)
    (grad : Tree dims → Tree dims) (n : ℕ) (ε : ℝ) : DrawsFromKey (hmc smp logp grad n ε) := fun _ _ _ => rfl

/-! ### The chain -/

omit [MeasurableSpace Ω] in
theorem scan_trajectory {C K : Type} (kernel : K → S → S) (cbs : List (Unit → S → C)) (keys : List K) (s : S) :
    (Mcmc.sampleChain (fun _ k s => (kernel k s, ())) cbs ((), s) keys).2 = trajectory kernel keys s := by
  induction keys generalizing s with
  | nil => rfl
  | cons k ks ih => simp only [Mcmc.sampleChain, runCallbacks_eq, trajectory, ih]

omit [MeasurableSpace Ω] in
theorem trajectory_map {W K : Type} (step : W → S → S) (kernel : K → S → S) (w : K → W)
    (h : ∀ k s, kernel k s = step (w k) s) (ks : List K) (s : S) :
    trajectory kernel ks s = trajectory step (ks.map w) s := by
  induction ks generalizing s with
  | nil => rfl
  | cons k ks ih => simp only [trajectory, List.map_cons, h, ih]

omit [MeasurableSpace Ω] in
/-- The states of the chain: every step with the randomness of its own key. -/
theorem chain_trajectory {C : Type} {kernel : Program Ω S} (hk : DrawsFromKey kernel) (n : ℕ)
    (cbs : List (Unit → S → C)) (ω : Key → Ω) (key : Key) (s : S) :
    sampleChain kernel n cbs ω key s
      = trajectory (fun ω s => kernel ω [] s) (List.ofFn fun i => graft (splitKeys n key i) ω) s := by
  unfold sampleChain
  rw [scan_trajectory, trajectory_map (fun ω s => kernel ω [] s) (fun k s => kernel ω k s) (fun k => graft k ω)
    (fun k s => hk ω k s), List.map_ofFn]
  rfl

omit [MeasurableSpace Ω] in
theorem nth_trajectory {W : Type} (step : W → S → S) {n : ℕ} (ws : Fin n → W) (s d : S) (i : ℕ) (hi : i < n) :
    nth (trajectory step (List.ofFn ws) s) i d
      = lastState step (fun j : Fin (i + 1) => ws ⟨j, by omega⟩) s := by
  induction i generalizing n s with
  | zero =>
    obtain ⟨m, rfl⟩ : ∃ m, n = m + 1 := ⟨n - 1, by omega⟩
    rw [List.ofFn_succ, lastState_succ, lastState_zero]
    rfl
  | succ i ih =>
    obtain ⟨m, rfl⟩ : ∃ m, n = m + 1 := ⟨n - 1, by omega⟩
    rw [List.ofFn_succ, lastState_succ]
    have := ih (fun j => ws j.succ) (step (ws 0) s) (by omega)
    simp only [trajectory, nth, List.getD_cons_succ] at this ⊢
    exact this

end Verif.Mcmc.Keyed
