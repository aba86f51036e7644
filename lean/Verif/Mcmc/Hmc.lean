import Verif.Mcmc.Balance

namespace Verif.Mcmc

open MeasureTheory ProbabilityTheory Spec
open scoped ENNReal

section Reversible

variable {V : Type*} [AddCommGroup V] [Module ℝ V]

/-- Flip the momentum. -/
def flip (z : V × V) : V × V := (z.1, -z.2)

theorem flip_flip (z : V × V) : flip (flip z) = z := by simp [flip]

theorem leapfrog_flip (grad : V → V) (ε : ℝ) (z : V × V) :
    leapfrog grad ε (flip (leapfrog grad ε z)) = flip z := by
  obtain ⟨x, m⟩ := z
  have hx : x + ε • (m + (0.5 * ε) • grad x) + ε • (-(m + (0.5 * ε) • grad x +
      (0.5 * ε) • grad (x + ε • (m + (0.5 * ε) • grad x))) +
      (0.5 * ε) • grad (x + ε • (m + (0.5 * ε) • grad x))) = x := by
    rw [neg_add, neg_add_cancel_right, smul_neg, add_neg_cancel_right]
  simp only [leapfrog, flip, Prod.mk.injEq]
  refine ⟨hx, ?_⟩
  rw [hx, neg_add, neg_add_cancel_right, neg_add, neg_add_cancel_right]

theorem leapfrogs_succ' (grad : V → V) (ε : ℝ) (n : Nat) (z : V × V) :
    leapfrogs grad ε (n + 1) z = leapfrog grad ε (leapfrogs grad ε n z) := by
  induction n generalizing z with
  | zero => rfl
  | succ n ih =>
    show leapfrogs grad ε (n + 1) (leapfrog grad ε z) = _
    rw [ih]; rfl

theorem leapfrogs_flip (grad : V → V) (ε : ℝ) (n : Nat) (z : V × V) :
    leapfrogs grad ε n (flip (leapfrogs grad ε n z)) = flip z := by
  induction n generalizing z with
  | zero => rfl
  | succ n ih =>
    rw [leapfrogs_succ' grad ε n z]
    show leapfrogs grad ε n (leapfrog grad ε (flip (leapfrog grad ε (leapfrogs grad ε n z)))) = _
    rw [leapfrog_flip, ih]

end Reversible

section Volume

variable {ι : Type*} [Fintype ι]

theorem kick_preserving (f : (ι → ℝ) → (ι → ℝ)) (hf : Measurable f) :
    MeasurePreserving (fun z : (ι → ℝ) × (ι → ℝ) => (z.1, z.2 + f z.1)) := by
  refine (MeasurePreserving.id volume).skew_product (g := fun x m => m + f x) ?_ ?_
  · exact measurable_snd.add (hf.comp measurable_fst)
  · exact Filter.Eventually.of_forall fun x => (measurePreserving_add_right volume (f x)).map_eq

theorem drift_preserving (ε : ℝ) :
    MeasurePreserving (fun z : (ι → ℝ) × (ι → ℝ) => (z.1 + ε • z.2, z.2)) := by
  have h := kick_preserving (fun m : ι → ℝ => ε • m) (measurable_id.const_smul ε)
  have hs : MeasurePreserving (Prod.swap : (ι → ℝ) × (ι → ℝ) → _) volume volume :=
    Measure.measurePreserving_swap
  exact hs.comp (h.comp hs)

theorem leapfrog_preserving (grad : (ι → ℝ) → (ι → ℝ)) (hg : Measurable grad) (ε : ℝ) :
    MeasurePreserving (leapfrog grad ε) := by
  have hk := kick_preserving (fun x => (0.5 * ε) • grad x) (by fun_prop)
  exact hk.comp ((drift_preserving ε).comp hk)

theorem leapfrogs_preserving (grad : (ι → ℝ) → (ι → ℝ)) (hg : Measurable grad) (ε : ℝ) (n : Nat) :
    MeasurePreserving (leapfrogs grad ε n) := by
  induction n with
  | zero => exact MeasurePreserving.id volume
  | succ n ih => exact ih.comp (leapfrog_preserving grad hg ε)

theorem flip_preserving : MeasurePreserving (flip : (ι → ℝ) × (ι → ℝ) → _) :=
  (MeasurePreserving.id volume).prod (Measure.measurePreserving_neg volume)

/-- Products of densities. -/
theorem pi_withDensity_fin (n : Nat) (μ : Measure ℝ) [SigmaFinite μ] (f : Fin n → ℝ → ℝ≥0∞)
    (hf : ∀ i, Measurable (f i)) (g : Fin n → Set ℝ) (hg : ∀ i, MeasurableSet (g i)) :
    ∫⁻ x in Set.pi Set.univ g, ∏ i, f i (x i) ∂(Measure.pi fun _ : Fin n => μ)
      = ∏ i, ∫⁻ t in g i, f i t ∂μ := by
  induction n with
  | zero => simp
  | succ n ih =>
    rw [← lintegral_indicator (MeasurableSet.univ_pi hg)]
    have hmp := (measurePreserving_piFinSuccAbove (fun _ : Fin (n + 1) => μ) 0).symm
    rw [← hmp.lintegral_comp_emb (MeasurableEquiv.measurableEmbedding _)]
    have e : ∀ z : ℝ × (Fin n → ℝ),
        (Set.pi Set.univ g).indicator (fun x : Fin (n + 1) → ℝ => ∏ i, f i (x i))
          ((MeasurableEquiv.piFinSuccAbove (fun _ : Fin (n + 1) => ℝ) 0).symm z)
        = (g 0).indicator (f 0) z.1 *
          (Set.pi Set.univ fun i : Fin n => g i.succ).indicator
            (fun x : Fin n → ℝ => ∏ i, f i.succ (x i)) z.2 := by
      intro z
      have hz : (MeasurableEquiv.piFinSuccAbove (fun _ : Fin (n + 1) => ℝ) 0).symm z
          = Fin.cons z.1 z.2 := by
        simp [MeasurableEquiv.piFinSuccAbove, Fin.insertNthEquiv]
      rw [hz]
      have hmem : (Fin.cons z.1 z.2 : Fin (n + 1) → ℝ) ∈ Set.pi Set.univ g
          ↔ z.1 ∈ g 0 ∧ z.2 ∈ Set.pi Set.univ fun i : Fin n => g i.succ := by
        simp [Set.mem_pi, Fin.forall_fin_succ]
      by_cases h1 : z.1 ∈ g 0 <;> by_cases h2 : z.2 ∈ Set.pi Set.univ fun i : Fin n => g i.succ
      · rw [Set.indicator_of_mem (hmem.2 ⟨h1, h2⟩), Set.indicator_of_mem h1,
          Set.indicator_of_mem h2, Fin.prod_univ_succ]
        simp
      all_goals
        rw [Set.indicator_of_notMem (fun h => by
          have := hmem.1 h
          simp_all)]
        simp [h1, h2]
    simp only [e]
    rw [lintegral_prod_mul, lintegral_indicator (hg 0),
      lintegral_indicator (MeasurableSet.univ_pi (t := fun i : Fin n => g i.succ) fun i => hg i.succ), ih _ (fun i => hf i.succ) _ (fun i => hg i.succ),
      Fin.prod_univ_succ]
    · exact ((hf 0).indicator (hg 0)).aemeasurable
    · refine (Measurable.indicator ?_ (MeasurableSet.univ_pi (t := fun i : Fin n => g i.succ) fun i => hg i.succ)).aemeasurable
      exact Finset.measurable_prod _ fun i _ => (hf i.succ).comp (measurable_pi_apply i)

theorem pi_withDensity {ι : Type*} [Fintype ι] (μ : Measure ℝ) [SigmaFinite μ] (f : ι → ℝ → ℝ≥0∞)
    (hf : ∀ i, Measurable (f i)) (g : ι → Set ℝ) (hg : ∀ i, MeasurableSet (g i)) :
    ∫⁻ x in Set.pi Set.univ g, ∏ i, f i (x i) ∂(Measure.pi fun _ : ι => μ)
      = ∏ i, ∫⁻ t in g i, f i t ∂μ := by
  let e := (Fintype.equivFin ι).symm
  have hmp := measurePreserving_piCongrLeft (fun _ : ι => μ) e
  have hS := MeasurableSet.univ_pi hg
  have hm : Measurable fun x : ι → ℝ => ∏ i, f i (x i) :=
    Finset.measurable_prod _ fun i _ => (hf i).comp (measurable_pi_apply i)
  rw [← hmp.setLIntegral_comp_preimage hS hm]
  have hv : ∀ (x : Fin (Fintype.card ι) → ℝ) k,
      (MeasurableEquiv.piCongrLeft (fun _ : ι => ℝ) e) x (e k) = x k := by
    intro x k
    exact Equiv.piCongrLeft_apply_apply (fun _ : ι => ℝ) e x k
  have hpre : (MeasurableEquiv.piCongrLeft (fun _ : ι => ℝ) e) ⁻¹' Set.pi Set.univ g
      = Set.pi Set.univ fun k => g (e k) := by
    ext x
    simp only [Set.mem_preimage, Set.mem_pi, Set.mem_univ, forall_const]
    rw [← e.forall_congr_right]
    simp only [hv]
  rw [hpre]
  have := pi_withDensity_fin (Fintype.card ι) μ (fun k => f (e k)) (fun k => hf _) (fun k => g (e k))
    fun k => hg _
  rw [← e.prod_comp, ← this]
  refine lintegral_congr fun x => ?_
  rw [← e.prod_comp]
  simp only [hv]

theorem stdNormal_eq (ι : Type*) [Fintype ι] :
    stdNormal ι = (volume : Measure (ι → ℝ)).withDensity
      (fun m => (momentumLogProb m : EReal).exp) := by
  have hexp : ∀ m : ι → ℝ, (momentumLogProb m : EReal).exp = ∏ i, gaussianPDF 0 1 (m i) := by
    intro m
    rw [EReal.exp_coe, momentumLogProb, Real.exp_sum, ENNReal.ofReal_prod_of_nonneg]
    · refine Finset.prod_congr rfl fun i _ => ?_
      rw [Real.exp_log (gaussianPDFReal_pos _ _ _ one_ne_zero)]
      rfl
    · intro i _
      exact (Real.exp_pos _).le
  simp only [hexp]
  unfold stdNormal
  refine Measure.pi_eq fun g hg => ?_
  rw [withDensity_apply _ (MeasurableSet.univ_pi hg)]
  have := pi_withDensity volume (fun _ => gaussianPDF 0 1)
    (fun _ => measurable_gaussianPDF 0 1) g hg
  rw [volume_pi, this]
  refine Finset.prod_congr rfl fun i _ => ?_
  rw [gaussianReal_apply 0 one_ne_zero]

theorem momentumLogProb_neg (m : ι → ℝ) : momentumLogProb (-m) = momentumLogProb m := by
  unfold momentumLogProb
  refine Finset.sum_congr rfl fun i _ => ?_
  simp [gaussianPDFReal]

theorem measurable_momentumLogProb : Measurable (momentumLogProb : (ι → ℝ) → ℝ) := by
  unfold momentumLogProb
  refine Finset.measurable_sum _ fun i _ => ?_
  exact Real.measurable_log.comp ((measurable_gaussianPDFReal 0 1).comp (measurable_pi_apply i))

end Volume

theorem acceptReject_fst {S T : Type*} (d : EReal) (u : ℝ) (a b : S × T) :
    (acceptReject d u a b).1 = acceptReject d u a.1 b.1 := by
  unfold acceptReject; split_ifs <;> rfl

theorem hmc_balance_aux {ι : Type*} [Fintype ι] (logp : (ι → ℝ) → EReal) (hlogp : Measurable logp)
    (hfin : ∀ x, logp x ≠ ⊤) (grad : (ι → ℝ) → (ι → ℝ)) (hg : Measurable grad) (n : Nat)
    (ε : ℝ) :
    DetailedBalance ((stdNormal ι).prod uniform) (hmc logp grad n ε)
      (target volume logp) := by
  let T := leapfrogs grad ε n
  let H : (ι → ℝ) × (ι → ℝ) → EReal := fun z => logp z.1 + (momentumLogProb z.2 : EReal)
  have hT : MeasurePreserving T := leapfrogs_preserving grad hg ε n
  have hmom : Measurable fun m : ι → ℝ => (momentumLogProb m : EReal) :=
    measurable_coe_real_ereal.comp measurable_momentumLogProb
  have hH : Measurable H := by
    have h1 : Measurable fun z : (ι → ℝ) × (ι → ℝ) => logp z.1 :=
      hlogp.comp measurable_fst
    have h2 : Measurable fun z : (ι → ℝ) × (ι → ℝ) => (momentumLogProb z.2 : EReal) :=
      hmom.comp measurable_snd
    exact h1.add h2
  have hHfin : ∀ z, H z ≠ ⊤ := fun z => EReal.add_ne_top (hfin _) (EReal.coe_ne_top _)
  have hHflip : ∀ z, H (flip z) = H z := by
    intro z
    show logp z.1 + ((momentumLogProb (-z.2) : ℝ) : EReal) = _
    rw [momentumLogProb_neg]
  let Δ : (ι → ℝ) → (ι → ℝ) → EReal := fun x m => H (T (x, m)) - H (x, m)
  have hΔ : Measurable (Function.uncurry Δ) := by
    have : Measurable fun z : EReal × EReal => z.1 - z.2 := by
      simp only [sub_eq_add_neg]
      fun_prop
    exact this.comp ((hH.comp hT.measurable).prodMk hH)
  let inner : (ι → ℝ) → (ι → ℝ) → (ι → ℝ) := fun m x => (T (x, m)).1
  have hinner : Measurable (Function.uncurry inner) :=
    (measurable_fst.comp hT.measurable).comp measurable_swap
  have hstep : hmc logp grad n ε
      = fun k x => acceptReject (Δ x k.1) k.2 (inner k.1 x) x := by
    funext k x
    exact acceptReject_fst _ _ _ _
  intro A B hA hB
  rw [hstep, flow_eq _ volume logp hlogp inner hinner Δ hΔ A B hA hB,
    flow_eq _ volume logp hlogp inner hinner Δ hΔ B A hB hA]
  have hexp : Measurable fun z : (ι → ℝ) × (ι → ℝ) => (logp z.1).exp :=
    EReal.measurable_exp.comp (hlogp.comp measurable_fst)
  refine flow_symm (Z := (ι → ℝ) × (ι → ℝ)) _ (fun z => z.1) (fun z => inner z.2 z.1) (fun z => (logp z.1).exp)
    (fun z => Δ z.1 z.2) measurable_fst (hinner.comp measurable_swap) hexp hΔ ?_ A B hA hB
  -- the weight is `min (exp (H z)) (exp (H (T z)))`
  have hφ : Measurable fun m : ι → ℝ => (momentumLogProb m : EReal).exp :=
    EReal.measurable_exp.comp hmom
  have hconv : ∀ g : (ι → ℝ) × (ι → ℝ) → ℝ≥0∞, Measurable g →
      ∫⁻ z, (logp z.1).exp * min 1 (Δ z.1 z.2).exp * g z ∂((volume : Measure (ι → ℝ)).prod (stdNormal ι))
      = ∫⁻ z, min (H z).exp (H (T z)).exp * g z ∂((volume : Measure (ι → ℝ)).prod (volume : Measure (ι → ℝ))) := by
    intro g hgm
    have hm : Measurable fun z : (ι → ℝ) × (ι → ℝ) => (logp z.1).exp * min 1 (Δ z.1 z.2).exp * g z :=
      (hexp.mul (measurable_const.min (EReal.measurable_exp.comp hΔ))).mul hgm
    have hφ2 : Measurable fun z : (ι → ℝ) × (ι → ℝ) => (momentumLogProb z.2 : EReal).exp :=
      hφ.comp measurable_snd
    rw [stdNormal_eq, prod_withDensity_right hφ,
      lintegral_withDensity_eq_lintegral_mul _ hφ2 hm]
    refine lintegral_congr fun z => ?_
    rw [← mul_accept (hHfin z)]
    show (momentumLogProb z.2 : EReal).exp * ((logp z.1).exp * min 1 (H (T z) - H z).exp * g z) = _
    have : (H z).exp = (logp z.1).exp * (momentumLogProb z.2 : EReal).exp := EReal.exp_add _ _
    rw [this]
    ring
  intro f hf
  have hTm := hT.measurable
  have hfst : Measurable fun z : (ι → ℝ) × (ι → ℝ) => (T z).1 := measurable_fst.comp hTm
  have e1 := hconv (fun z => f (z.1, (T z).1)) (hf.comp (measurable_fst.prodMk hfst))
  have e2 := hconv (fun z => f ((T z).1, z.1)) (hf.comp (hfst.prodMk measurable_fst))
  refine e1.trans (Eq.trans ?_ e2.symm)
  -- substitute `z ↦ flip (T z)`
  have hψ : MeasurePreserving (fun z => flip (T z))
      ((volume : Measure (ι → ℝ)).prod (volume : Measure (ι → ℝ))) ((volume : Measure (ι → ℝ)).prod volume) :=
    flip_preserving.comp hT
  have hmeas : Measurable fun z : (ι → ℝ) × (ι → ℝ) => min (H z).exp (H (T z)).exp * f (z.1, (T z).1) :=
    ((EReal.measurable_exp.comp hH).min (EReal.measurable_exp.comp (hH.comp hTm))).mul
      (hf.comp (measurable_fst.prodMk hfst))
  rw [← hψ.lintegral_comp hmeas]
  refine lintegral_congr fun z => ?_
  have hTψ : T (flip (T z)) = flip z := leapfrogs_flip grad ε n z
  simp only [hTψ, hHflip]
  rw [min_comm]
  rfl

end Verif.Mcmc
