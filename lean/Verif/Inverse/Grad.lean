import Verif.Inverse.Slots
import Mathlib.Analysis.Calculus.FDeriv.Prod
import Mathlib.Analysis.Calculus.FDeriv.Pi
import Mathlib.Analysis.Calculus.FDeriv.Mul
import Mathlib.Analysis.Calculus.Deriv.ZPow
import Mathlib.Analysis.SpecialFunctions.Sqrt
import Mathlib.Analysis.SpecialFunctions.Trigonometric.Deriv
import Mathlib.Analysis.SpecialFunctions.ExpDeriv

/-! Derivatives of the primitives, for C27 on graphs. -/
namespace Verif.Inverse

open Verif.Propagate Filter Topology

variable {n : Nat}

/-- The gradient of a function at a point. -/
noncomputable def grad (f : (Fin n → ℝ) → ℝ) (x₀ : Fin n → ℝ) : Fin n → ℝ := fun j => fderiv ℝ f x₀ (Pi.single j 1)

theorem grad_const (c : ℝ) (x₀ : Fin n → ℝ) : grad (fun _ => c) x₀ = 0 := by
  funext j; simp [grad]

theorem grad_congr {f g : (Fin n → ℝ) → ℝ} {x₀ : Fin n → ℝ} (h : f =ᶠ[𝓝 x₀] g) : grad f x₀ = grad g x₀ := by
  funext j; simp [grad, h.fderiv_eq]

theorem grad_comp1 {f : (Fin n → ℝ) → ℝ} {x₀ : Fin n → ℝ} {h : ℝ → ℝ} {h' : ℝ} (hf : DifferentiableAt ℝ f x₀)
    (hh : HasDerivAt h h' (f x₀)) :
    DifferentiableAt ℝ (fun x => h (f x)) x₀ ∧ grad (fun x => h (f x)) x₀ = h' • grad f x₀ := by
  have h1 := hh.comp_hasFDerivAt x₀ hf.hasFDerivAt
  refine ⟨h1.differentiableAt, ?_⟩
  funext j
  have h2 : fderiv ℝ (fun x => h (f x)) x₀ = h' • fderiv ℝ f x₀ := h1.fderiv
  simp [grad, h2]

theorem grad_comp2 {f g : (Fin n → ℝ) → ℝ} {x₀ : Fin n → ℝ} {h : ℝ × ℝ → ℝ} {α β : ℝ} (hf : DifferentiableAt ℝ f x₀)
    (hg : DifferentiableAt ℝ g x₀)
    (hh : HasFDerivAt h (α • ContinuousLinearMap.fst ℝ ℝ ℝ + β • ContinuousLinearMap.snd ℝ ℝ ℝ) (f x₀, g x₀)) :
    DifferentiableAt ℝ (fun x => h (f x, g x)) x₀ ∧ grad (fun x => h (f x, g x)) x₀ = α • grad f x₀ + β • grad g x₀ := by
  have h1 := hh.comp x₀ (hf.hasFDerivAt.prodMk hg.hasFDerivAt)
  refine ⟨h1.differentiableAt, ?_⟩
  funext j
  have h2 : fderiv ℝ (fun x => h (f x, g x)) x₀ = _ := h1.fderiv
  simp [grad, h2]

theorem grad_compk {k : Nat} {u : (Fin n → ℝ) → Fin k → ℝ} {x₀ : Fin n → ℝ} {φ : (Fin k → ℝ) → ℝ}
    (hu : ∀ i, DifferentiableAt ℝ (fun x => u x i) x₀) (hφ : DifferentiableAt ℝ φ (u x₀)) :
    DifferentiableAt ℝ (fun x => φ (u x)) x₀ ∧
      grad (fun x => φ (u x)) x₀ ∈ Submodule.span ℝ (Set.range fun i => grad (fun x => u x i) x₀) := by
  have hu' : HasFDerivAt u (ContinuousLinearMap.pi fun i => fderiv ℝ (fun x => u x i) x₀) x₀ :=
    hasFDerivAt_pi.2 fun i => (hu i).hasFDerivAt
  have h1 := hφ.hasFDerivAt.comp x₀ hu'
  refine ⟨h1.differentiableAt, ?_⟩
  have h2 : grad (fun x => φ (u x)) x₀ = ∑ i, (fderiv ℝ φ (u x₀) (Pi.single i 1)) • grad (fun x => u x i) x₀ := by
    funext j
    have h3 : fderiv ℝ (fun x => φ (u x)) x₀ = _ := h1.fderiv
    simp only [grad, h3, ContinuousLinearMap.comp_apply, Finset.sum_apply, Pi.smul_apply, smul_eq_mul]
    have h4 : ∀ v : Fin k → ℝ, fderiv ℝ φ (u x₀) v = ∑ i, fderiv ℝ φ (u x₀) (Pi.single i 1) * v i := by
      intro v
      conv_lhs => rw [← Finset.univ_sum_single v]
      rw [map_sum]
      refine Finset.sum_congr rfl fun i _ => ?_
      have : (Pi.single i (v i) : Fin k → ℝ) = v i • Pi.single i 1 := by
        rw [← Pi.single_smul, smul_eq_mul, mul_one]
      rw [this, map_smul, smul_eq_mul, mul_comm]
    rw [h4]
    rfl
  rw [h2]
  exact Submodule.sum_mem _ fun i _ => Submodule.smul_mem _ _ (Submodule.subset_span ⟨i, rfl⟩)

/-! ### Unary primitives -/

/-- The primitive as a function on the reals. -/
noncomputable def Un.fr (p : Un) (x : ℝ) : ℝ := (p.f x).getD 0

/-- Every unary primitive is differentiable where it is defined, `sqrt` except at zero. -/
theorem Un.hasDeriv (p : Un) (x z : ℝ) (h : p.f x = some z) (hs : p = .sqrt → x ≠ 0) :
    ∃ f', HasDerivAt p.fr f' x := by
  cases p with
  | exp => exact ⟨_, (Real.hasDerivAt_exp x).congr_of_eventuallyEq (Eventually.of_forall fun w => by simp [Un.fr, Un.f])⟩
  | log =>
    obtain ⟨hx, -⟩ := npLog_some h
    refine ⟨_, (Real.hasDerivAt_log hx.ne').congr_of_eventuallyEq ?_⟩
    filter_upwards [lt_mem_nhds hx] with w hw
    simp [Un.fr, Un.f, npLog, hw]
  | sin => exact ⟨_, (Real.hasDerivAt_sin x).congr_of_eventuallyEq (Eventually.of_forall fun w => by simp [Un.fr, Un.f])⟩
  | cos => exact ⟨_, (Real.hasDerivAt_cos x).congr_of_eventuallyEq (Eventually.of_forall fun w => by simp [Un.fr, Un.f])⟩
  | expm1 => exact ⟨_, ((Real.hasDerivAt_exp x).sub_const 1).congr_of_eventuallyEq (Eventually.of_forall fun w => by simp [Un.fr, Un.f])⟩
  | log1p =>
    obtain ⟨hx, -⟩ := npLog_some h
    refine ⟨_, (((hasDerivAt_id x).const_add 1).log hx.ne').congr_of_eventuallyEq ?_⟩
    have : ∀ᶠ w in 𝓝 x, 0 < 1 + w :=
      (continuous_const.add continuous_id).continuousAt.eventually (lt_mem_nhds (show 0 < 1 + id x from hx))
    filter_upwards [this] with w hw
    simp [Un.fr, Un.f, npLog, hw]
  | neg => exact ⟨_, (hasDerivAt_neg x).congr_of_eventuallyEq (Eventually.of_forall fun w => by simp [Un.fr, Un.f])⟩
  | sqrt =>
    have hx := hs rfl
    simp only [Un.f] at h
    split at h
    · rename_i h0
      have hpos : 0 < x := lt_of_le_of_ne h0 (Ne.symm hx)
      refine ⟨_, (Real.hasDerivAt_sqrt hx).congr_of_eventuallyEq ?_⟩
      filter_upwards [lt_mem_nhds hpos] with w hw
      simp [Un.fr, Un.f, hw.le]
    · simp at h
  | ipow k =>
    simp only [Un.f] at h
    split at h
    · simp at h
    · rename_i hc
      have hc' : x ≠ 0 ∨ 0 ≤ k := by
        by_cases hx : x = 0
        · right; by_contra hk; exact hc ⟨hx, by omega⟩
        · exact .inl hx
      refine ⟨_, (hasDerivAt_zpow k x hc').congr_of_eventuallyEq ?_⟩
      rcases hc' with hx | hk
      · filter_upwards [isOpen_ne.mem_nhds hx] with w hw
        simp [Un.fr, Un.f, hw]
      · exact Eventually.of_forall fun w => by simp [Un.fr, Un.f, not_lt.2 hk]
  | reshape => exact ⟨_, (hasDerivAt_id x).congr_of_eventuallyEq (Eventually.of_forall fun w => by simp [Un.fr, Un.f])⟩
  | convert => exact ⟨_, (hasDerivAt_id x).congr_of_eventuallyEq (Eventually.of_forall fun w => by simp [Un.fr, Un.f])⟩
  | expit =>
    have h1 : HasDerivAt (fun w : ℝ => 1 + Real.exp (-w)) (Real.exp (-x) * (-1)) x :=
      ((hasDerivAt_neg x).exp).const_add 1
    exact ⟨_, (h1.inv (by positivity)).congr_of_eventuallyEq (Eventually.of_forall fun w => by simp [Un.fr, Un.f])⟩
  | logit =>
    simp only [Un.f] at h
    split at h
    · rename_i hc
      have h1 : 0 < 1 - x := by linarith [hc.2]
      have h2 : HasDerivAt (fun w : ℝ => w / (1 - w)) ((1 * (1 - x) - x * (-1)) / (1 - x) ^ 2) x :=
        (hasDerivAt_id x).div ((hasDerivAt_id x).const_sub 1) h1.ne'
      refine ⟨_, (h2.log (div_pos hc.1 h1).ne').congr_of_eventuallyEq ?_⟩
      filter_upwards [lt_mem_nhds hc.1, gt_mem_nhds hc.2] with w hw hw'
      simp [Un.fr, Un.f, hw, hw']
    · simp at h
  | softplus =>
    have h1 : HasDerivAt (fun w : ℝ => 1 + Real.exp w) (Real.exp x) x := (Real.hasDerivAt_exp x).const_add 1
    exact ⟨_, (h1.log (by positivity)).congr_of_eventuallyEq (Eventually.of_forall fun w => by simp [Un.fr, Un.f])⟩

/-- The increment of the ILDJ, where it is a number, is minus the log of the absolute derivative of the primitive. -/
theorem Un.dlog_forward (p : Un) (hp : p ≠ .reshape ∧ p ≠ .convert) (x z d f' : ℝ) (hok : p.ok x)
    (h : p.f x = some z) (hs : p = .sqrt → x ≠ 0) (hd : p.dlog z = some d) (hf : HasDerivAt p.fr f' x) :
    f' ≠ 0 ∧ d = - Real.log |f'| := by
  have hx := p.left_inverse x z hok h
  obtain ⟨g', hg, hg0, rfl, hev⟩ := p.dlog_spec hp z x d hx hd
  have hgz : p.gr z = x := by simp [Un.gr, hx]
  have hfg : HasDerivAt (fun w => p.fr (p.gr w)) (f' * g') z := by
    have : HasDerivAt p.fr f' (p.gr z) := by rw [hgz]; exact hf
    exact this.comp z hg
  have hid : ∀ᶠ w in 𝓝 z, p.fr (p.gr w) = w := by
    by_cases hsq : p = .sqrt
    · subst hsq
      have hx0 := hs rfl
      simp only [Un.f] at h
      split at h
      · rename_i h0
        have hpos : 0 < x := lt_of_le_of_ne h0 (Ne.symm hx0)
        simp only [Option.some.injEq] at h
        subst h
        filter_upwards [lt_mem_nhds (Real.sqrt_pos.2 hpos)] with w hw
        simp [Un.fr, Un.gr, Un.f, Un.g, sq_nonneg, Real.sqrt_sq hw.le]
      · simp at h
    · filter_upwards [hev] with w hw
      rcases hgw : p.g w with _ | v
      · exact absurd hgw hw
      · have := p.right_inverse hsq w v hgw
        simp [Un.gr, hgw, Un.fr, this]
  have h1 : f' * g' = 1 := (hfg.congr_of_eventuallyEq (hid.mono fun w hw => hw.symm)).unique (hasDerivAt_id z)
  have hf0 : f' ≠ 0 := by rintro rfl; simp at h1
  refine ⟨hf0, ?_⟩
  have : g' = f'⁻¹ := by field_simp; linarith
  rw [this, abs_inv, Real.log_inv]

/-! ### Binary primitives -/

/-- The primitive as a function on the plane. -/
noncomputable def Bin.fr (p : Bin) (q : ℝ × ℝ) : ℝ := (p.f q.1 q.2).getD 0

/-- Every binary primitive is differentiable where it is defined; and the increments of the ILDJ, where they are
numbers, are minus the logs of the absolute partial derivatives. -/
theorem Bin.hasDeriv (p : Bin) (l r z : ℝ) (h : p.f l r = some z) (hok : p.ok l r) :
    ∃ α β, HasFDerivAt p.fr (α • ContinuousLinearMap.fst ℝ ℝ ℝ + β • ContinuousLinearMap.snd ℝ ℝ ℝ) (l, r) ∧
      (∀ d, p.ll l z = some d → β ≠ 0 ∧ d = - Real.log |β|) ∧ (∀ d, p.lr r z = some d → α ≠ 0 ∧ d = - Real.log |α|) := by
  have hfst : HasFDerivAt (fun q : ℝ × ℝ => q.1) (ContinuousLinearMap.fst ℝ ℝ ℝ) (l, r) := hasFDerivAt_fst
  have hsnd : HasFDerivAt (fun q : ℝ × ℝ => q.2) (ContinuousLinearMap.snd ℝ ℝ ℝ) (l, r) := hasFDerivAt_snd
  cases p with
  | add =>
    refine ⟨1, 1, ?_, ?_, ?_⟩
    · refine ((hfst.add hsnd).congr_of_eventuallyEq (Eventually.of_forall fun q => by simp [Bin.fr, Bin.f])).congr_fderiv ?_
      simp
    · intro d hd; simp [Bin.ll] at hd; simp [← hd]
    · intro d hd; simp [Bin.lr] at hd; simp [← hd]
  | sub =>
    refine ⟨1, -1, ?_, ?_, ?_⟩
    · refine ((hfst.sub hsnd).congr_of_eventuallyEq (Eventually.of_forall fun q => by simp [Bin.fr, Bin.f])).congr_fderiv ?_
      ext <;> simp
    · intro d hd; simp [Bin.ll] at hd; simp [← hd]
    · intro d hd; simp [Bin.lr] at hd; simp [← hd]
  | mul =>
    refine ⟨r, l, ?_, ?_, ?_⟩
    · refine ((hfst.mul hsnd).congr_of_eventuallyEq (Eventually.of_forall fun q => by simp [Bin.fr, Bin.f])).congr_fderiv ?_
      rw [add_comm]
    · intro d hd
      simp only [Bin.ll, Option.map_eq_some_iff] at hd
      obtain ⟨a, ha, rfl⟩ := hd
      exact ⟨hok.1, by rw [(npLog_some ha).2]⟩
    · intro d hd
      simp only [Bin.lr, Option.map_eq_some_iff] at hd
      obtain ⟨a, ha, rfl⟩ := hd
      exact ⟨hok.2, by rw [(npLog_some ha).2]⟩
  | div =>
    simp only [Bin.f] at h
    split at h
    · simp at h
    · rename_i hr
      simp only [Option.some.injEq] at h
      subst h
      have hl0 : l ≠ 0 := hok
      refine ⟨r⁻¹, -(l / r ^ 2), ?_, ?_, ?_⟩
      · have hinv : HasFDerivAt (fun q : ℝ × ℝ => q.2⁻¹) ((-(r ^ 2)⁻¹) • ContinuousLinearMap.snd ℝ ℝ ℝ) (l, r) :=
          (hasDerivAt_inv hr).comp_hasFDerivAt (l, r) hsnd
        refine ((hfst.mul hinv).congr_of_eventuallyEq ?_).congr_fderiv ?_
        · have : ∀ᶠ q : ℝ × ℝ in 𝓝 (l, r), q.2 ≠ 0 := (isOpen_ne.preimage continuous_snd).mem_nhds hr
          filter_upwards [this] with q hq
          simp [Bin.fr, Bin.f, hq, div_eq_mul_inv]
        · ext <;> simp [div_eq_mul_inv]
      · intro d hd
        simp only [Bin.ll, Option.bind_eq_bind, Option.bind_eq_some_iff, Option.pure_def, Option.some.injEq] at hd
        obtain ⟨a, ha, b, hb, rfl⟩ := hd
        obtain ⟨hl, rfl⟩ := npLog_some ha
        obtain ⟨hz, rfl⟩ := npLog_some hb
        have hr2 : 0 < r ^ 2 := by positivity
        have hrp : 0 < r := by
          rcases div_pos_iff.1 hz with h | h
          · exact h.2
          · linarith [h.1]
        refine ⟨by have := div_pos hl hr2; linarith, ?_⟩
        rw [abs_neg, abs_of_pos (div_pos hl hr2), Real.log_div hl.ne' hr, Real.log_div hl.ne' hr2.ne', Real.log_pow]
        push_cast; ring
      · intro d hd
        obtain ⟨hr', rfl⟩ := npLog_some hd
        exact ⟨inv_ne_zero hr, by rw [abs_inv, Real.log_inv, neg_neg]⟩
  | pow =>
    simp only [Bin.f] at h
    split at h
    · rename_i hl
      simp only [Option.some.injEq] at h
      subst h
      refine ⟨r * l ^ (r - 1), l ^ r * Real.log l, ?_, ?_, ?_⟩
      · refine (Real.hasStrictFDerivAt_rpow_of_pos (l, r) hl).hasFDerivAt.congr_of_eventuallyEq ?_
        have : ∀ᶠ q : ℝ × ℝ in 𝓝 (l, r), 0 < q.1 := continuous_fst.continuousAt.eventually (lt_mem_nhds hl)
        filter_upwards [this] with q hq
        simp [Bin.fr, Bin.f, hq]
      · intro d hd
        simp only [Bin.ll, Option.bind_eq_bind, Option.bind_eq_some_iff, Option.pure_def, Option.some.injEq] at hd
        obtain ⟨a, ha, b, hb, c, hc, rfl⟩ := hd
        obtain ⟨hz, rfl⟩ := npLog_some ha
        obtain ⟨-, rfl⟩ := npLog_some hb
        obtain ⟨hll, rfl⟩ := npLog_some hc
        refine ⟨(mul_pos hz hll).ne', ?_⟩
        rw [abs_of_pos (mul_pos hz hll), Real.log_mul hz.ne' hll.ne']; ring
      · intro d hd
        simp only [Bin.lr, if_neg hok.2, Option.bind_eq_bind, Option.bind_eq_some_iff, Option.pure_def, Option.some.injEq] at hd
        obtain ⟨a, ha, b, hb, rfl⟩ := hd
        obtain ⟨hz, rfl⟩ := npLog_some ha
        obtain ⟨hr, rfl⟩ := npLog_some hb
        have hp := Real.rpow_pos_of_pos hl (r - 1)
        refine ⟨(mul_pos hr hp).ne', ?_⟩
        rw [abs_of_pos (mul_pos hr hp), Real.log_mul hr.ne' hp.ne', Real.log_rpow hl, Real.log_rpow hl]
        field_simp; ring
    · simp at h

end Verif.Inverse
