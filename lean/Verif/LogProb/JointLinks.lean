import Verif.LogProb.JointLawProps
import Mathlib.MeasureTheory.Function.JacobianOneDim

/-! C81: random variables whose function applies operations to the drawn value. -/
namespace Verif.LogProb.Joint

open Verif.Propagate Verif.Inverse Verif.Plate MeasureTheory
open scoped ENNReal

variable {Ω : Type}

/-- The link can be applied to `x`, on the branch that the registered inverse chooses. -/
def Link.OkAt (val : ℕ → ℝ) (x : ℝ) : Link → Prop
  | .un p => p.f x ≠ none ∧ p.ok x ∧ (p ≠ .reshape ∧ p ≠ .convert) ∧ (p = .sqrt → x ≠ 0)
  | .left p a => ∃ w, aval val a = some w ∧ p.f w x ≠ none ∧ p.ok w x
  | .right p a => ∃ w, aval val a = some w ∧ p.f x w ≠ none ∧ p.ok x w

/-- All links. -/
def LinksOkAt (val : ℕ → ℝ) : ℝ → List (Link × ℕ) → Prop
  | _, [] => True
  | x, (l, _) :: ls => l.OkAt val x ∧ LinksOkAt val (l.map val x) ls

/-- The environment in which every variable has its value. -/
abbrev realEnv (val : ℕ → ℝ) : Env ICell := fun x => some (some (val x), some 0)

theorem read_realEnv (val : ℕ → ℝ) (a : Atom F) : Propagate.read iOps (realEnv val) a = some (aval val a, some 0) := by
  cases a <;> rfl

/-- One link backwards. -/
theorem Link.back_at {val : ℕ → ℝ} (l : Link) (x : ℝ) (h : l.OkAt val x) (m v k : F)
    (hb : l.back (realEnv val) (some (some (l.map val x), m)) = some (v, k)) :
    v = some x ∧ ∀ q, k = some q → ∃ b d', m = some b ∧ HasDerivAt (l.map val) d' x ∧ d' ≠ 0 ∧
      q = b - Real.log |d'| := by
  cases l with
  | un p =>
    obtain ⟨h1, h2, h3, h4⟩ := h
    obtain ⟨z, hz⟩ := Option.ne_none_iff_exists'.1 h1
    have hfr : p.fr x = z := by simp [Un.fr, hz]
    simp only [Link.map, hfr] at hb ⊢
    simp only [Link.back, Option.map_some, Option.some.injEq, Prod.mk.injEq, Option.bind_some] at hb
    obtain ⟨rfl, rfl⟩ := hb
    refine ⟨p.left_inverse _ _ h2 hz, fun q hq => ?_⟩
    have hld : p.ld m (some z) = addF m (p.dlog z) := by
      cases p <;> first | rfl | exact absurd rfl h3.1 | exact absurd rfl h3.2
    rw [hld] at hq
    obtain ⟨b, d, rfl, hd, rfl⟩ := addF_some hq
    obtain ⟨f', hf⟩ := p.hasDeriv _ _ hz h4
    obtain ⟨h5, h6⟩ := p.dlog_forward h3 _ _ d f' h2 hz h4 hd hf
    exact ⟨b, f', rfl, hf, h5, by rw [h6]; ring⟩
  | left p a =>
    obtain ⟨w, h1, h2, h3⟩ := h
    obtain ⟨z, hz⟩ := Option.ne_none_iff_exists'.1 h2
    have hmap : (Link.left p a).map val = fun x => p.fr (w, x) := by
      funext x
      simp [Link.map, h1]
    have hfr : p.fr (w, x) = z := by simp [Bin.fr, hz]
    simp only [hmap, hfr] at hb ⊢
    simp only [Link.back, read_realEnv, h1, Option.bind_some, Option.map_some, Option.some.injEq, Prod.mk.injEq,
      bind2] at hb
    obtain ⟨rfl, rfl⟩ := hb
    refine ⟨p.left_inverse _ _ _ h3 hz, fun q hq => ?_⟩
    obtain ⟨b, d, rfl, hd, rfl⟩ := addF_some hq
    obtain ⟨α, β, hf, hβ, -⟩ := p.hasDeriv _ _ _ hz h3
    obtain ⟨h5, h6⟩ := hβ d hd
    refine ⟨b, β, rfl, ?_, h5, by rw [h6]; ring⟩
    have hg : HasDerivAt (fun x : ℝ => (w, x)) ((0 : ℝ), (1 : ℝ)) x :=
      (hasDerivAt_const x w).prodMk (hasDerivAt_id x)
    refine (hf.comp_hasDerivAt x hg).congr_deriv ?_
    simp
  | right p a =>
    obtain ⟨w, h1, h2, h3⟩ := h
    obtain ⟨z, hz⟩ := Option.ne_none_iff_exists'.1 h2
    have hmap : (Link.right p a).map val = fun x => p.fr (x, w) := by
      funext x
      simp [Link.map, h1]
    have hfr : p.fr (x, w) = z := by simp [Bin.fr, hz]
    simp only [hmap, hfr] at hb ⊢
    simp only [Link.back, read_realEnv, h1, Option.bind_some, Option.map_some, Option.some.injEq, Prod.mk.injEq,
      bind2] at hb
    obtain ⟨rfl, rfl⟩ := hb
    refine ⟨p.right_inverse _ _ _ h3 hz, fun q hq => ?_⟩
    obtain ⟨b, d, rfl, hd, rfl⟩ := addF_some hq
    obtain ⟨α, β, hf, -, hα⟩ := p.hasDeriv _ _ _ hz h3
    obtain ⟨h5, h6⟩ := hα d hd
    refine ⟨b, α, rfl, ?_, h5, by rw [h6]; ring⟩
    have hg : HasDerivAt (fun x : ℝ => (x, w)) ((1 : ℝ), (0 : ℝ)) x :=
      (hasDerivAt_id x).prodMk (hasDerivAt_const x w)
    refine (hf.comp_hasDerivAt x hg).congr_deriv ?_
    simp

/-- All links backwards. -/
theorem chainCell_at {val : ℕ → ℝ} (ls : List (Link × ℕ)) : ∀ x, LinksOkAt val x ls → ∀ v k,
    chainCell (realEnv val) ls (some (some (pushes val ls x), some 0)) = some (v, k) →
      v = some x ∧ ∀ q, k = some q →
        ∃ d', HasDerivAt (pushes val ls) d' x ∧ d' ≠ 0 ∧ q = - Real.log |d'| := by
  induction ls with
  | nil =>
    intro x _ v k h
    simp only [chainCell, pushes, Option.some.injEq, Prod.mk.injEq] at h
    obtain ⟨rfl, rfl⟩ := h
    refine ⟨rfl, fun q hq => ⟨1, hasDerivAt_id _, one_ne_zero, ?_⟩⟩
    simp only [Option.some.injEq] at hq
    simp [← hq]
  | cons p ls ih =>
    obtain ⟨l, y⟩ := p
    intro x hr v k hck
    rw [chainCell] at hck
    simp only [pushes] at hck ⊢
    rcases hm : chainCell (realEnv val) ls (some (some (pushes val ls (l.map val x)), some 0)) with _ | ⟨w, m⟩
    · rw [hm] at hck
      cases l <;> simp [Link.back] at hck
    rw [hm] at hck
    obtain ⟨rfl, h2⟩ := ih _ hr.2 w m hm
    obtain ⟨rfl, h3⟩ := Link.back_at l x hr.1 m v k hck
    refine ⟨rfl, fun q hq => ?_⟩
    obtain ⟨b, d', rfl, h4, h5, h6⟩ := h3 q hq
    obtain ⟨d2, h7, h8, h9⟩ := h2 b rfl
    refine ⟨d2 * d', h7.comp x h4, mul_ne_zero h8 h5, ?_⟩
    rw [h6, h9, abs_mul, Real.log_mul (abs_ne_zero.2 h8) (abs_ne_zero.2 h5)]
    ring

/-- The links of a random variable can be inverted on a set `A` that carries its distribution: they can be applied on the
branches of the registered inverses, the ILDJ is a number, and (almost) no value outside of the image of `A` is given a
density. -/
structure Draw.Invertible (D : Draw) (val : ℕ → ℝ) (A : Set ℝ) : Prop where
  measurableSet : MeasurableSet A
  measurable : Measurable (pushes val D.links)
  carries : ∀ᵐ x : ℝ, x ∉ A → dens (D.logp (D.params val) [some x]) = 0
  applies : ∀ x ∈ A, LinksOkAt val x D.links
  number : ∀ x ∈ A, ∃ v q, chainCell (realEnv val) D.links (some (some (pushes val D.links x), some 0))
    = some (v, some q)
  range : ∀ᵐ y : ℝ, dens (D.lp val y) ≠ 0 → y ∈ pushes val D.links '' A

/-- **C81.** The change of variables of a random variable: if the drawn value has the log density of the distribution, the
value after the operations has the log density that enters `joint_log_prob`. -/
theorem links_law {W : Type} [MeasurableSpace W] (Q : Measure W) (D : Draw) (val : ℕ → ℝ) (A : Set ℝ)
    (h : D.Invertible val A) (s : W → ℝ) (hs : Measurable s) (hp : Measurable fun x : ℝ => dens (D.logp (D.params val) [some x]))
    (hl : Measurable fun y : ℝ => dens (D.lp val y))
    (hlaw : Q.map s = volume.withDensity fun x => dens (D.logp (D.params val) [some x])) :
    Q.map (fun w => pushes val D.links (s w)) = volume.withDensity fun y => dens (D.lp val y) := by
  have hlp : ∀ x ∈ A, ∃ d', HasDerivAt (pushes val D.links) d' x ∧ d' ≠ 0 ∧
      dens (D.lp val (pushes val D.links x))
        = dens (D.logp (D.params val) [some x]) * ENNReal.ofReal (Real.exp (- Real.log |d'|)) := by
    intro x hx
    obtain ⟨v, q, hc⟩ := h.number x hx
    obtain ⟨rfl, h2⟩ := chainCell_at D.links x (h.applies x hx) v (some q) hc
    obtain ⟨d', h3, h4, rfl⟩ := h2 q rfl
    refine ⟨d', h3, h4, ?_⟩
    rw [Draw.lp, hc, dens_addF]
    rfl
  have hinj : Set.InjOn (pushes val D.links) A := by
    intro x hx x' hx' he
    obtain ⟨v, q, hc⟩ := h.number x hx
    obtain ⟨v', q', hc'⟩ := h.number x' hx'
    have h1 := (chainCell_at D.links x (h.applies x hx) v _ hc).1
    have h2 := (chainCell_at D.links x' (h.applies x' hx') v' _ hc').1
    rw [he, hc'] at hc
    simp only [Option.some.injEq, Prod.mk.injEq] at hc
    rw [h1, h2] at hc
    exact (Option.some.inj hc.1).symm
  choose! d' hd1 hd2 hd3 using hlp
  rw [show (fun w => pushes val D.links (s w)) = pushes val D.links ∘ s from rfl,
    ← Measure.map_map h.measurable hs, hlaw]
  ext B hB
  rw [Measure.map_apply h.measurable hB, withDensity_apply _ (h.measurable hB), withDensity_apply _ hB]
  have hC : MeasurableSet (A ∩ pushes val D.links ⁻¹' B) := h.measurableSet.inter (h.measurable hB)
  have hderiv : ∀ x ∈ A ∩ pushes val D.links ⁻¹' B,
      HasDerivWithinAt (pushes val D.links) (d' x) (A ∩ pushes val D.links ⁻¹' B) x := fun x hx =>
    (hd1 x hx.1).hasDerivWithinAt
  have himg : MeasurableSet (pushes val D.links '' (A ∩ pushes val D.links ⁻¹' B)) :=
    measurable_image_of_fderivWithin hC (fun x hx => (hderiv x hx).hasFDerivWithinAt)
      (hinj.mono Set.inter_subset_left)
  have e1 : ∫⁻ x in pushes val D.links ⁻¹' B, dens (D.logp (D.params val) [some x])
      = ∫⁻ x in A ∩ pushes val D.links ⁻¹' B, dens (D.logp (D.params val) [some x]) := by
    rw [← lintegral_indicator (h.measurable hB), ← lintegral_indicator hC]
    refine lintegral_congr_ae ?_
    filter_upwards [h.carries] with x hx
    by_cases hb : x ∈ pushes val D.links ⁻¹' B
    · by_cases ha : x ∈ A
      · rw [Set.indicator_of_mem hb, Set.indicator_of_mem (Set.mem_inter ha hb)]
      · rw [Set.indicator_of_mem hb, Set.indicator_of_notMem (fun hc => ha hc.1), hx ha]
    · rw [Set.indicator_of_notMem hb, Set.indicator_of_notMem (fun hc => hb hc.2)]
  have e2 : ∫⁻ y in B, dens (D.lp val y)
      = ∫⁻ y in pushes val D.links '' (A ∩ pushes val D.links ⁻¹' B), dens (D.lp val y) := by
    rw [← lintegral_indicator hB, ← lintegral_indicator himg]
    refine lintegral_congr_ae ?_
    filter_upwards [h.range] with y hy
    by_cases hb : y ∈ B
    · by_cases h0 : dens (D.lp val y) = 0
      · rw [Set.indicator_of_mem hb, h0]
        by_cases hm : y ∈ pushes val D.links '' (A ∩ pushes val D.links ⁻¹' B)
        · rw [Set.indicator_of_mem hm, h0]
        · rw [Set.indicator_of_notMem hm]
      · obtain ⟨x, hx, rfl⟩ := hy h0
        rw [Set.indicator_of_mem hb, Set.indicator_of_mem (Set.mem_image_of_mem _ (Set.mem_inter hx hb))]
    · rw [Set.indicator_of_notMem hb, Set.indicator_of_notMem]
      rintro ⟨x, ⟨-, hx⟩, rfl⟩
      exact hb hx
  rw [e1, e2, lintegral_image_eq_lintegral_abs_deriv_mul hC hderiv (hinj.mono Set.inter_subset_left)]
  refine setLIntegral_congr_fun hC fun x hx => ?_
  rw [hd3 x hx.1, mul_comm (ENNReal.ofReal _), mul_assoc, ← ENNReal.ofReal_mul (Real.exp_nonneg _), Real.exp_neg,
    Real.exp_log (abs_pos.2 (hd2 x hx.1)), inv_mul_cancel₀ (abs_ne_zero.2 (hd2 x hx.1)), ENNReal.ofReal_one, mul_one]

/-- **C81.** The condition `Sampled` of `joint_sample_density_partial` from the distribution of the drawn value. -/
theorem draw_sampled {W : Type} [MeasurableSpace W] (Q : Measure W) (samp : Draw → List F → W → ℝ) (D : Draw)
    (hinv : ∀ val, ∃ A, D.Invertible val A)
    (h1 : Measurable fun z : (ℕ → ℝ) × W => pushes z.1 D.links (samp D (D.params z.1) z.2))
    (h2 : Measurable fun z : (ℕ → ℝ) × ℝ => dens (D.lp z.1 z.2))
    (h3 : ∀ val, Measurable (samp D (D.params val)))
    (h4 : ∀ val, Measurable fun x : ℝ => dens (D.logp (D.params val) [some x]))
    (hlaw : ∀ val, Q.map (samp D (D.params val)) = volume.withDensity fun x => dens (D.logp (D.params val) [some x])) :
    (Stmt.draw D).Sampled Q samp := by
  refine ⟨h1, h2, fun val => ?_⟩
  obtain ⟨A, hA⟩ := hinv val
  exact links_law Q D val A hA _ (h3 val) (h4 val) (h2.comp (measurable_const.prodMk measurable_id)) (hlaw val)

end Verif.LogProb.Joint
