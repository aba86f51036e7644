import Verif.LogProb.JointSample
import Verif.Plate.Lemmas
import Verif.Plate.Props

/-! C81: the distribution of the samples of a program. -/
namespace Verif.LogProb.Joint

open Verif.Propagate Verif.Inverse Verif.Plate MeasureTheory
open scoped ENNReal

variable {Ω : Type}

/-- The samples as a function of the randomness of each draw. -/
noncomputable def vec {W : Type} (samp : Draw → List F → W → ℝ) : (body : List Stmt) → (ℕ → ℝ) →
    (Fin (draws body).length → W) → Fin (draws body).length → ℝ
  | [], _, _ => fun i => i.elim0
  | .det op ins outs :: rest, val, w => vec samp rest (setAll val outs (op.eval (ins.map (aval val)))) w
  | .draw D :: rest, val, w =>
    let y := pushes val D.links (samp D (D.params val) (w (0 : Fin ((draws rest).length + 1))))
    Fin.cons y (vec samp rest (setR val (lastVar D.value D.links) y)
      (Fin.tail (n := (draws rest).length) w))
  | .tag _ _ :: rest, val, w => vec samp rest val w

/-- The joint density, random variable by random variable. -/
noncomputable def jd : (body : List Stmt) → (ℕ → ℝ) → (Fin (draws body).length → ℝ) → ℝ≥0∞
  | [], _, _ => 1
  | .det op ins outs :: rest, val, y => jd rest (setAll val outs (op.eval (ins.map (aval val)))) y
  | .draw D :: rest, val, y =>
    dens (D.lp val (y (0 : Fin ((draws rest).length + 1)))) *
      jd rest (setR val (lastVar D.value D.links) (y (0 : Fin ((draws rest).length + 1))))
        (Fin.tail (n := (draws rest).length) y)
  | .tag _ _ :: rest, val, y => jd rest val y

/-- The operations are measurable functions, and the value of a random variable has the given density, given the values
before it. -/
def Stmt.Sampled {W : Type} [MeasurableSpace W] (Q : Measure W) (samp : Draw → List F → W → ℝ) : Stmt → Prop
  | .det op ins outs => Measurable fun val : ℕ → ℝ => setAll val outs (op.eval (ins.map (aval val)))
  | .draw D =>
    Measurable (fun z : (ℕ → ℝ) × W => pushes z.1 D.links (samp D (D.params z.1) z.2)) ∧
    Measurable (fun z : (ℕ → ℝ) × ℝ => dens (D.lp z.1 z.2)) ∧
    ∀ val, Q.map (fun w => pushes val D.links (samp D (D.params val) w))
      = volume.withDensity fun y => dens (D.lp val y)
  | .tag _ _ => True

theorem measurable_setR {T : Type} [MeasurableSpace T] {val : T → ℕ → ℝ} (he : Measurable val) (x : ℕ)
    {v : T → ℝ} (hv : Measurable v) : Measurable fun t => setR (val t) x (v t) := by
  refine measurable_pi_lambda _ fun y => ?_
  by_cases h : y = x
  · simpa [setR, h] using hv
  · simpa [setR, h] using show Measurable fun t => val t y from (measurable_pi_apply y).comp he

theorem measurable_tail {X T : Type} [MeasurableSpace X] [MeasurableSpace T] {n : ℕ} {w : T → Fin (n + 1) → X}
    (hw : Measurable w) : Measurable fun t => (Fin.tail (w t) : Fin n → X) :=
  measurable_pi_lambda _ fun i => (measurable_pi_apply i.succ).comp hw

theorem measurable_cons {X T : Type} [MeasurableSpace X] [MeasurableSpace T] {n : ℕ} {a : T → X} {w : T → Fin n → X}
    (ha : Measurable a) (hw : Measurable w) : Measurable fun t => (Fin.cons (a t) (w t) : Fin (n + 1) → X) := by
  refine measurable_pi_lambda _ fun i => ?_
  refine Fin.cases ?_ (fun i => ?_) i
  · simpa using ha
  · simpa using show Measurable fun t => w t i from (measurable_pi_apply i).comp hw

theorem vec_measurable {W T : Type} [MeasurableSpace W] [MeasurableSpace T] (Q : Measure W)
    (samp : Draw → List F → W → ℝ) (body : List Stmt) (h : ∀ st ∈ body, st.Sampled Q samp) :
    ∀ (val : T → ℕ → ℝ) (w : T → Fin (draws body).length → W), Measurable val → Measurable w →
      Measurable fun t => vec samp body (val t) (w t) := by
  induction body with
  | nil =>
    intro val w _ _
    exact measurable_pi_lambda _ fun i => i.elim0
  | cons st rest ih =>
    have ih := ih fun s hs => h s (List.mem_cons_of_mem _ hs)
    have hst := h st List.mem_cons_self
    intro val w hv hw
    cases st with
    | det op ins outs => exact ih _ w (hst.comp hv) hw
    | tag n a => exact ih _ w hv hw
    | draw D =>
      have hy : Measurable fun t => pushes (val t) D.links (samp D (D.params (val t)) (w t (0 : Fin ((draws rest).length + 1)))) :=
        hst.1.comp (hv.prodMk ((measurable_pi_apply (0 : Fin ((draws rest).length + 1))).comp hw))
      exact measurable_cons hy (ih _ _ (measurable_setR hv _ hy) (measurable_tail hw))

theorem jd_measurable {W T : Type} [MeasurableSpace W] [MeasurableSpace T] (Q : Measure W)
    (samp : Draw → List F → W → ℝ) (body : List Stmt) (h : ∀ st ∈ body, st.Sampled Q samp) :
    ∀ (val : T → ℕ → ℝ) (y : T → Fin (draws body).length → ℝ), Measurable val → Measurable y →
      Measurable fun t => jd body (val t) (y t) := by
  induction body with
  | nil =>
    intro val w _ _
    exact measurable_const
  | cons st rest ih =>
    have ih := ih fun s hs => h s (List.mem_cons_of_mem _ hs)
    have hst := h st List.mem_cons_self
    intro val y hv hy
    cases st with
    | det op ins outs => exact ih _ y (hst.comp hv) hy
    | tag n a => exact ih _ y hv hy
    | draw D =>
      have h0 : Measurable fun t => y t (0 : Fin ((draws rest).length + 1)) :=
        (measurable_pi_apply (0 : Fin ((draws rest).length + 1))).comp hy
      exact (hst.2.1.comp (hv.prodMk h0)).mul (ih _ _ (measurable_setR hv _ h0) (measurable_tail hy))

theorem lintegral_pi_succ {X : Type} [MeasurableSpace X] (μ : Measure X) [SigmaFinite μ] (n : ℕ)
    (f : (Fin (n + 1) → X) → ℝ≥0∞) (hf : Measurable f) :
    ∫⁻ x, f x ∂(Measure.pi fun _ => μ) = ∫⁻ a, ∫⁻ y, f (Fin.cons a y) ∂(Measure.pi fun _ : Fin n => μ) ∂μ := by
  have hmp := (measurePreserving_piFinSuccAbove (fun _ : Fin (n + 1) => μ) 0).symm
  rw [← hmp.lintegral_comp_emb (MeasurableEquiv.measurableEmbedding _)]
  have hz : ∀ z : X × (Fin n → X), (MeasurableEquiv.piFinSuccAbove (fun _ : Fin (n + 1) => X) 0).symm z
      = Fin.cons z.1 z.2 := by
    intro z
    simp [MeasurableEquiv.piFinSuccAbove, Fin.insertNthEquiv]
  simp only [hz]
  have hm : Measurable fun z : X × (Fin n → X) => f (Fin.cons z.1 z.2 : Fin (n + 1) → X) :=
    hf.comp (measurable_cons measurable_fst measurable_snd)
  exact lintegral_prod _ hm.aemeasurable

/-- The samples have the joint density. -/
theorem vec_law {W : Type} [MeasurableSpace W] (Q : Measure W) [IsProbabilityMeasure Q]
    (samp : Draw → List F → W → ℝ) (body : List Stmt) (h : ∀ st ∈ body, st.Sampled Q samp) :
    ∀ val : ℕ → ℝ, (Measure.pi fun _ => Q).map (vec samp body val)
      = (Measure.pi fun _ => (volume : Measure ℝ)).withDensity (jd body val) := by
  intro val
  have hv : ∀ val, Measurable (vec samp body val) := fun val =>
    vec_measurable Q samp body h (fun _ => val) (fun w => w) measurable_const measurable_id
  have hj : ∀ val, Measurable (jd body val) := fun val =>
    jd_measurable Q samp body h (fun _ => val) (fun w => w) measurable_const measurable_id
  suffices hs : ∀ val (g : (Fin (draws body).length → ℝ) → ℝ≥0∞), Measurable g →
      ∫⁻ w, g (vec samp body val w) ∂(Measure.pi fun _ => Q)
        = ∫⁻ y, jd body val y * g y ∂(Measure.pi fun _ => (volume : Measure ℝ)) by
    refine Measure.ext_of_lintegral _ fun g hg => ?_
    rw [lintegral_map hg (hv val), hs val g hg, lintegral_withDensity_eq_lintegral_mul _ (hj val) hg]
    rfl
  clear hv hj val
  induction body with
  | nil =>
    intro val g hg
    have e : (fun w : Fin (draws []).length → W => g (vec samp [] val w)) = fun _ => g (fun i => i.elim0) := by
      funext w
      congr 1
    have e2 : (fun y : Fin (draws []).length → ℝ => jd [] val y * g y) = fun _ => g (fun i => i.elim0) := by
      funext y
      simp only [jd, one_mul]
      congr 1
      funext i
      exact i.elim0
    rw [e, e2]
    have : IsEmpty (Fin (draws []).length) := inferInstanceAs (IsEmpty (Fin 0))
    rw [Measure.pi_of_empty, Measure.pi_of_empty, lintegral_dirac' _ measurable_const,
      lintegral_dirac' _ measurable_const]
  | cons st rest ih =>
    have hrest : ∀ s ∈ rest, s.Sampled Q samp := fun s hs => h s (List.mem_cons_of_mem _ hs)
    have ih := ih hrest
    have hst := h st List.mem_cons_self
    intro val g hg
    cases st with
    | det op ins outs => exact ih _ g hg
    | tag n a => exact ih _ g hg
    | draw D =>
      obtain ⟨h1, h2, h3⟩ := hst
      have hy : Measurable fun w : W => pushes val D.links (samp D (D.params val) w) :=
        h1.comp (measurable_const.prodMk measurable_id)
      have hd : Measurable fun y : ℝ => dens (D.lp val y) := h2.comp (measurable_const.prodMk measurable_id)
      have hV := vec_measurable Q samp (.draw D :: rest) h (fun _ => val) (fun w => w) measurable_const measurable_id
      have hJ := jd_measurable Q samp (.draw D :: rest) h (fun _ => val) (fun w => w) measurable_const measurable_id
      refine (lintegral_pi_succ Q (draws rest).length (fun w => g (vec samp (.draw D :: rest) val w))
        (hg.comp hV)).trans ?_
      refine Eq.trans ?_ (lintegral_pi_succ volume (draws rest).length
        (fun y => jd (.draw D :: rest) val y * g y) (hJ.mul hg)).symm
      -- the inner integral as a function of the value of the first random variable
      let G : ℝ → ℝ≥0∞ := fun y => ∫⁻ ys, jd rest (setR val (lastVar D.value D.links) y) ys
        * g (Fin.cons y ys : Fin ((draws rest).length + 1) → ℝ) ∂(Measure.pi fun _ => (volume : Measure ℝ))
      have hG : Measurable G := by
        refine Measurable.lintegral_prod_right' (f := fun z : ℝ × (Fin (draws rest).length → ℝ) =>
          jd rest (setR val (lastVar D.value D.links) z.1) z.2
            * g (Fin.cons z.1 z.2 : Fin ((draws rest).length + 1) → ℝ)) ?_
        exact (jd_measurable Q samp rest hrest _ _ (measurable_setR measurable_const _ measurable_fst)
          measurable_snd).mul (hg.comp (measurable_cons measurable_fst measurable_snd))
      have hl : ∀ w : W, ∫⁻ ws, g (vec samp (.draw D :: rest) val (Fin.cons w ws)) ∂(Measure.pi fun _ => Q)
          = G (pushes val D.links (samp D (D.params val) w)) := by
        intro w
        have := ih (setR val (lastVar D.value D.links) (pushes val D.links (samp D (D.params val) w)))
          (fun ys => g (Fin.cons (pushes val D.links (samp D (D.params val) w)) ys))
          (hg.comp (measurable_cons measurable_const measurable_id))
        exact this
      have hr : ∀ y : ℝ, ∫⁻ ys, jd (.draw D :: rest) val (Fin.cons y ys) * g (Fin.cons y ys)
            ∂(Measure.pi fun _ : Fin (draws rest).length => (volume : Measure ℝ))
          = dens (D.lp val y) * G y := by
        intro y
        rw [← lintegral_const_mul]
        · refine lintegral_congr fun ys => ?_
          rw [← mul_assoc]
          rfl
        · exact (jd_measurable Q samp rest hrest _ _ measurable_const measurable_id).mul
            (hg.comp (measurable_cons measurable_const measurable_id))
      refine (lintegral_congr hl).trans (Eq.trans ?_ (lintegral_congr hr).symm)
      rw [← lintegral_map hG hy, h3 val, lintegral_withDensity_eq_lintegral_mul _ hd hG]
      rfl

end Verif.LogProb.Joint
