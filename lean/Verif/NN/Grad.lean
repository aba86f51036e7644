/-
C92: gradients and the state of layers (oryx/experimental/nn/base.py:244-266, combinator.py:69-82).
-/
import Mathlib.Analysis.Calculus.FDeriv.Comp
import Mathlib.Analysis.Calculus.FDeriv.Prod
import Mathlib.Analysis.Calculus.FDeriv.Pi
import Mathlib.Analysis.Calculus.Deriv.Mul
import Mathlib.Analysis.Calculus.Deriv.Add
import Mathlib.Analysis.Calculus.FDeriv.Mul
import Mathlib.Analysis.SpecialFunctions.Sqrt

namespace Verif.NN.Grad

variable {E ι : Type} [NormedAddCommGroup E] [NormedSpace ℝ E] [Fintype ι] [DecidableEq ι]

/-! ### Model -/

/-- A class of layers (base.py:157-286): `_call` and `_update` as functions of the parameters, the state and the input;
`_update` returns the new state, since all layers keep their parameters (base.py:229-240, normalization.py:142-143).
Simplification: parameters, states, inputs and outputs of all layers are vectors of one space `E` (arrays, padded). -/
structure Lyr (E : Type) where
  call : E × E × E → E
  update : E × E × E → E

/-- A value and its tangent, `jax.jvp` (JAX) (what base.py:257-266 is differentiated with). -/
abbrev Dual (E : Type) := E × E

/-- JAX's rule for a differentiable function: the tangent of the result is the derivative at the tangent of the argument
(JAX; for `layer._call` and `layer._update`, base.py:265-266). -/
noncomputable def push {F G : Type} [NormedAddCommGroup F] [NormedSpace ℝ F] [NormedAddCommGroup G] [NormedSpace ℝ G]
    (f : F → G) (a da : F) : Dual G := (f a, fderiv ℝ f a da)

/-- `lax.stop_gradient` (JAX; base.py:264): the value with a zero tangent. -/
def stopGradient (d : Dual E) : Dual E := (d.1, 0)

/-- `Layer._call_and_update` (base.py:257-266) under `jvp`: the output and the new state. -/
noncomputable def cauJvp (L : Lyr E) (p s x : Dual E) : Dual E × Dual E :=
  let s' := stopGradient s
  (push L.call (p.1, s'.1, x.1) (p.2, s'.2, x.2), push L.update (p.1, s'.1, x.1) (p.2, s'.2, x.2))

/-- `Serial._call_and_update` (combinator.py:69-82) under `jvp`; the call of the `Serial` itself runs it through base.py:257-266,
which stops the gradients of its states once more.  The layers are named by `ι`, `l` is their order; each gets
the output of the layer before it, and the new network has the new states. -/
noncomputable def serialJvp (cls : ι → Lyr E) (P S : ι → Dual E) : List ι → Dual E → Dual E × (ι → Dual E)
  | [], x => (x, S)
  | i :: l, x =>
    let r := cauJvp (cls i) (P i) (S i) x
    let q := serialJvp cls P S l r.1
    (q.1, Function.update q.2 i r.2)

/-- A history of calls and updates of a network under `jvp`, each on its own input: the outputs and the last state
(successive `call_and_update`s, base.py:244-266). -/
noncomputable def historyJvp (cls : ι → Lyr E) (l : List ι) (P : ι → Dual E) : (ι → Dual E) → List (Dual E) →
    List (Dual E) × (ι → Dual E)
  | S, [] => ([], S)
  | S, x :: xs =>
    let r := serialJvp cls P S l x
    let q := historyJvp cls l P r.2 xs
    (r.1 :: q.1, q.2)

/-! ### Specification -/

/-- The output of the network for given states, as a function of the parameters and the input. -/
def frozen (cls : ι → Lyr E) (S : ι → E) : List ι → (ι → E) × E → E
  | [], px => px.2
  | i :: l, px => frozen cls S l (px.1, (cls i).call (px.1 i, S i, px.2))

/-- The states after one call, without derivatives. -/
def next (cls : ι → Lyr E) (P S : ι → E) : List ι → E → ι → E
  | [], _ => S
  | i :: l, x => Function.update (next cls P S l ((cls i).call (P i, S i, x))) i ((cls i).update (P i, S i, x))

/-- The states before each call of a history. -/
def states (cls : ι → Lyr E) (l : List ι) (P : ι → E) : (ι → E) → List E → List (ι → E)
  | _, [] => []
  | S, x :: xs => S :: states cls l P (next cls P S l x) xs

/-! ### Theorems -/

/-- The layers are differentiable at the parameters, states and inputs that a call reaches. -/
def SmoothAt (cls : ι → Lyr E) (P S : ι → E) : List ι → E → Prop
  | [], _ => True
  | i :: l, x => DifferentiableAt ℝ (cls i).call (P i, S i, x) ∧ SmoothAt cls P S l ((cls i).call (P i, S i, x))

/-- The same for all calls of a history. -/
def SmoothHist (cls : ι → Lyr E) (l : List ι) (P : ι → E) : (ι → E) → List E → Prop
  | _, [] => True
  | S, x :: xs => SmoothAt cls P S l x ∧ SmoothHist cls l P (next cls P S l x) xs

omit [Fintype ι] [DecidableEq ι] in
theorem smoothAt_of (cls : ι → Lyr E) (hd : ∀ i, Differentiable ℝ (cls i).call) (P S : ι → E) (l : List ι) :
    ∀ x, SmoothAt cls P S l x := by
  induction l with
  | nil => intro x; trivial
  | cons i l ih => intro x; exact ⟨hd i _, ih _⟩

omit [Fintype ι] in
theorem smoothHist_of (cls : ι → Lyr E) (hd : ∀ i, Differentiable ℝ (cls i).call) (l : List ι) (P : ι → E) (xs : List E) :
    ∀ S, SmoothHist cls l P S xs := by
  induction xs with
  | nil => intro S; trivial
  | cons x xs ih => intro S; exact ⟨smoothAt_of cls hd P S l x, ih _⟩

omit [DecidableEq ι] in
theorem hasFDerivAt_frozen_cons (cls : ι → Lyr E) (P S : ι → E) (i : ι) (x : E)
    (hd : DifferentiableAt ℝ (cls i).call (P i, S i, x)) :
    HasFDerivAt (fun px : (ι → E) × E => (px.1, (cls i).call (px.1 i, S i, px.2)))
      ((ContinuousLinearMap.fst ℝ (ι → E) E).prod ((fderiv ℝ (cls i).call (P i, S i, x)).comp
        (((ContinuousLinearMap.proj i).comp (ContinuousLinearMap.fst ℝ (ι → E) E)).prod
          ((0 : (ι → E) × E →L[ℝ] E).prod (ContinuousLinearMap.snd ℝ (ι → E) E))))) (P, x) := by
  have h1 : HasFDerivAt (fun px : (ι → E) × E => (px.1 i, S i, px.2))
      (((ContinuousLinearMap.proj i).comp (ContinuousLinearMap.fst ℝ (ι → E) E)).prod
        ((0 : (ι → E) × E →L[ℝ] E).prod (ContinuousLinearMap.snd ℝ (ι → E) E))) (P, x) := by
    refine HasFDerivAt.prodMk ?_ (HasFDerivAt.prodMk (hasFDerivAt_const _ _) hasFDerivAt_snd)
    exact ((ContinuousLinearMap.proj i).comp (ContinuousLinearMap.fst ℝ (ι → E) E)).hasFDerivAt
  exact hasFDerivAt_fst.prodMk (hd.hasFDerivAt.comp (P, x) h1)

omit [DecidableEq ι] in
theorem frozen_differentiableAt (cls : ι → Lyr E) (P S : ι → E) (l : List ι) : ∀ x, SmoothAt cls P S l x →
    DifferentiableAt ℝ (frozen cls S l) (P, x) := by
  induction l with
  | nil => intro x _; exact differentiableAt_snd
  | cons i l ih =>
    intro x h
    have h1 := hasFDerivAt_frozen_cons cls P S i x h.1
    exact ((ih _ h.2).hasFDerivAt.comp (P, x) h1).differentiableAt

/-- C92.  One call of a network: the value of the output is that of the network, and its tangent is the derivative, in the
parameters and the input, of the network with its states held constant. -/
theorem C92_serial (cls : ι → Lyr E) (P S : ι → Dual E) (l : List ι) :
    ∀ x : Dual E, SmoothAt cls (fun i => (P i).1) (fun i => (S i).1) l x.1 → (serialJvp cls P S l x).1 =
      (frozen cls (fun i => (S i).1) l (fun i => (P i).1, x.1),
       fderiv ℝ (frozen cls (fun i => (S i).1) l) (fun i => (P i).1, x.1) (fun i => (P i).2, x.2)) := by
  induction l with
  | nil =>
    intro x _
    simp only [serialJvp, frozen]
    refine Prod.ext rfl ?_
    change x.2 = fderiv ℝ (fun px : (ι → E) × E => px.2) _ _
    rw [fderiv_snd]
    rfl
  | cons i l ih =>
    intro x hs
    simp only [serialJvp]
    rw [ih _ hs.2]
    simp only [cauJvp, push, stopGradient]
    refine Prod.ext rfl ?_
    simp only
    set Sv : ι → E := fun j => (S j).1 with hSv
    set Pv : ι → E := fun j => (P j).1 with hPv
    have h3 := (frozen_differentiableAt cls Pv Sv l _ hs.2).hasFDerivAt.comp (Pv, x.1)
      (hasFDerivAt_frozen_cons cls Pv Sv i x.1 hs.1)
    have h4 : fderiv ℝ (frozen cls Sv (i :: l)) (Pv, x.1) = _ := h3.fderiv
    rw [h4]
    rfl

omit [Fintype ι] in
/-- C92.  The value of the states after a call is that of the updates. -/
theorem C92_state_values (cls : ι → Lyr E) (P S : ι → Dual E) (l : List ι) : ∀ x : Dual E,
    (fun i => ((serialJvp cls P S l x).2 i).1) = next cls (fun i => (P i).1) (fun i => (S i).1) l x.1 := by
  induction l with
  | nil => intro x; rfl
  | cons i l ih =>
    intro x
    funext j
    have h := congrFun (ih (cauJvp (cls i) (P i) (S i) x).1) j
    simp only [serialJvp, next]
    by_cases hj : j = i
    · subst hj
      simp only [Function.update_self]
      rfl
    · simp only [Function.update_of_ne hj]
      exact h

/-- C92.  A history of calls and updates of a network, of any length: the tangent of every output is the derivative of
that call alone, in the parameters and its input, with the states it starts from held constant.  Neither earlier inputs nor
earlier uses of the parameters contribute through the states. -/
theorem C92_history (cls : ι → Lyr E) (l : List ι) (P : ι → Dual E)
    (xs : List (Dual E)) : ∀ S : ι → Dual E,
    SmoothHist cls l (fun i => (P i).1) (fun i => (S i).1) (xs.map Prod.fst) →
    (historyJvp cls l P S xs).1 =
      List.zipWith (fun (s : ι → E) (x : Dual E) =>
          (frozen cls s l (fun i => (P i).1, x.1),
           fderiv ℝ (frozen cls s l) (fun i => (P i).1, x.1) (fun i => (P i).2, x.2)))
        (states cls l (fun i => (P i).1) (fun i => (S i).1) (xs.map Prod.fst)) xs := by
  induction xs with
  | nil => intro S _; rfl
  | cons x xs ih =>
    intro S hs
    obtain ⟨h1, h2⟩ := hs
    have h3 := ih (serialJvp cls P S l x).2 (by rw [C92_state_values]; exact h2)
    simp only [historyJvp, List.map_cons, states, List.zipWith_cons_cons, C92_serial cls P S l x h1, h3, C92_state_values]

theorem zipWith_snd_zero {α β γ : Type} [Zero γ] (f : α → β → γ) (xs : List β) (h : ∀ s, ∀ x ∈ xs, f s x = 0) :
    ∀ ss : List α, ∀ d ∈ List.zipWith f ss xs, d = 0 := by
  induction xs with
  | nil => intro ss d hm; cases ss <;> simp at hm
  | cons x xs ih =>
    intro ss d hm
    rcases ss with _ | ⟨s, ss⟩
    · simp at hm
    · simp only [List.zipWith_cons_cons, List.mem_cons] at hm
      rcases hm with rfl | hm
      · exact h s x (by simp)
      · exact ih (fun s x hx => h s x (by simp [hx])) ss d hm

/-- C92.  The derivative of every output in the initial state is zero. -/
theorem C92_no_state_gradient (cls : ι → Lyr E) (l : List ι) (P : ι → Dual E)
    (S : ι → Dual E) (xs : List (Dual E))
    (hs : SmoothHist cls l (fun i => (P i).1) (fun i => (S i).1) (xs.map Prod.fst)) (hP : ∀ i, (P i).2 = 0) (hx : ∀ x ∈ xs, x.2 = 0) :
    ∀ y ∈ (historyJvp cls l P S xs).1, y.2 = 0 := by
  intro y hy
  rw [C92_history cls l P xs S hs] at hy
  have h := zipWith_snd_zero (fun (s : ι → E) (x : Dual E) =>
      fderiv ℝ (frozen cls s l) (fun i => (P i).1, x.1) (fun i => (P i).2, x.2)) xs ?_
    (states cls l (fun i => (P i).1) (fun i => (S i).1) (xs.map Prod.fst)) y.2 ?_
  · exact h
  · intro s x hm
    have : ((fun i => (P i).2, x.2) : (ι → E) × E) = 0 := by
      refine Prod.ext (funext hP) (hx x hm)
    simp only [this, map_zero]
  · have h2 := List.mem_map_of_mem (f := Prod.snd) hy
    rwa [List.map_zipWith] at h2

/-- C92.  The new state of a layer has the derivative of `_update` in the parameters and the input, with the old state
held constant. -/
theorem C92_state_tangent (L : Lyr E) (p s x : Dual E) (hd : DifferentiableAt ℝ L.update (p.1, s.1, x.1)) :
    (cauJvp L p s x).2 = (L.update (p.1, s.1, x.1),
      fderiv ℝ (fun px : E × E => L.update (px.1, s.1, px.2)) (p.1, x.1) (p.2, x.2)) := by
  refine Prod.ext rfl ?_
  have h1 : HasFDerivAt (fun px : E × E => (px.1, s.1, px.2))
      ((ContinuousLinearMap.fst ℝ E E).prod ((0 : E × E →L[ℝ] E).prod (ContinuousLinearMap.snd ℝ E E))) (p.1, x.1) :=
    hasFDerivAt_fst.prodMk ((hasFDerivAt_const _ _).prodMk hasFDerivAt_snd)
  have h2 := hd.hasFDerivAt.comp (p.1, x.1) h1
  have h3 : fderiv ℝ (fun px : E × E => L.update (px.1, s.1, px.2)) (p.1, x.1) = _ := h2.fderiv
  rw [h3]
  rfl

/-! ### Witnesses -/

/-- A normalisation layer on numbers: subtract the moving mean and scale; the mean moves halfway to the input. -/
noncomputable def demo : Lyr ℝ where
  call a := a.1 * (a.2.2 - a.2.1)
  update a := a.2.1 - (a.2.1 - a.2.2) * (1 / 2)

theorem demo_diff : Differentiable ℝ demo.call := by
  unfold demo
  fun_prop

theorem demo_update_diff : Differentiable ℝ demo.update := by
  unfold demo
  fun_prop

/-- The hypotheses of the theorems are met by a network of two such layers, for every history. -/
example (P S : Bool → ℝ) (xs : List ℝ) : SmoothHist (fun _ : Bool => demo) [true, false] P S xs :=
  smoothHist_of _ (fun _ => demo_diff) _ _ _ _

/-- Inference of a `BatchNorm` for a number: parameters `(gamma, beta)`, state `(mean, variance)`.  It is not differentiable
everywhere, but where the variance is not negative. -/
noncomputable def bnDemo : Lyr (ℝ × ℝ) where
  call a := (a.1.1 * ((a.2.2.1 - a.2.1.1) / Real.sqrt (a.2.1.2 + 1 / 100)) + a.1.2, 0)
  update a := (a.2.1.1 - (a.2.1.1 - a.2.2.1) * (1 / 2), a.2.1.2 * (1 / 2))

theorem bnDemo_diff (p s x : ℝ × ℝ) (h : 0 ≤ s.2) : DifferentiableAt ℝ bnDemo.call (p, s, x) := by
  have h1 : s.2 + 1 / 100 ≠ 0 := by positivity
  have h2 : Real.sqrt (s.2 + 1 / 100) ≠ 0 := by positivity
  unfold bnDemo
  refine DifferentiableAt.prodMk ?_ (differentiableAt_const _)
  have hs : DifferentiableAt ℝ (fun a : (ℝ × ℝ) × (ℝ × ℝ) × (ℝ × ℝ) => Real.sqrt (a.2.1.2 + 1 / 100)) (p, s, x) := by
    refine DifferentiableAt.sqrt ?_ h1
    fun_prop
  have hi : DifferentiableAt ℝ (fun a : (ℝ × ℝ) × (ℝ × ℝ) × (ℝ × ℝ) => (Real.sqrt (a.2.1.2 + 1 / 100))⁻¹) (p, s, x) :=
    DifferentiableAt.inv hs h2
  simp only [div_eq_mul_inv (_ - _)]
  fun_prop

/-- The hypotheses are met by every history of such a network whose variances are not negative at the start. -/
theorem bnDemo_smooth (P : Bool → ℝ × ℝ) (xs : List (ℝ × ℝ)) : ∀ S : Bool → ℝ × ℝ, (∀ i, 0 ≤ (S i).2) →
    SmoothHist (fun _ : Bool => bnDemo) [true, false] P S xs := by
  induction xs with
  | nil => intro S _; trivial
  | cons x xs ih =>
    intro S h
    refine ⟨⟨bnDemo_diff _ _ _ (h _), bnDemo_diff _ _ _ (h _), trivial⟩, ih _ ?_⟩
    intro i
    have ht := h true
    have hf := h false
    cases i
    · simp only [next, bnDemo, Function.update_self, Function.update_of_ne (show false ≠ true by decide)]
      positivity
    · simp only [next, bnDemo, Function.update_self]
      positivity

/-- Two calls on `x₁ = 3` and `x₂ = 5` from the mean 1: the second output is `5 - 2`, and its tangent for the tangent 1 of `x₁`
is 0. -/
example : (historyJvp (fun _ : Unit => demo) [()] (fun _ => (1, 0)) (fun _ => (1, 0)) [(3, 1), (5, 0)]).1.map Prod.snd = [1, 0] ∧
    (historyJvp (fun _ : Unit => demo) [()] (fun _ => (1, 0)) (fun _ => (1, 0)) [(3, 1), (5, 0)]).1.map Prod.fst = [2, 3] := by
  constructor
  · simp only [historyJvp, C92_serial (fun _ : Unit => demo) _ _ _ _ (smoothAt_of _ (fun _ => demo_diff) _ _ _ _)]
    have h : ∀ (s p x dx : ℝ), fderiv ℝ (frozen (fun _ : Unit => demo) (fun _ => s) [()]) (fun _ => p, x) (fun _ => 0, dx) =
        p * dx := by
      intro s p x dx
      have h1 : HasFDerivAt (fun px : (Unit → ℝ) × ℝ => px.1 ()) ((ContinuousLinearMap.proj ()).comp (ContinuousLinearMap.fst ℝ (Unit → ℝ) ℝ))
          (fun _ => p, x) := ((ContinuousLinearMap.proj ()).comp (ContinuousLinearMap.fst ℝ (Unit → ℝ) ℝ)).hasFDerivAt
      have h2 : HasFDerivAt (fun px : (Unit → ℝ) × ℝ => px.2 - s) (ContinuousLinearMap.snd ℝ (Unit → ℝ) ℝ) (fun _ => p, x) :=
        hasFDerivAt_snd.sub_const s
      have h3 : fderiv ℝ (frozen (fun _ : Unit => demo) (fun _ => s) [()]) (fun _ => p, x) = _ := (h1.mul h2).fderiv
      rw [h3]
      simp
    have h' := h (((serialJvp (fun _ : Unit => demo) (fun _ => (1, 0)) (fun _ => (1, 0)) [()] (3, 1)).2 ()).1) 1 5 0
    have h1 := h 1 1 3 1
    simp only [mul_zero, mul_one] at h' h1
    simp only [List.map_cons, List.map_nil]
    rw [show (fun i : Unit => ((serialJvp (fun _ : Unit => demo) (fun _ => ((1 : ℝ), (0 : ℝ))) (fun _ => (1, 0)) [()] (3, 1)).2 i).1) =
      fun _ => ((serialJvp (fun _ : Unit => demo) (fun _ => ((1 : ℝ), (0 : ℝ))) (fun _ => (1, 0)) [()] (3, 1)).2 ()).1 from rfl,
      h', h1]
  · simp only [historyJvp, C92_serial (fun _ : Unit => demo) _ _ _ _ (smoothAt_of _ (fun _ => demo_diff) _ _ _ _)]
    simp [frozen, demo, serialJvp, cauJvp, push, stopGradient]
    norm_num

/-- C92 (what it means).  The gradient is not that of the function computed: the second output as a function of the first
input is `5 - (1 - (1 - x₁) / 2)`, with derivative -1/2. -/
theorem C92_not_the_gradient : HasDerivAt (fun x₁ : ℝ =>
    frozen (fun _ : Unit => demo) (next (fun _ : Unit => demo) (fun _ => 1) (fun _ => 1) [()] x₁) [()] (fun _ => 1, 5))
      (-(1 / 2)) 3 := by
  have h : (fun x₁ : ℝ =>
      frozen (fun _ : Unit => demo) (next (fun _ : Unit => demo) (fun _ => 1) (fun _ => 1) [()] x₁) [()] (fun _ => 1, 5)) =
      fun x₁ => 9 / 2 - 1 / 2 * x₁ := by
    funext x₁
    simp [frozen, next, demo]
    ring
  rw [h]
  have h2 := ((hasDerivAt_id (3 : ℝ)).const_mul (1 / 2)).const_sub (9 / 2)
  rw [mul_one] at h2
  exact h2

end Verif.NN.Grad
