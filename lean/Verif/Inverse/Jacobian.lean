import Verif.Inverse.GraphGrad
import Mathlib.LinearAlgebra.Determinant
import Mathlib.Topology.Algebra.Module.Determinant

/-! C27 for programs with several inputs and outputs: the sum of the ILDJs is the log-determinant of the Jacobian. -/
namespace Verif.Inverse

open Verif.Propagate Filter Topology

/-! ### Initial states and results -/

theorem init_env {S : Type} (J : Jaxpr ICell F S) (hc : J.constvars = []) (ins outs : List ICell) :
    initEnv iOps J [] ins outs = (writeAll iOps (writeAll iOps (fun _ => none) J.invars ins).1 J.outvars outs).1 := by
  unfold initEnv
  simp only [hc, writeAll]
  rw [LogProb.writeAll_none]
  · rfl
  · intro j x c h1 h2
    rw [List.getElem?_map, h1] at h2
    simp only [Option.map_some, Option.some.injEq] at h2
    rw [← h2]; rfl

theorem writeAll_vars_get (env : Env ICell) (ws : List Nat) (cs : List (F × F)) (hnd : ws.Nodup)
    (j w : Nat) (c : F × F) (hj : ws[j]? = some w) (hc : cs[j]? = some c) :
    (writeAll iOps env (ws.map Atom.var) (cs.map some)).1 w = some c := by
  induction ws generalizing env cs j with
  | nil => simp at hj
  | cons x ws ih =>
    obtain _ | ⟨d, cs⟩ := cs
    · simp at hc
    · simp only [List.map_cons, writeAll]
      cases j with
      | zero =>
        simp only [List.getElem?_cons_zero, Option.some.injEq] at hj hc
        subst hj hc
        rw [writeAll_frame, wr_var_some, Function.update_self]
        intro hm
        simp only [List.map_map, List.mem_map, Function.comp, Atom.node, Option.some.injEq, exists_eq_right] at hm
        exact (List.nodup_cons.1 hnd).1 hm
      | succ j => exact ih _ cs (List.nodup_cons.1 hnd).2 j (by simpa using hj) (by simpa using hc)

theorem mapM_id_some {α : Type} (l : List (Option α)) (r : List α) (h : l.mapM id = some r) : l = r.map some := by
  induction l generalizing r with
  | nil => simp at h; subst h; rfl
  | cons a l ih =>
    simp only [List.mapM_cons, id_eq, Option.bind_eq_bind, Option.bind_eq_some_iff, Option.pure_def, Option.some.injEq] at h
    obtain ⟨b, rfl, bs, hbs, rfl⟩ := h
    rw [List.map_cons, ← ih bs hbs]

theorem reduceIldj_some (r : List (F × F)) (L : ℝ) (h : reduceIldj r = some L) :
    ∃ ls : List ℝ, r.map (·.2) = ls.map some ∧ L = ls.sum := by
  have hnone : ∀ l : List (F × F), l.foldl (fun a p => addF a p.2) none = none := by
    intro l
    induction l with
    | nil => rfl
    | cons p l ih => simpa [addF] using ih
  have key : ∀ (l : List (F × F)) (a L : ℝ), l.foldl (fun a p => addF a p.2) (some a) = some L →
      ∃ ls : List ℝ, l.map (·.2) = ls.map some ∧ L = a + ls.sum := by
    intro l
    induction l with
    | nil => intro a L h; simp at h; exact ⟨[], rfl, by simp [h]⟩
    | cons p l ih =>
      intro a L h
      obtain ⟨v, _ | b⟩ := p
      · simp only [List.foldl_cons, addF, Option.bind_eq_bind, Option.bind_some, Option.bind_none] at h
        have h' := hnone l
        simp only [addF, Option.bind_eq_bind] at h'
        rw [h'] at h; simp at h
      · have h' : l.foldl (fun a p => addF a p.2) (some (a + b)) = some L := h
        obtain ⟨ls, h1, h2⟩ := ih _ _ h'
        exact ⟨b :: ls, by simp [h1], by rw [h2, List.sum_cons]; ring⟩
  obtain ⟨ls, h1, h2⟩ := key r 0 L h
  exact ⟨ls, h1, by rw [h2, zero_add]⟩

/-- Gradients make up the Jacobian. -/
theorem jacobian_det {n : Nat} (f : (Fin n → ℝ) → Fin n → ℝ) (x₀ : Fin n → ℝ)
    (hf : ∀ i, DifferentiableAt ℝ (fun x => f x i) x₀) :
    HasFDerivAt f (fderiv ℝ f x₀) x₀ ∧ (fderiv ℝ f x₀).det = (Matrix.of fun i => grad (fun x => f x i) x₀).det := by
  have hd : DifferentiableAt ℝ f x₀ := differentiableAt_pi.2 hf
  refine ⟨hd.hasFDerivAt, ?_⟩
  have h1 : (fderiv ℝ f x₀).det = LinearMap.det (fderiv ℝ f x₀ : (Fin n → ℝ) →ₗ[ℝ] (Fin n → ℝ)) := rfl
  rw [h1, ← LinearMap.det_toMatrix']
  congr 1
  ext i j
  rw [LinearMap.toMatrix'_apply]
  simp only [Matrix.of_apply, grad]
  have h2 : fderiv ℝ (fun x => f x i) x₀ = (ContinuousLinearMap.proj i).comp (fderiv ℝ f x₀) := by
    have := (hasFDerivAt_pi'.1 hd.hasFDerivAt) i
    exact this.fderiv
  rw [h2]
  simp

/-! ### The theorem -/

/-- A program with as many outputs as inputs, in single assignment form: the inputs `inp` are distinct variables, the
outputs `out` are distinct variables that the program defines.  `reshape` and `convert_element_type` do not occur: they
reset the ILDJ (`reshape_resets_ildj`). -/
structure Prog.Square (P : Prog) {n : Nat} (inp out : Fin n → Nat) : Prop where
  invars : P.invars = List.ofFn (fun i => Atom.var (inp i))
  outvars : P.outvars = List.ofFn (fun i => Atom.var (out i))
  inp_inj : Function.Injective inp
  out_inj : Function.Injective out
  ssa : SSA (List.ofFn inp) (P.eqns.map (·.2))
  defined : ∀ i, (∃ j, out i = inp j) ∨ ∃ q ∈ P.eqns, Atom.var (out i) ∈ q.2.2
  noreset : ∀ q ∈ P.eqns, q.1 ≠ .un .reshape ∧ q.1 ≠ .un .convert

theorem ofFn_nodup {n : Nat} {f : Fin n → Nat} (h : Function.Injective f) : (List.ofFn f).Nodup :=
  List.nodup_ofFn.2 h

/-- C27 for graphs, partial.  `P` is a program of registered primitives (and differentiable primitives without inverse)
with any sharing of variables, `n` inputs and `n` outputs; `val x` is its execution on the inputs `x`, for `x` near
`x₀`; at `x₀` the operations are on the branches of the registered inverses and differentiable.  If
`inverse_and_ildj`, in any order of propagation, returns a number `L` at the outputs for `x₀`, then it returns the
inputs `x₀`, the Jacobian of `P` at `x₀` is invertible, and `L` is minus the log of its absolute determinant.
Partial: without `reshape` and `convert_element_type`, and where the code returns nan (see `div_left_ildj_nan`) nothing
is claimed. -/
theorem graph_ildj_partial (P : Prog) {n : Nat} (inp out : Fin n → Nat) (hP : P.Square inp out)
    (val : (Fin n → ℝ) → Nat → ℝ) (x₀ : Fin n → ℝ) (hval : ∀ x i, val x (inp i) = x i)
    (hex : ∀ᶠ x in 𝓝 x₀, P.Executes (val x))
    (hok : ∀ q ∈ P.eqns, q.1.ok (q.2.1.map (aval (val x₀))))
    (hsm : ∀ q ∈ P.eqns, q.1.smooth (q.2.1.map (aval (val x₀))))
    (r : List (F × F)) (h : InverseRun P (P.outvars.map (aval (val x₀))) (some r)) (L : ℝ) (hL : reduceIldj r = some L) :
    r.map (·.1) = List.ofFn (fun i => some (x₀ i)) ∧
    ∃ f' : (Fin n → ℝ) →L[ℝ] (Fin n → ℝ), HasFDerivAt (fun x i => val x (out i)) f' x₀ ∧ f'.det ≠ 0 ∧
      L = - Real.log |f'.det| := by
  have hvar : ∀ q ∈ P.eqns, ∀ a ∈ q.2.2, ∀ v, a ≠ .lit v := by
    rintro q hq a ha v rfl
    obtain ⟨e, he⟩ := List.mem_iff_getElem?.1 hq
    obtain ⟨⟨ws, hws, -⟩, -⟩ := hP.ssa e q.2 (by rw [List.getElem?_map, he]; rfl)
    rw [hws] at ha
    simp at ha
  have hex0 : P.Executes (val x₀) := hex.self_of_nhds
  refine ⟨?_, ?_⟩
  · rcases inverse_recovers_inputs P (val x₀) hex0 hok hvar _ h with h' | ⟨r', h1, h2⟩
    · simp at h'
    · obtain rfl := Option.some.inj h1
      rw [h2, hP.invars, List.map_ofFn]
      congr 1
      funext i
      simp [aval, hval]
  -- the program as a list of equations
  let E : List GEq := P.eqns.map (fun q => (some q.1, q.2))
  have hEm : ∀ g ∈ E, ∃ q ∈ P.eqns, g = (some q.1, q.2) := by
    intro g hg
    obtain ⟨q, hq, rfl⟩ := List.mem_map.1 hg
    exact ⟨q, hq, rfl⟩
  have H : Smooth (List.ofFn inp) E val x₀ := by
    refine ⟨?_, ?_, ?_, ?_, ?_, ?_, ?_⟩
    · have : E.map (·.2) = P.eqns.map (·.2) := by simp [E]
      rw [this]; exact hP.ssa
    · intro u hu
      obtain ⟨i, rfl⟩ := (List.mem_ofFn' _ _).1 hu
      simp only [hval]
      exact differentiableAt_apply i x₀
    · intro g hg hn
      obtain ⟨q, hq, rfl⟩ := hEm g hg
      simp at hn
    · filter_upwards [hex] with x hx g hg op hop
      obtain ⟨q, hq, rfl⟩ := hEm g hg
      obtain rfl := Option.some.inj hop
      exact hx q hq
    · intro g hg op hop
      obtain ⟨q, hq, rfl⟩ := hEm g hg
      obtain rfl := Option.some.inj hop
      exact hok q hq
    · intro g hg op hop
      obtain ⟨q, hq, rfl⟩ := hEm g hg
      obtain rfl := Option.some.inj hop
      exact hsm q hq
    · intro g hg
      obtain ⟨q, hq, rfl⟩ := hEm g hg
      exact ⟨fun h => (hP.noreset q hq).1 (Option.some.inj h), fun h => (hP.noreset q hq).2 (Option.some.inj h)⟩
  have hJ : Runs P.jaxpr E := by
    intro e q hq
    simp only [Prog.jaxpr, List.getElem?_map] at hq
    rcases he : P.eqns[e]? with _ | g <;> rw [he] at hq <;> simp at hq
    subst hq
    refine ⟨(some g.1, g.2), by simp only [E, List.getElem?_map, he]; rfl, rfl, rfl, ?_, by simp⟩
    intro op hop i o
    obtain rfl := Option.some.inj hop
    exact ⟨rfl, rfl⟩
  obtain ⟨s0, s, h0, hs, -, hres⟩ := h
  have htrue : ∀ t, Steps iOps P.jaxpr s0 t → ∀ u, Tells (some (val x₀ u)) (t.env u) :=
    fun t ht => inverse_true P (val x₀) hex0 hok hvar s0 t h0 ht
  -- the initial state
  have henv0 : s0.env = (writeAll iOps (fun _ => none) ((List.ofFn out).map Atom.var)
      ((List.ofFn fun i => ((some (val x₀ (out i)), some 0) : F × F)).map some)).1 := by
    rw [h0.1, init_env _ rfl]
    have h1 : (writeAll iOps (fun _ => none) P.jaxpr.invars (P.invars.map (fun _ => (none : ICell)))).1 = fun _ => none := by
      refine LogProb.writeAll_none _ _ _ ?_
      intro j x c h1 h2
      rw [List.getElem?_map] at h2
      rcases hj : P.invars[j]? with _ | a <;> rw [hj] at h2 <;> simp at h2
      exact h2.symm
    rw [h1]
    have h2 : P.jaxpr.outvars = (List.ofFn out).map Atom.var := by
      show P.outvars = _
      rw [hP.outvars, List.map_ofFn]; rfl
    have h3 : (P.outvars.map (aval (val x₀))).map (fun y => (some (y, some 0) : ICell)) =
        (List.ofFn fun i => ((some (val x₀ (out i)), some 0) : F × F)).map some := by
      rw [hP.outvars, List.map_ofFn, List.map_ofFn, List.map_ofFn]; rfl
    rw [h2, h3]
  have hk0 : ∀ i, ∃ v, s0.env (out i) = some (v, some 0) := by
    intro i
    refine ⟨some (val x₀ (out i)), ?_⟩
    rw [henv0]
    exact writeAll_vars_get _ _ _ (ofFn_nodup hP.out_inj) i.1 _ _ (by simp) (by simp)
  have ha0 : ∀ u, s0.env u ≠ none → (∀ i, out i ≠ u) → False := by
    intro u hu hi
    rw [henv0, writeAll_frame] at hu
    · exact hu rfl
    · intro hm
      simp only [List.map_map, List.mem_map, Function.comp, Atom.node, Option.some.injEq, exists_eq_right] at hm
      obtain ⟨i, hi'⟩ := (List.mem_ofFn' _ _).1 hm
      exact hi i hi'
  -- the final state
  have hres' := mapM_id_some _ _ hres.symm
  rw [hP.invars, List.map_ofFn] at hres'
  have hlen : r.length = n := by
    have := congrArg List.length hres'
    simpa using this.symm
  obtain ⟨ls, hls, rfl⟩ := reduceIldj_some r L hL
  have hlsl : ls.length = n := by
    have := congrArg List.length hls
    simp only [List.length_map] at this; omega
  have hend : ∀ i : Fin n, s.env (inp i) = some ((r[i.1]'(by omega)).1, some (ls[i.1]'(by omega))) := by
    intro i
    have h1 : (List.ofFn ((Propagate.read iOps s.env) ∘ fun i => Atom.var (inp i)))[i.1]? = (r.map some)[i.1]? := by rw [hres']
    rw [List.getElem?_map, List.getElem?_eq_getElem (by omega : i.1 < r.length)] at h1
    simp only [List.getElem?_ofFn, i.2, dif_pos, Function.comp, Propagate.read, Option.map_some, Option.some.injEq] at h1
    have h2 : (r.map (·.2))[i.1]? = (ls.map some)[i.1]? := by rw [hls]
    rw [List.getElem?_map, List.getElem?_map, List.getElem?_eq_getElem (by omega : i.1 < r.length),
      List.getElem?_eq_getElem (by omega : i.1 < ls.length)] at h2
    simp only [Option.map_some, Option.some.injEq] at h2
    have h3 : s.env (inp i) = some (r[i.1]'(by omega)) := h1
    rw [h3, ← h2]
  have hinp : ∀ i e, inp i ∉ (H.layout P.jaxpr hJ).dfn e := by
    intro i e he
    obtain ⟨h1, -⟩ := detOuts_sub E e _ he
    have h2 := H.posOf_out e _ h1
    have h3 := H.posOf_inp (inp i) (List.mem_ofFn.2 ⟨i, rfl⟩)
    omega
  have hgrad : ∀ i, grad (fun x => val x (inp i)) x₀ = Pi.single i 1 := by
    intro i
    funext j
    simp only [hval, grad]
    have : fderiv ℝ (fun x : Fin n → ℝ => x i) x₀ = ContinuousLinearMap.proj i :=
      (ContinuousLinearMap.proj (R := ℝ) (φ := fun _ : Fin n => ℝ) i).fderiv
    rw [this]
    simp [Pi.single_apply, eq_comm]
  have hmain := slots_run (H.layout P.jaxpr hJ) (fun _ => False) (fun _ h => h.elim) s0 s out hP.out_inj hk0 ha0
    (fun _ h => h.elim) h0.2.1.1 hs (fun t ht e q hq => H.effect P.jaxpr hJ t.env (htrue t ht) e q hq)
    inp hP.inp_inj hinp (fun _ h => h) hgrad _ _ hend
  have hdiff : ∀ i, DifferentiableAt ℝ (fun x => val x (out i)) x₀ := by
    intro i
    rcases hP.defined i with ⟨j, hj⟩ | ⟨q, hq, hm⟩
    · simp only [hj, hval]
      exact differentiableAt_apply j x₀
    · obtain ⟨e, he⟩ := List.mem_iff_getElem?.1 hq
      exact H.diff e (some q.1, q.2) (by simp only [E, List.getElem?_map, he]; rfl) (out i) hm
  obtain ⟨hf1, hf2⟩ := jacobian_det (fun x i => val x (out i)) x₀ hdiff
  refine ⟨_, hf1, ?_, ?_⟩
  · rw [hf2]
    intro h0
    rw [h0, abs_zero] at hmain
    exact (Real.exp_pos _).ne' hmain.symm
  · rw [hf2, hmain, Real.log_exp, neg_neg]
    have : ls = List.ofFn (fun i : Fin n => ls[i.1]'(by omega)) := by
      apply List.ext_getElem
      · simp [hlsl]
      · intro j h1 h2; simp
    conv_lhs => rw [this]
    rw [List.sum_ofFn]

/-- C27 for graphs, partial, in terms of the inverse function: if `G` inverts the program near `x₀` and is
differentiable at the outputs, then `L` is the log of the absolute determinant of its Jacobian. -/
theorem graph_ildj_inverse_partial (P : Prog) {n : Nat} (inp out : Fin n → Nat) (hP : P.Square inp out)
    (val : (Fin n → ℝ) → Nat → ℝ) (x₀ : Fin n → ℝ) (hval : ∀ x i, val x (inp i) = x i)
    (hex : ∀ᶠ x in 𝓝 x₀, P.Executes (val x))
    (hok : ∀ q ∈ P.eqns, q.1.ok (q.2.1.map (aval (val x₀))))
    (hsm : ∀ q ∈ P.eqns, q.1.smooth (q.2.1.map (aval (val x₀))))
    (G : (Fin n → ℝ) → Fin n → ℝ) (G' : (Fin n → ℝ) →L[ℝ] (Fin n → ℝ))
    (hG : ∀ᶠ x in 𝓝 x₀, G (fun i => val x (out i)) = x) (hG' : HasFDerivAt G G' (fun i => val x₀ (out i)))
    (r : List (F × F)) (h : InverseRun P (P.outvars.map (aval (val x₀))) (some r)) (L : ℝ) (hL : reduceIldj r = some L) :
    L = Real.log |G'.det| := by
  obtain ⟨-, f', hf, hf0, rfl⟩ := graph_ildj_partial P inp out hP val x₀ hval hex hok hsm r h L hL
  have hid : HasFDerivAt (fun x : Fin n → ℝ => x) (G'.comp f') x₀ :=
    (HasFDerivAt.comp x₀ hG' hf).congr_of_eventuallyEq (hG.mono fun x hx => hx.symm)
  have h1 : G'.comp f' = ContinuousLinearMap.id ℝ (Fin n → ℝ) := hid.unique (hasFDerivAt_id x₀)
  have h2 : G'.det * f'.det = 1 := by
    have := congrArg ContinuousLinearMap.det h1
    have h3 : (G'.comp f').det = G'.det * f'.det := by
      show LinearMap.det ((G' : (Fin n → ℝ) →ₗ[ℝ] (Fin n → ℝ)) ∘ₗ (f' : (Fin n → ℝ) →ₗ[ℝ] (Fin n → ℝ))) = _
      rw [LinearMap.det_comp]
    have h4 : (ContinuousLinearMap.id ℝ (Fin n → ℝ)).det = 1 := by
      show LinearMap.det (LinearMap.id : (Fin n → ℝ) →ₗ[ℝ] (Fin n → ℝ)) = 1
      exact LinearMap.det_id
    rw [← h3, this, h4]
  have h5 : G'.det = (f'.det)⁻¹ := eq_inv_of_mul_eq_one_left h2
  rw [h5, abs_inv, Real.log_inv]

/-! ### An instance -/

/-- `f(x, y) = (exp x, x * y)`; `x` is used twice. -/
noncomputable def pairProg : Prog := ⟨[.var 0, .var 1], [.var 2, .var 3],
  [(.un .exp, [.var 0], [.var 2]), (.bin .mul, [.var 0, .var 1], [.var 3])]⟩

/-- Its executions. -/
noncomputable def pairVal (x : Fin 2 → ℝ) (u : Nat) : ℝ :=
  if u = 0 then x 0 else if u = 1 then x 1 else if u = 2 then Real.exp (x 0) else x 0 * x 1

/-- The program meets the hypotheses of `graph_ildj_partial` at `(1, 2)`, and there is a run that returns a number:
`L = -1`, which is `- log |det [[e, 0], [2, 1]]|`. -/
theorem pair_instance : pairProg.Square ![0, 1] ![2, 3] ∧ (∀ x, pairProg.Executes (pairVal x)) ∧
    (∀ q ∈ pairProg.eqns, q.1.ok (q.2.1.map (aval (pairVal ![1, 2])))) ∧
    (∀ q ∈ pairProg.eqns, q.1.smooth (q.2.1.map (aval (pairVal ![1, 2])))) ∧
    ∃ r, InverseRun pairProg (pairProg.outvars.map (aval (pairVal ![1, 2]))) (some r) ∧ reduceIldj r = some (-1) := by
  refine ⟨⟨rfl, rfl, by decide, by decide, ?_, ?_, ?_⟩, ?_, ?_, ?_, ?_⟩
  · intro e g he
    simp only [pairProg, List.map_cons, List.map_nil] at he ⊢
    obtain _ | _ | e := e
    · simp only [List.getElem?_cons_zero, Option.some.injEq] at he
      subst he
      refine ⟨⟨[2], rfl, by simp, ?_⟩, ?_⟩
      · intro w hw; simp at hw; subst hw; exact ⟨by decide, fun e' g' h => absurd h (by omega)⟩
      · intro a ha; simp at ha; subst ha; exact .inr ⟨0, rfl, .inl (by decide)⟩
    · simp only [Nat.zero_add, List.getElem?_cons_succ, List.getElem?_cons_zero, Option.some.injEq] at he
      subst he
      refine ⟨⟨[3], rfl, by simp, ?_⟩, ?_⟩
      · intro w hw; simp at hw; subst hw
        refine ⟨by decide, fun e' g' h hg => ?_⟩
        obtain rfl : e' = 0 := by omega
        simp at hg; subst hg; simp
      · intro a ha; simp at ha
        rcases ha with rfl | rfl
        · exact .inr ⟨0, rfl, .inl (by decide)⟩
        · exact .inr ⟨1, rfl, .inl (by decide)⟩
    · simp at he
  · intro i
    refine .inr ?_
    match i with
    | 0 => exact ⟨_, by simp only [pairProg]; exact List.mem_cons_self, by simp⟩
    | 1 => exact ⟨_, by simp only [pairProg]; exact List.mem_cons_of_mem _ List.mem_cons_self, by simp⟩
  · intro q hq
    simp only [pairProg, List.mem_cons, List.not_mem_nil, or_false] at hq
    rcases hq with rfl | rfl <;> simp
  · intro x q hq
    simp only [pairProg, List.mem_cons, List.not_mem_nil, or_false] at hq
    rcases hq with rfl | rfl <;> simp [Op.eval, aval, pairVal, Un.f, Bin.f, bind2]
  · intro q hq
    simp only [pairProg, List.mem_cons, List.not_mem_nil, or_false] at hq
    rcases hq with rfl | rfl <;> simp [Op.ok, Un.ok, Bin.ok, aval, pairVal]
  · intro q hq
    simp only [pairProg, List.mem_cons, List.not_mem_nil, or_false] at hq
    rcases hq with rfl | rfl <;> simp [Op.smooth, aval, pairVal]
  · -- the run: first the equation of exp, then that of the product
    let E1 : Env ICell := fun u => if u = 2 then some (some (Real.exp 1), some 0) else if u = 3 then some (some 2, some 0) else none
    let c0 : F × F := (some 1, some (-1))
    let c1 : F × F := (some 2, some 0)
    have hexp : HasDerivAt Un.exp.gr (Real.exp 1)⁻¹ (Real.exp 1) := by
      refine (Real.hasDerivAt_log (Real.exp_pos 1).ne').congr_of_eventuallyEq ?_
      filter_upwards [lt_mem_nhds (Real.exp_pos 1)] with w hw
      simp [Un.gr, Un.g, npLog, hw]
    have hdl : Un.exp.dlog (Real.exp 1) = some (-1) := by
      simp only [Un.dlog]
      rw [if_pos ⟨hexp.differentiableAt, by rw [hexp.deriv]; positivity⟩, hexp.deriv, abs_of_pos (by positivity),
        Real.log_inv, Real.log_exp]
    have hg : Un.exp.g (Real.exp 1) = some 1 := by simp [Un.g, npLog, Real.exp_pos]
    have hout : pairProg.outvars.map (aval (pairVal ![1, 2])) = [some (Real.exp 1), some 2] := by
      simp [pairProg, aval, pairVal]
    have hinit : initEnv iOps pairProg.jaxpr [] [none, none] [some (some (Real.exp 1), some 0), some (some 2, some 0)] = E1 := by
      rw [init_env _ rfl]
      funext u
      simp only [Prog.jaxpr, pairProg, writeAll, write, iOps, E1]
      by_cases h3 : u = 3
      · subst h3; simp
      · by_cases h2 : u = 2
        · subst h2; simp
        · simp [h2, h3]
    have hx0 : (exec iOps E1 ⟨[Atom.var 0], [Atom.var 2], unRule .exp⟩).1 = Function.update E1 0 (some c0) ∧
        progressed iOps ([Atom.var 0] ++ [Atom.var 2]) ([Atom.var 0].map (Propagate.read iOps E1) ++ [Atom.var 2].map (Propagate.read iOps E1))
        ((exec iOps E1 ⟨[Atom.var 0], [Atom.var 2], unRule .exp⟩).2.1 ++ (exec iOps E1 ⟨[Atom.var 0], [Atom.var 2], unRule .exp⟩).2.2.1) = [0] := by
      constructor
      · funext u
        by_cases h2 : u = 2
        · subst h2; simp [exec, Propagate.read, E1, unRule, writeAll, write, iOps, c0]
        · by_cases h0 : u = 0
          · subst h0; simp [exec, Propagate.read, E1, unRule, writeAll, write, iOps, c0, hg, Un.ld, addF, hdl]
          · simp [exec, Propagate.read, E1, unRule, writeAll, write, iOps, c0, h2, h0, Function.update_of_ne]
      · simp [exec, Propagate.read, E1, unRule, writeAll, write, iOps, progressed, Atom.node]
    let E2 := Function.update E1 0 (some c0)
    have hx1 : (exec iOps E2 ⟨[Atom.var 0, Atom.var 1], [Atom.var 3], binRule .mul⟩).1 = Function.update E2 1 (some c1) ∧
        progressed iOps ([Atom.var 0, Atom.var 1] ++ [Atom.var 3]) ([Atom.var 0, Atom.var 1].map (Propagate.read iOps E2) ++ [Atom.var 3].map (Propagate.read iOps E2))
        ((exec iOps E2 ⟨[Atom.var 0, Atom.var 1], [Atom.var 3], binRule .mul⟩).2.1 ++
          (exec iOps E2 ⟨[Atom.var 0, Atom.var 1], [Atom.var 3], binRule .mul⟩).2.2.1) = [1] := by
      constructor
      · funext u
        by_cases h3 : u = 3
        · subst h3; simp [exec, Propagate.read, E2, E1, binRule, writeAll, write, iOps, c0, c1]
        · by_cases h1 : u = 1
          · subst h1; simp [exec, Propagate.read, E2, E1, binRule, writeAll, write, iOps, c0, c1, bind2, Bin.gl, Bin.ll, npLog, addF]
          · by_cases h0 : u = 0
            · subst h0; simp [exec, Propagate.read, E2, E1, binRule, writeAll, write, iOps, c0, c1]
            · simp [exec, Propagate.read, E2, E1, binRule, writeAll, write, iOps, c0, c1, h3, h1, h0, Function.update_of_ne]
      · simp [exec, Propagate.read, E2, E1, binRule, writeAll, write, iOps, progressed, Atom.node, c0]
    have hn0 : ∀ e, Nbr pairProg.jaxpr 0 e ↔ e = 0 ∨ e = 1 := by
      intro e
      obtain _ | _ | e := e <;> simp [Nbr, Prog.jaxpr, pairProg, Atom.node]
    have hn1 : ∀ e, Nbr pairProg.jaxpr 1 e ↔ e = 1 := by
      intro e
      obtain _ | _ | e := e <;> simp [Nbr, Prog.jaxpr, pairProg, Atom.node]
    let s0 : St ICell Bool := ⟨E1, [0, 1], fun _ => none⟩
    have st1 : ∃ f1, Step iOps pairProg.jaxpr s0 ⟨E2, [1], f1⟩ := by
      have := Step.mk (O := iOps) (J := pairProg.jaxpr) s0 0 [1] ⟨[Atom.var 0], [Atom.var 2], unRule .exp⟩ [1] rfl rfl (by
        show Pushes _ _ (progressed iOps ([Atom.var 0] ++ [Atom.var 2]) _ _) _ _
        rw [hx0.2]
        refine .cons 0 [] [1] [] [1] List.nodup_nil ?_ (.nil _)
        intro e
        rw [hn0]; simp; omega)
      rw [show (exec iOps s0.env ⟨[Atom.var 0], [Atom.var 2], unRule .exp⟩).1 = E2 from hx0.1] at this
      exact ⟨_, this⟩
    obtain ⟨f1, st1⟩ := st1
    have st2 : ∃ f2, Step iOps pairProg.jaxpr ⟨E2, [1], f1⟩ ⟨Function.update E2 1 (some c1), [], f2⟩ := by
      have := Step.mk (O := iOps) (J := pairProg.jaxpr) ⟨E2, [1], f1⟩ 1 [] ⟨[Atom.var 0, Atom.var 1], [Atom.var 3], binRule .mul⟩ [] rfl rfl (by
        show Pushes _ _ (progressed iOps ([Atom.var 0, Atom.var 1] ++ [Atom.var 3]) _ _) _ _
        rw [hx1.2]
        refine .cons 1 [] [] [] [] List.nodup_nil ?_ (.nil _)
        intro e
        rw [hn1]; simp)
      rw [show (exec iOps (⟨E2, [1], f1⟩ : St ICell Bool).env ⟨[Atom.var 0, Atom.var 1], [Atom.var 3], binRule .mul⟩).1 =
        Function.update E2 1 (some c1) from hx1.1] at this
      exact ⟨_, this⟩
    obtain ⟨f2, st2⟩ := st2
    refine ⟨[c0, c1], ⟨s0, ⟨Function.update E2 1 (some c1), [], f2⟩, ⟨?_, ⟨by decide, ?_⟩, fun _ => rfl⟩,
      .tail _ _ _ (.tail _ _ _ (.refl s0) st1) st2, rfl, ?_⟩, ?_⟩
    · rw [hout]
      exact hinit.symm
    · intro e
      obtain _ | _ | e := e
      · simp only [s0, List.mem_cons, true_or, true_iff]
        exact ⟨0, by simp [Prog.jaxpr, pairProg, Atom.node], (hn0 0).2 (.inl rfl)⟩
      · simp only [s0, List.mem_cons, Nat.zero_add, true_or, or_true, true_iff]
        exact ⟨1, by simp [Prog.jaxpr, pairProg, Atom.node], (hn1 1).2 rfl⟩
      · simp [s0, Nbr, Prog.jaxpr, pairProg]
    · simp [pairProg, Propagate.read, E2, c0, c1]
    · simp [reduceIldj, addF, c0, c1]

end Verif.Inverse
