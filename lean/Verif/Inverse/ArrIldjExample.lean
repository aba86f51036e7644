import Verif.Inverse.ArrIldj
import Verif.Inverse.ArrExample

/-! An instance of `C72_ildj_partial`: `x ↦ concatenate [exp x[0:1], x[1:2]]` at `[1, 2]`. -/
namespace Verif.Inverse

open Verif.Propagate Filter Topology

/-- The execution of `exA` on the array `[t 0, t 1]`. -/
noncomputable def faVal (t : Fin 2 → ℝ) (x : Nat) (k : List Nat) : ℝ :=
  if x = 0 then (if k.getD 0 0 = 0 then t 0 else t 1) else if x = 1 then t 0 else if x = 2 then t 1
  else if x = 3 then Real.exp (t 0) else if k.getD 0 0 = 0 then Real.exp (t 0) else t 1

theorem one_index : ∀ k, inBox (fullBox [1]) k → k = [0] := by
  intro k hk
  rcases k with _ | ⟨a, _ | ⟨b, k⟩⟩ <;> simp [fullBox, inBox] at hk
  subst hk; rfl

theorem two_index : ∀ k, inBox (fullBox [2]) k → k = [0] ∨ k = [1] := by
  intro k hk
  rcases k with _ | ⟨a, _ | ⟨b, k⟩⟩ <;> simp [fullBox, inBox] at hk
  rcases hk with _ | _ | _ <;> simp

theorem fa_executes (t : Fin 2 → ℝ) : exA.Executes (faVal t) := by
  refine ⟨fun c hc => by simp [exA] at hc, ?_⟩
  intro q hq
  simp only [exA, List.mem_cons, List.not_mem_nil, or_false] at hq
  rcases hq with rfl | rfl | rfl | rfl
  · refine .cons ⟨rfl, fun k hk => ?_⟩ .nil
    obtain rfl := one_index k hk
    simp [AProg.arr, faVal, shift]
  · refine .cons ⟨rfl, fun k hk => ?_⟩ .nil
    obtain rfl := one_index k hk
    simp [AProg.arr, faVal, shift]
  · refine .cons ⟨rfl, fun k hk => ?_⟩ .nil
    obtain rfl := one_index k hk
    simp [AProg.arr, faVal, Un.f]
  · refine .cons ⟨rfl, fun k hk => ?_⟩ .nil
    rcases two_index k hk with rfl | rfl
    · simp [AProg.arr, faVal, catVal, exA]
    · simp [AProg.arr, faVal, catVal, exA]

theorem fa_typed (t : Fin 2 → ℝ) : exA.Typed (faVal t) := by
  refine ⟨?_, ?_⟩ <;> intro q hq <;> simp only [exA, List.mem_cons, List.not_mem_nil, or_false] at hq
  · rcases hq with rfl | rfl | rfl | rfl
    · exact ⟨.cons (by decide) .nil, .cons (by decide) .nil, rfl⟩
    · exact ⟨.cons (by decide) .nil, .cons (by decide) .nil, rfl⟩
    · exact ⟨by simp, rfl⟩
    · refine ⟨by show 0 < 1; decide, ?_, rfl⟩
      intro t ht
      exact ⟨1, by simpa [AProg.arr, exA] using ht⟩
  · rcases hq with rfl | rfl | rfl | rfl <;> intro a ha v <;> simp at ha <;> subst ha <;> simp

theorem exA_ssa : exA.SSA := by
  intro e q he
  simp only [exA] at he ⊢
  obtain _ | _ | _ | _ | e := e
  · simp only [List.getElem?_cons_zero, Option.some.injEq] at he
    subst he
    refine ⟨⟨[1], rfl, by simp, ?_⟩, ?_⟩
    · intro w hw; simp at hw; subst hw; exact ⟨by decide, fun e' g' h => absurd h (by omega)⟩
    · intro a ha; simp at ha; subst ha; exact .inr ⟨0, rfl, .inl (by decide)⟩
  · simp at he
    subst he
    refine ⟨⟨[2], rfl, by simp, ?_⟩, ?_⟩
    · intro w hw; simp at hw; subst hw
      refine ⟨by decide, fun e' g' h h' => ?_⟩
      have : e' = 0 := by omega
      subst this; simp at h'; subst h'; simp
    · intro a ha; simp at ha; subst ha; exact .inr ⟨0, rfl, .inl (by decide)⟩
  · simp at he
    subst he
    refine ⟨⟨[3], rfl, by simp, ?_⟩, ?_⟩
    · intro w hw; simp at hw; subst hw
      refine ⟨by decide, fun e' g' h h' => ?_⟩
      rcases e' with _ | _ | e'
      · simp at h'; subst h'; simp
      · simp at h'; subst h'; simp
      · omega
    · intro a ha; simp at ha; subst ha; exact .inr ⟨1, rfl, .inr ⟨0, _, by omega, rfl, by simp⟩⟩
  · simp at he
    subst he
    refine ⟨⟨[4], rfl, by simp, ?_⟩, ?_⟩
    · intro w hw; simp at hw; subst hw
      refine ⟨by decide, fun e' g' h h' => ?_⟩
      rcases e' with _ | _ | _ | e'
      · simp at h'; subst h'; simp
      · simp at h'; subst h'; simp
      · simp at h'; subst h'; simp
      · omega
    · intro a ha; simp at ha
      rcases ha with rfl | rfl
      · exact .inr ⟨3, rfl, .inr ⟨2, _, by omega, rfl, by simp⟩⟩
      · exact .inr ⟨2, rfl, .inr ⟨1, _, by omega, rfl, by simp⟩⟩
  · simp at he

theorem fa_diff : exA.Diff (fun _ => 0) faVal ![1, 2] := by
  refine ⟨?_, exA_ssa, ?_, ?_, Eventually.of_forall fa_executes, fa_typed _, ?_, ?_⟩
  · intro x
    by_cases h : x = 0 ∨ x = 4
    · simp only [exA, if_pos h]; exact ⟨.inl (by simp), by simp⟩
    · simp only [exA, if_neg h]; exact ⟨.inl (by simp), by simp⟩
  · intro q hq
    simp only [exA, List.mem_cons, List.not_mem_nil, or_false] at hq
    rcases hq with rfl | rfl | rfl | rfl
    · exact ⟨0, (0, 1), rfl, by decide, rfl⟩
    · exact ⟨0, (1, 2), rfl, by decide, rfl⟩
    · exact ⟨by simp, by simp⟩
    · exact ⟨[3, 2], rfl, by decide⟩
  · intro x hx k hk
    simp only [exA, List.mem_singleton] at hx
    subst hx
    rcases two_index k hk with rfl | rfl
    · simpa [faVal] using differentiableAt_apply (0 : Fin 2) (![1, 2] : Fin 2 → ℝ)
    · simpa [faVal] using differentiableAt_apply (1 : Fin 2) (![1, 2] : Fin 2 → ℝ)
  · intro q hq
    simp only [exA, List.mem_cons, List.not_mem_nil, or_false] at hq
    rcases hq with rfl | rfl | rfl | rfl
    · trivial
    · trivial
    · intro k hk; exact ⟨_, rfl, trivial⟩
    · trivial
  · intro q hq
    simp only [exA, List.mem_cons, List.not_mem_nil, or_false] at hq
    rcases hq with rfl | rfl | rfl | rfl
    · trivial
    · trivial
    · intro h; cases h
    · trivial

theorem exA_square : exA.Square ![(0, [0]), (0, [1])] ![(4, [0]), (4, [1])] := by
  refine ⟨rfl, by simp [exA], by simp [exA], [4], rfl, by simp, rfl, ?_⟩
  intro x hx
  simp at hx; subst hx
  exact .inr ⟨(.cat 0, [.var 3, .var 2], [.var 4]), by simp [exA], by simp⟩

/-- The initial state of the run below. -/
noncomputable def faInit : St ACell Bool :=
  ⟨initEnv (aOps joinS exA.shp) (exA.jaxpr joinS) [] [⟨[2], []⟩] [newCell [2] (fun k => some (faVal ![1, 2] 4 k))], [3, 0, 1],
    fun _ => none⟩

/-- There is a run that returns a number. -/
theorem fa_returns : ∃ res, ArrayRun joinS exA (exA.outvars.map (exA.arr (faVal ![1, 2]))) (some res) ∧
    reduceA exA res = some (-1) := by
  have hq : (runR (aOps joinS exA.shp) (exA.jaxpr joinS) 5 faInit).queue = [] := by rfl
  have ht : ∃ v, topVal ((runR (aOps joinS exA.shp) (exA.jaxpr joinS) 5 faInit).env 0) = some v ∧
      (v [0]).2 = Un.exp.ld (some 0) (some (faVal ![1, 2] 4 [0])) ∧ (v [1]).2 = some 0 := by
    exact ⟨_, rfl, rfl, rfl⟩
  obtain ⟨v, hv, hv0, hv1⟩ := ht
  refine ⟨[v], ⟨faInit, _, ⟨rfl, ⟨by decide, ?_⟩, fun _ => rfl⟩, runR_steps _ _ 5 faInit, hq, ?_⟩, ?_⟩
  · intro e
    constructor
    · intro h
      simp only [faInit, List.mem_cons, List.not_mem_nil, or_false] at h
      rcases h with rfl | rfl | rfl
      · exact ⟨4, by simp [AProg.jaxpr, exA, Atom.node], _, rfl, by simp [Atom.node]⟩
      · exact ⟨0, by simp [AProg.jaxpr, exA, Atom.node], _, rfl, by simp [Atom.node]⟩
      · exact ⟨0, by simp [AProg.jaxpr, exA, Atom.node], _, rfl, by simp [Atom.node]⟩
    · rintro ⟨x, hx, q, he, hn⟩
      simp [AProg.jaxpr, exA, Atom.node] at hx
      rcases e with _ | _ | _ | _ | e <;> simp [AProg.jaxpr, exA] at he <;> simp [faInit]
      subst he
      simp [Atom.node] at hn
      omega
  · show some [v] = List.mapM topVal [_]
    simp [hv]
  · have h1 : reduceA exA [v] = addF (addF (some 0) (v [0]).2) (v [1]).2 := rfl
    rw [h1, hv0, hv1]
    have hexp : HasDerivAt Un.exp.gr (Real.exp 1)⁻¹ (Real.exp 1) := by
      refine (Real.hasDerivAt_log (Real.exp_pos 1).ne').congr_of_eventuallyEq ?_
      filter_upwards [lt_mem_nhds (Real.exp_pos 1)] with w hw
      simp [Un.gr, Un.g, npLog, hw]
    have hdl : Un.exp.dlog (Real.exp 1) = some (-1) := by
      simp only [Un.dlog]
      rw [if_pos ⟨hexp.differentiableAt, by rw [hexp.deriv]; positivity⟩, hexp.deriv, abs_of_pos (by positivity),
        Real.log_inv, Real.log_exp]
    simp [Un.ld, hdl, faVal, addF]

/-- The hypotheses of `C72_ildj_partial` are met; the Jacobian at `[1, 2]` is the diagonal matrix with entries `e, 1`. -/
example : ∃ f' : (Fin 2 → ℝ) →L[ℝ] (Fin 2 → ℝ),
    HasFDerivAt (fun t i => faVal t ((![(4, [0]), (4, [1])] : Fin 2 → Nat × List Nat) i).1
      ((![(4, [0]), (4, [1])] : Fin 2 → Nat × List Nat) i).2) f' ![1, 2] ∧ f'.det ≠ 0 ∧ (-1 : ℝ) = - Real.log |f'.det| := by
  obtain ⟨res, h1, h2⟩ := fa_returns
  refine C72_ildj_partial joinS_joins exA _ _ exA_square _ faVal _ ?_ fa_diff res h1 _ h2
  intro t i
  fin_cases i <;> simp [faVal]

end Verif.Inverse
