import Verif.LogProb.DensityDead
import Verif.LogProb.JointLawExample
import Verif.LogProb.Chain

/-! C86: the theorem applied to the log-normal distribution. -/
namespace Verif.LogProb.Joint

open Verif.Propagate Verif.Inverse Verif.Plate MeasureTheory ProbabilityTheory Filter
open scoped ENNReal Topology

/-- `def f(key): return jnp.exp(random_normal(key))`. -/
noncomputable def logNormal : Source where
  key := 0
  args := []
  body := [.draw ⟨0, gaussLp, [.var 0], 1, [], none⟩, .det (.un .exp) [.var 1] [2]]
  outs := [.var 2]

theorem logNormal_staged : logNormal.staged = rvChain [] gaussLp [.exp] := by
  simp [Source.staged, logNormal, prune, Stmt.eqns, linkEqns, Atom.node, rvChain]

/-- The output. -/
def logNormalOut (_ : Fin (draws logNormal.body).length) : ℕ := 2

theorem logNormal_len : (draws logNormal.body).length = 1 := rfl

theorem logNormal_flat : logNormal.Flat logNormalOut := by
  refine ⟨⟨?_, ?_, ?_⟩, rfl, ?_, ?_, ?_, ?_⟩
  · simp [logNormal, Stmt.defs]
  · simp [logNormal, Scoped, Stmt.uses, Stmt.defs, Atom.node]
  · intro st hst
    simp only [logNormal, List.mem_cons, List.not_mem_nil, or_false] at hst
    rcases hst with rfl | rfl
    · trivial
    · exact ⟨⟨1, by simp [Atom.node]⟩, fun vs hv => by
        obtain ⟨v, rfl⟩ := List.length_eq_one_iff.1 hv
        exact ⟨rfl, rfl⟩⟩
  · intro D hD
    simp only [logNormal, draws, List.mem_cons, List.not_mem_nil, or_false] at hD
    subst hD; rfl
  · rw [Source.NoDead, logNormal_staged]
    simp [rvChain, logNormal, Stmt.eqns, linkEqns]
  · rw [logNormal_staged]
    exact rvChain_sized [] gaussLp [.exp]
  · refine ⟨?_, fun _ _ _ => Subsingleton.elim (α := Fin 1) _ _, ?_, ?_, ?_⟩ <;> rw [logNormal_staged]
    · simp [rvChain, LProg.randoms, logNormal_len]
      rfl
    · intro e g he
      simp only [rvChain, List.map_cons, List.mapIdx_cons, List.mapIdx_nil, List.map_nil] at he ⊢
      obtain _ | _ | e := e
      · simp only [List.getElem?_cons_zero, Option.some.injEq] at he
        subst he
        refine ⟨⟨[1], rfl, by simp, ?_⟩, ?_⟩
        · intro w hw; simp at hw; subst hw; exact ⟨by simp [logNormal], fun e' g' h => absurd h (by omega)⟩
        · intro a ha; simp at ha; subst ha; exact .inr ⟨0, rfl, .inl (by simp [logNormal])⟩
      · simp only [Nat.zero_add, List.getElem?_cons_succ, List.getElem?_cons_zero, Option.some.injEq] at he
        subst he
        refine ⟨⟨[2], rfl, by simp, ?_⟩, ?_⟩
        · intro w hw; simp at hw; subst hw
          refine ⟨by simp [logNormal], fun e' g' h hg => ?_⟩
          obtain rfl : e' = 0 := by omega
          simp at hg; subst hg; simp
        · intro a ha; simp at ha; subst ha
          exact .inr ⟨1, rfl, .inr ⟨0, _, by omega, rfl, by simp⟩⟩
      · simp at he
    · intro i
      exact .inr ⟨_, List.mem_of_getElem? (i := 1) rfl, by simp [logNormalOut]⟩
    · intro q hq
      simp [rvChain] at hq
      rcases hq with rfl | rfl <;> simp

theorem logNormal_val (x : Fin (draws logNormal.body).length → ℝ) :
    logNormal.val [] x 1 = x (0 : Fin 1) ∧ logNormal.val [] x 2 = Real.exp (x (0 : Fin 1)) := by
  constructor
  · exact logNormal_flat.val_rvs x (0 : Fin 1)
  · simp [Source.val, logNormal, execute, setAll, Op.eval, Un.f, aval, setR]
    rfl

theorem logNormal_good (x : Fin (draws logNormal.body).length → ℝ) : logNormal.Good [] x := by
  refine ⟨Eventually.of_forall fun z => ?_, ?_, ?_⟩
  · simp [logNormal, Numbers, Op.eval, Un.f, aval]
  · intro q hq op hop
    simp [logNormal, Stmt.eqns, linkEqns] at hq
    rcases hq with rfl | rfl <;> simp at hop
    subst hop
    simp [Op.ok, Un.ok, aval]
  · intro q hq op hop
    simp [logNormal, Stmt.eqns, linkEqns] at hq
    rcases hq with rfl | rfl <;> simp at hop
    subst hop
    simp [Op.smooth, aval]

theorem exp_dlog (a : ℝ) : Un.exp.dlog (Real.exp a) = some (-a) := by
  have hexp : HasDerivAt Un.exp.gr (Real.exp a)⁻¹ (Real.exp a) := by
    refine (Real.hasDerivAt_log (Real.exp_pos a).ne').congr_of_eventuallyEq ?_
    filter_upwards [lt_mem_nhds (Real.exp_pos a)] with w hw
    simp [Un.gr, Un.g, npLog, hw]
  simp only [Un.dlog]
  rw [if_pos ⟨hexp.differentiableAt, by rw [hexp.deriv]; positivity⟩, hexp.deriv, abs_of_pos (by positivity),
    Real.log_inv, Real.log_exp]

/-- What `log_prob(f)` returns at `y`. -/
noncomputable def logNormalLp (y : Fin (draws logNormal.body).length → ℝ) : F :=
  addF (gaussLp [] [(pull [.exp] (some (y (0 : Fin 1)))).1]) (pull [.exp] (some (y (0 : Fin 1)))).2

theorem logNormalLp_exp (a : ℝ) (y : Fin (draws logNormal.body).length → ℝ) (hy : y (0 : Fin 1) = Real.exp a) :
    logNormalLp y = some (Real.log (gaussianPDFReal 0 1 a) - a) := by
  have hg : Un.exp.g (Real.exp a) = some a := by simp [Un.g, npLog, Real.exp_pos]
  simp [logNormalLp, hy, pull, hg, Un.ld, exp_dlog, gaussLp, addF, sub_eq_add_neg]

/-- `log_prob(f)` returns no number for `y < 0`. -/
theorem logNormalLp_neg (y : Fin (draws logNormal.body).length → ℝ) (hy : y (0 : Fin 1) < 0) : logNormalLp y = none := by
  have hg : Un.exp.g (y (0 : Fin 1)) = none := by simp [Un.g, npLog, hy.le]
  simp [logNormalLp, pull, hg, gaussLp, addF]

theorem logNormal_output (x : Fin (draws logNormal.body).length → ℝ) :
    logNormal.output [] logNormalOut x = fun _ => Real.exp (x (0 : Fin 1)) := funext fun _ => (logNormal_val x).2

theorem logNormal_keys : logNormal.KeysApart (fun _ => []) := by
  refine ⟨fun _ => 0, fun i => ?_, fun i j hij => absurd (Subsingleton.elim (α := Fin 1) i j) hij⟩
  have : i = (0 : Fin 1) := Subsingleton.elim (α := Fin 1) i 0
  subst this; rfl

theorem logNormal_sampled : ∀ st ∈ logNormal.body, st.Sampled (oracle (gaussianReal 0 1)) rawSample := by
  intro st hst
  simp only [logNormal, List.mem_cons, List.not_mem_nil, or_false] at hst
  rcases hst with rfl | rfl
  · refine draw_sampled _ _ _ (fun val => ⟨Set.univ, ?_⟩) ?_ ?_ (fun val => measurable_rawSample _ _) (fun val => ?_)
      (fun val => rawSample_law _ _)
    · refine ⟨MeasurableSet.univ, measurable_id, ?_, fun _ _ => trivial, fun x _ => ⟨_, _, rfl⟩, ?_⟩
      · exact Eventually.of_forall fun x hx => absurd trivial hx
      · exact Eventually.of_forall fun y _ => ⟨y, trivial, rfl⟩
    · exact (measurable_rawSample _ []).comp measurable_snd
    · simp only [Draw.lp, chainCell, dens_addF, dens_gaussLp]
      exact ((measurable_gaussianPDF 0 1).comp measurable_snd).mul measurable_const
    · simpa only [dens_gaussLp] using measurable_gaussianPDF 0 1
  · simp only [Stmt.Sampled, Op.eval, setAll, List.map_cons, List.map_nil, aval, Un.f, Option.bind_some]
    exact measurable_setR measurable_id _ (Real.measurable_exp.comp (measurable_pi_apply 1))

theorem logNormal_run (x : Fin (draws logNormal.body).length → ℝ) :
    logNormalLp (logNormal.output [] logNormalOut x) ≠ none ∧ LogProbRun logNormal.staged (([] : List ℝ).map some)
      (List.ofFn fun i => some (logNormal.output [] logNormalOut x i)) (some (logNormalLp (logNormal.output [] logNormalOut x))) := by
  have h1 := logNormalLp_exp (x (0 : Fin 1)) (logNormal.output [] logNormalOut x) (by rw [logNormal_output])
  refine ⟨by rw [h1]; simp, ?_⟩
  rw [logNormal_staged]
  obtain ⟨res, hres⟩ := log_prob_terminates (rvChain [] gaussLp [.exp]) (rvChain_sized _ _ _) []
    [some (logNormal.output [] logNormalOut x (0 : Fin 1))]
  have := rvChain_log_prob _ _ _ _ _ hres
  rw [this] at hres
  exact hres

/-- All hypotheses of both theorems hold: the density of `exp(random_normal(key))` is `exp(log_prob(f)(y))`, everywhere. -/
theorem logNormal_density :
    (oracle (gaussianReal 0 1)).map (logNormal.returned rawSample (fun _ => []) [] logNormalOut)
      = volume.withDensity fun y => dens (logNormalLp y) := by
  refine log_prob_density_total_partial (gaussianReal 0 1) rawSample (fun _ => []) [] logNormal_flat rfl logNormal_keys
    logNormal_sampled Set.univ MeasurableSet.univ (Eventually.of_forall fun _ => trivial) (fun x _ => logNormal_good x)
    logNormalLp (fun x _ => logNormal_run x) ?_
  · have hne : ∀ᵐ y : Fin (draws logNormal.body).length → ℝ, y (0 : Fin 1) ≠ 0 := by
      exact Measure.ae_eval_ne (μ := fun _ : Fin (draws logNormal.body).length => (volume : Measure ℝ)) (0 : Fin 1) 0
    filter_upwards [hne] with y hy hmem
    rcases lt_or_gt_of_ne hy with h | h
    · exact logNormalLp_neg y h
    · exact absurd ⟨fun _ => Real.log (y (0 : Fin 1)), trivial, by
        rw [logNormal_output]; funext i
        rw [Real.exp_log h, Subsingleton.elim (α := Fin 1) i 0]⟩ hmem

/-- The log density of the log-normal distribution: `log p(log y) - log y`. -/
example (y : Fin (draws logNormal.body).length → ℝ) (hy : 0 < y (0 : Fin 1)) :
    logNormalLp y = some (Real.log (gaussianPDFReal 0 1 (Real.log (y (0 : Fin 1)))) - Real.log (y (0 : Fin 1))) :=
  logNormalLp_exp _ y (Real.exp_log hy).symm

/-- What is returned: the exponential of the normal number of the key. -/
example (ω : Key → ℝ) : logNormal.returned rawSample (fun _ => []) [] logNormalOut ω = fun _ => Real.exp (ω []) := by
  funext i
  simp [logNormalOut, Source.returned, runSample, logNormal, rawSample, pushes, Op.eval, Un.f, aval, setR, setAll, lastVar]

/-- `def f(key): random_normal(key); return jnp.exp(random_normal(key))`: the first random variable is not used, even its
key does not matter. -/
noncomputable def unusedNormal : Source where
  key := 0
  args := []
  body := [.draw ⟨0, gaussLp, [.var 0], 3, [], none⟩, .draw ⟨0, gaussLp, [.var 0], 1, [], none⟩,
    .det (.un .exp) [.var 1] [2]]
  outs := [.var 2]

theorem unusedNormal_live : unusedNormal.live = logNormal := rfl

/-- The theorem for programs with dead code applies. -/
example : (oracle (gaussianReal 0 1)).map (unusedNormal.returned rawSample (fun _ => []) [] logNormalOut)
    = ((volume : Measure (Fin (draws logNormal.body).length → ℝ)).restrict
        (logNormal.output [] logNormalOut '' Set.univ)).withDensity fun y => dens (logNormalLp y) := by
  have hp : ∀ D ∈ draws unusedNormal.body, D.links = [] := by
    intro D hD
    simp only [unusedNormal, draws, List.mem_cons, List.not_mem_nil, or_false] at hD
    rcases hD with rfl | rfl <;> rfl
  have hst : unusedNormal.staged = logNormal.staged := by rw [← staged_live unusedNormal hp, unusedNormal_live]
  exact (log_prob_density_live_partial (gaussianReal 0 1) unusedNormal rawSample (fun _ => []) [] hp logNormalOut
    logNormal_flat.wf rfl (by rw [hst]; exact logNormal_flat.sized) 
    ⟨by rw [hst]; exact logNormal_flat.straight.randoms, logNormal_flat.straight.out_inj,
      by rw [hst]; exact logNormal_flat.straight.ssa, by rw [hst]; exact logNormal_flat.straight.defined,
      by rw [hst]; exact logNormal_flat.straight.noreset⟩ rfl
    logNormal_keys logNormal_sampled Set.univ MeasurableSet.univ (Eventually.of_forall fun _ => trivial)
    (fun x _ => logNormal_good x) logNormalLp (fun x _ => by rw [hst]; exact logNormal_run x)).2

end Verif.LogProb.Joint
