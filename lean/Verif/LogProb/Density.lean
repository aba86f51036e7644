import Verif.LogProb.JointLaw
import Verif.LogProb.Jacobian

/-
C86.  Model of calling a probabilistic program: `f(key, *args)`, and its jaxpr, of which `log_prob` is taken.
-/
namespace Verif.LogProb.Joint

open Verif.Propagate Verif.Inverse Verif.Plate MeasureTheory
open scoped ENNReal

variable {Ω : Type}

/-- The jaxpr of `f` that `log_prob(f)` propagates through (log_prob.py:61-63; dead code is
dropped, `dynamic=False`).  Simplification: the `sow` equations of names
pass their value on unchanged (rules.py:191-202) and are left out. -/
def Source.staged (S : Source) : LProg :=
  ⟨(S.key :: S.args).map .var, S.outs, (prune (S.body.flatMap Stmt.eqns) (S.outs.filterMap Atom.node)).1⟩

/-- The values of all variables after running the statements of `f(key, *args)`: random variables call the sampler of their
distribution with their key (`_sample_distribution`, distribution_extensions.py:84-85), names have no effect
(transformations.py:260-284).  Simplifications as for `jointSample`; only programs whose random variables are plain draws
are considered, so that links are not stored. -/
noncomputable def runSample (samp : Draw → List F → (Key → Ω) → ℝ) (keyOf : ℕ → Key) (ω : Key → Ω) :
    List Stmt → (ℕ → ℝ) → ℕ → ℝ
  | [], val => val
  | .det op ins outs :: rest, val => runSample samp keyOf ω rest (setAll val outs (op.eval (ins.map (aval val))))
  | .draw D :: rest, val =>
    runSample samp keyOf ω rest
      (setR val (lastVar D.value D.links)
        (pushes val D.links (samp D (D.params val) (fun q => ω (q ++ keyOf D.keyVar)))))
  | .tag _ _ :: rest, val => runSample samp keyOf ω rest val

/-! ### Specification -/

/-- The values of all variables when the random variables have the values `x`. -/
noncomputable def execute : (body : List Stmt) → (ℕ → ℝ) → (Fin (draws body).length → ℝ) → ℕ → ℝ
  | [], val, _ => val
  | .det op ins outs :: rest, val, x => execute rest (setAll val outs (op.eval (ins.map (aval val)))) x
  | .draw D :: rest, val, x =>
    execute rest (setR val D.value (x (0 : Fin ((draws rest).length + 1)))) (Fin.tail (n := (draws rest).length) x)
  | .tag _ _ :: rest, val, x => execute rest val x

/-- No operation returns nan. -/
def Numbers : (body : List Stmt) → (ℕ → ℝ) → (Fin (draws body).length → ℝ) → Prop
  | [], _, _ => True
  | .det op ins outs :: rest, val, x =>
    (∀ v ∈ op.eval (ins.map (aval val)), v ≠ none) ∧ Numbers rest (setAll val outs (op.eval (ins.map (aval val)))) x
  | .draw D :: rest, val, x =>
    Numbers rest (setR val D.value (x (0 : Fin ((draws rest).length + 1)))) (Fin.tail (n := (draws rest).length) x)
  | .tag _ _ :: rest, val, x => Numbers rest val x

/-- The random variables of a program, in order. -/
def Source.rvs (S : Source) (i : Fin (draws S.body).length) : ℕ := ((draws S.body).get i).value

/-- The execution of a program for given values of its random variables. -/
noncomputable def Source.val (S : Source) (args : List ℝ) (x : Fin (draws S.body).length → ℝ) : ℕ → ℝ :=
  execute S.body (startVal S args) x

/-- At the values `x` of the random variables: the operations return numbers at and near `x`, are differentiable there, and on
the branches that the registered inverses choose. -/
structure Source.Good (S : Source) (args : List ℝ) (x : Fin (draws S.body).length → ℝ) : Prop where
  numbers : ∀ᶠ z in nhds x, Numbers S.body (startVal S args) z
  ok : ∀ q ∈ S.body.flatMap Stmt.eqns, ∀ op, q.1 = .det op → op.ok (q.2.1.map (aval (S.val args x)))
  smooth : ∀ q ∈ S.body.flatMap Stmt.eqns, ∀ op, q.1 = .det op → op.smooth (q.2.1.map (aval (S.val args x)))

/-! ### The execution -/

theorem setR_other {val : ℕ → ℝ} {x y : ℕ} {v : ℝ} (h : y ≠ x) : setR val x v y = val y := if_neg h

theorem setAll_ne (outs : List ℕ) (vs : List F) (val : ℕ → ℝ) (y : ℕ) (h : y ∉ outs) : setAll val outs vs y = val y := by
  induction outs generalizing vs val with
  | nil => cases vs <;> rfl
  | cons o outs ih =>
    cases vs with
    | nil => rfl
    | cons v vs =>
      rw [setAll, ih _ _ (fun hm => h (List.mem_cons_of_mem _ hm)), setR_other (fun e => h (by simp [e]))]

theorem setAll_map (outs : List ℕ) (vs : List F) (val : ℕ → ℝ) (hn : outs.Nodup) (hl : vs.length = outs.length)
    (hv : ∀ v ∈ vs, v ≠ none) : outs.map (fun o => some (setAll val outs vs o)) = vs := by
  induction outs generalizing vs val with
  | nil => cases vs with
    | nil => rfl
    | cons v vs => simp at hl
  | cons o outs ih =>
    cases vs with
    | nil => simp at hl
    | cons v vs =>
      have ho : o ∉ outs := (List.nodup_cons.1 hn).1
      rw [List.map_cons, setAll, ih vs _ (List.nodup_cons.1 hn).2 (by simpa using hl)
        (fun w hw => hv w (List.mem_cons_of_mem _ hw)), setAll_ne _ _ _ _ ho]
      rcases hc : v with _ | r
      · exact absurd hc (hv v List.mem_cons_self)
      · simp [setR]

/-- Variables that are not defined keep their values. -/
theorem execute_other (body : List Stmt) (val : ℕ → ℝ) (x : Fin (draws body).length → ℝ) (y : ℕ)
    (h : y ∉ body.flatMap Stmt.defs) : execute body val x y = val y := by
  induction body generalizing val with
  | nil => rfl
  | cons st rest ih =>
    rw [List.flatMap_cons, List.mem_append, not_or] at h
    cases st with
    | det op ins outs => exact (ih _ x h.2).trans (setAll_ne _ _ _ _ h.1)
    | draw D => exact (ih _ _ h.2).trans (setR_other (fun e => h.1 (by simp [Stmt.defs, e])))
    | tag n a => exact ih _ _ h.2

theorem aval_congr_node {v w : ℕ → ℝ} {a : Atom F} (h : ∀ x, a.node = some x → v x = w x) : aval v a = aval w a := by
  cases a with
  | lit c => rfl
  | var x => simp [aval, h x rfl]
  | drop x => simp [aval, h x rfl]

theorem aval_map_congr_node {v w : ℕ → ℝ} {as : List (Atom F)} (h : ∀ x ∈ vars as, v x = w x) :
    as.map (aval v) = as.map (aval w) :=
  List.map_congr_left fun a ha => aval_congr_node fun x hx => h x (List.mem_filterMap.2 ⟨a, ha, hx⟩)

theorem execute_rvs (body : List Stmt) (hn : (body.flatMap Stmt.defs).Nodup) (val : ℕ → ℝ)
    (x : Fin (draws body).length → ℝ) (i : Fin (draws body).length) :
    execute body val x ((draws body).get i).value = x i := by
  induction body generalizing val with
  | nil => exact i.elim0
  | cons st rest ih =>
    rw [List.flatMap_cons, List.nodup_append] at hn
    cases st with
    | det op ins outs => exact ih hn.2.1 _ x i
    | tag n a => exact ih hn.2.1 _ x i
    | draw D =>
      refine Fin.cases (motive := fun i : Fin ((draws rest).length + 1) =>
        execute (.draw D :: rest) val x ((D :: draws rest).get i).value = x i) ?_ (fun i => ?_) i
      · show execute rest _ _ D.value = _
        rw [execute_other]
        · simp [setR]
        · exact fun h => hn.2.2 D.value (by simp [Stmt.defs]) D.value h rfl
      · exact ih hn.2.1 _ _ i

/-- A run is an execution. -/
theorem execute_executes (body : List Stmt) (hn : (body.flatMap Stmt.defs).Nodup) (ho : Scoped body)
    (hz : ∀ st ∈ body, st.Sized) (hp : ∀ D ∈ draws body, D.links = []) (val : ℕ → ℝ) (x : Fin (draws body).length → ℝ)
    (hx : Numbers body val x) : ∀ q ∈ body.flatMap Stmt.eqns, ∀ op, q.1 = .det op →
      op.eval (q.2.1.map (aval (execute body val x))) = q.2.2.map (aval (execute body val x)) := by
  induction body generalizing val with
  | nil => intro q hq; simp at hq
  | cons st rest ih =>
    rw [List.flatMap_cons, List.nodup_append] at hn
    have hz' : ∀ s ∈ rest, s.Sized := fun s hs => hz s (List.mem_cons_of_mem _ hs)
    intro q hq op hop
    rw [List.flatMap_cons, List.mem_append] at hq
    cases st with
    | tag n a =>
      rcases hq with hq | hq
      · simp [Stmt.eqns] at hq
      · exact ih hn.2.1 ho.2 hz' hp val x hx q hq op hop
    | draw D =>
      rcases hq with hq | hq
      · rw [Stmt.eqns, hp D List.mem_cons_self] at hq
        simp only [linkEqns, List.mem_singleton] at hq
        subst hq
        cases hop
      · exact ih hn.2.1 ho.2 hz' (fun E hE => hp E (List.mem_cons_of_mem _ hE)) _ _ hx q hq op hop
    | det op' ins outs =>
      rcases hq with hq | hq
      · simp only [Stmt.eqns, List.mem_singleton] at hq
        subst hq
        obtain rfl : op' = op := LOp.det.inj hop
        have e1 : ins.map (aval (execute (.det op' ins outs :: rest) val x)) = ins.map (aval val) := by
          refine aval_map_congr_node fun y hy => ?_
          refine execute_other _ _ _ _ ?_
          rw [List.flatMap_cons]
          exact ho.1 y hy
        have e2 : ∀ o ∈ outs, execute (.det op' ins outs :: rest) val x o
            = setAll val outs (op'.eval (ins.map (aval val))) o := by
          intro o hoo
          exact execute_other rest _ x o fun h => hn.2.2 o hoo o h rfl
        have hsz := hz _ List.mem_cons_self
        show op'.eval (ins.map _) = (outs.map Atom.var).map _
        rw [e1, List.map_map]
        have := setAll_map outs (op'.eval (ins.map (aval val))) val hn.1 (hsz.2 _ (by simp)).1 hx.1
        refine this.symm.trans (List.map_congr_left fun o hoo => ?_)
        simp only [Function.comp_apply, aval, e2 o hoo]
      · exact ih hn.2.1 ho.2 hz' hp _ x hx.2 q hq op hop

/-! ### The sample is an execution -/

theorem runSample_vec (samp : Draw → List F → (Key → Ω) → ℝ) (keyOf : ℕ → Key) (ω : Key → Ω) (body : List Stmt)
    (hp : ∀ D ∈ draws body, D.links = []) (val : ℕ → ℝ) :
    runSample samp keyOf ω body val
      = execute body val (vec samp body val fun i q => ω (q ++ keyOf ((draws body).get i).keyVar)) := by
  induction body generalizing val with
  | nil => rfl
  | cons st rest ih =>
    cases st with
    | det op ins outs => exact ih hp _
    | tag n a => exact ih hp _
    | draw D =>
      have hD := hp D List.mem_cons_self
      have := ih (fun E hE => hp E (List.mem_cons_of_mem _ hE)) (setR val D.value
        (samp D (D.params val) (fun q => ω (q ++ keyOf D.keyVar))))
      rw [runSample, execute, vec, hD]
      simp only [lastVar, pushes]
      rw [this]
      rfl

/-! ### The joint density -/

theorem dens_addF' (a b : F) : dens (addF a b) = dens a * dens b := by
  cases a <;> cases b <;> simp [addF, dens, Real.exp_add, ENNReal.ofReal_mul (Real.exp_pos _).le]

theorem jd_logJoint (body : List Stmt) (hn : (body.flatMap Stmt.defs).Nodup) (ho : Scoped body)
    (hp : ∀ D ∈ draws body, D.links = []) (val : ℕ → ℝ) (x : Fin (draws body).length → ℝ) (c d : List (Atom F)) :
    jd body val x = dens ((LProg.mk c d (body.flatMap Stmt.eqns)).logJoint (execute body val x)) := by
  induction body generalizing val with
  | nil => simp [jd, LProg.logJoint, LProg.randoms, sumF, dens]
  | cons st rest ih =>
    have hn' := hn
    rw [List.flatMap_cons, List.nodup_append] at hn
    cases st with
    | det op ins outs => exact ih hn.2.1 ho.2 hp _ x
    | tag n a => exact ih hn.2.1 ho.2 hp _ x
    | draw D =>
      have hD := hp D List.mem_cons_self
      have h2 := ih hn.2.1 ho.2 (fun E hE => hp E (List.mem_cons_of_mem _ hE))
        (setR val D.value (x (0 : Fin ((draws rest).length + 1)))) (Fin.tail (n := (draws rest).length) x)
      have hval : execute (.draw D :: rest) val x D.value = x (0 : Fin ((draws rest).length + 1)) :=
        execute_rvs (.draw D :: rest) hn' val x (0 : Fin ((draws rest).length + 1))
      have hpar : ((D.operands.drop D.numConsts).drop 1).map (aval (execute (.draw D :: rest) val x)) = D.params val := by
        refine aval_map_congr_node fun y hy => ?_
        refine execute_other _ _ _ _ ?_
        rw [List.flatMap_cons]
        refine ho.1 y ?_
        simp only [Stmt.uses, hD, List.flatMap_nil, List.append_nil]
        obtain ⟨a, ha, hay⟩ := List.mem_filterMap.1 hy
        exact List.mem_filterMap.2 ⟨a, List.mem_of_mem_drop (List.mem_of_mem_drop ha), hay⟩
      have e : (LProg.mk c d ((Stmt.draw D :: rest).flatMap Stmt.eqns)).logJoint (execute (.draw D :: rest) val x)
          = addF (D.logp (D.params val) [some (x (0 : Fin ((draws rest).length + 1)))])
            ((LProg.mk c d (rest.flatMap Stmt.eqns)).logJoint (execute (.draw D :: rest) val x)) := by
        rw [← hpar, ← hval]
        simp only [LProg.logJoint, LProg.randoms, List.flatMap_cons, Stmt.eqns, hD, linkEqns, List.cons_append,
          List.nil_append, List.filterMap_cons, List.map_cons, sumF, List.foldr_cons]
        rfl
      rw [e, dens_addF', jd, hD, lastVar, h2]
      congr 2
      simp [Draw.lp, hD, chainCell, addF_zero_right]

theorem execute_measurable {T W : Type} [MeasurableSpace T] [MeasurableSpace W] (Q : Measure W)
    (samp : Draw → List F → W → ℝ) (body : List Stmt) (h : ∀ st ∈ body, st.Sampled Q samp) :
    ∀ (val : T → ℕ → ℝ) (x : T → Fin (draws body).length → ℝ), Measurable val → Measurable x →
      Measurable fun t => execute body (val t) (x t) := by
  induction body with
  | nil => intro val x hv _; exact hv
  | cons st rest ih =>
    have ih := ih fun s hs => h s (List.mem_cons_of_mem _ hs)
    have hst := h st List.mem_cons_self
    intro val x hv hx
    cases st with
    | det op ins outs => exact ih _ x (hst.comp hv) hx
    | tag n a => exact ih _ x hv hx
    | draw D =>
      have h0 : Measurable fun t => x t (0 : Fin ((draws rest).length + 1)) :=
        (measurable_pi_apply (0 : Fin ((draws rest).length + 1))).comp hx
      exact ih _ _ (measurable_setR hv _ h0) (measurable_tail hx)

end Verif.LogProb.Joint
