import Verif.Inverse.NestedProps
import Verif.Inverse.Jacobian
import Verif.LogProb.Props

/-!
# C71 is false of the ILDJ: a call changes it

`f(x1, x2) = (exp x1, 2 * x1 + (-x2))`.  If `(2 * x1, -x2)` is computed by a call (`jax.jit`), `ildj` is wrong, in every
order of propagation.  The call is run twice: once with `x1` known, to compute `2 * x1` (with ILDJ 0, as for every
forward evaluation), and again when `-x2` is known.  In the second run, the rule of the product computes `x1` anew from
`2 * x1`, and so the ILDJ of `x1` is lost.
-/
namespace Verif.Inverse.Nested

open Verif.Propagate

/-- The body of the call: `(2 * x1, -x2)`. -/
noncomputable def cexBody : List CEqn :=
  [.prim (.bin .mul) [.lit (some 2), .var 0] [.var 2], .prim (.un .neg) [.var 1] [.var 3]]

/-- `def f(x1, x2): t1, t2 = jit(lambda x1, x2: (2 * x1, -x2))(x1, x2); return exp(x1), t1 + t2`. -/
noncomputable def cex : CProg := ⟨[.var 0, .var 1], [.var 2, .var 5],
  [.prim (.un .exp) [.var 0] [.var 2],
   .call 0 [.var 0, .var 1] [.var 2, .var 3] cexBody [.var 0, .var 1] [.var 3, .var 4],
   .prim (.bin .add) [.var 3, .var 4] [.var 5]]⟩

/-- The same function without the call. -/
noncomputable def cexFlat : Prog := ⟨[.var 0, .var 1], [.var 2, .var 5],
  [(.un .exp, [.var 0], [.var 2]), (.bin .mul, [.lit (some 2), .var 0], [.var 3]), (.un .neg, [.var 1], [.var 4]),
   (.bin .add, [.var 3, .var 4], [.var 5])]⟩

/-- The values at `x1 = x2 = 1`. -/
noncomputable def cexVal (u : Nat) : ℝ :=
  if u = 0 then 1 else if u = 1 then 1 else if u = 2 then Real.exp 1 else if u = 3 then 2 else if u = 4 then -1 else 1

/-! ### The rules -/

theorem exp_rule : unRule .exp [none] [some (some (Real.exp 1), some 0)] =
    ([some (some 1, some (-1))], [some (some (Real.exp 1), some 0)], false) := by
  have hexp : HasDerivAt Un.exp.gr (Real.exp 1)⁻¹ (Real.exp 1) := by
    refine (Real.hasDerivAt_log (Real.exp_pos 1).ne').congr_of_eventuallyEq ?_
    filter_upwards [lt_mem_nhds (Real.exp_pos 1)] with w hw
    simp [Un.gr, Un.g, npLog, hw]
  have hdl : Un.exp.dlog (Real.exp 1) = some (-1) := by
    simp only [Un.dlog]
    rw [if_pos ⟨hexp.differentiableAt, by rw [hexp.deriv]; positivity⟩, hexp.deriv, abs_of_pos (by positivity),
      Real.log_inv, Real.log_exp]
  have hg : Un.exp.g (Real.exp 1) = some 1 := by simp [Un.g, npLog, Real.exp_pos]
  simp [unRule, Un.ld, addF, hdl, hg]

theorem neg_rule : unRule .neg [none] [some (some (-1), some 0)] =
    ([some (some 1, some 0)], [some (some (-1), some 0)], false) := by
  have hneg : HasDerivAt Un.neg.gr (-1) (-1) := by
    have := (hasDerivAt_id (-1 : ℝ)).neg
    refine this.congr_of_eventuallyEq ?_
    filter_upwards with w
    simp [Un.gr, Un.g]
  have hdl : Un.neg.dlog (-1) = some 0 := by
    simp only [Un.dlog]
    rw [if_pos ⟨hneg.differentiableAt, by rw [hneg.deriv]; norm_num⟩, hneg.deriv]
    simp
  simp [unRule, Un.ld, addF, hdl, Un.g]

theorem mul_fwd (l : F) : binRule .mul [some (some 2, some 0), some (some 1, l)] [none] =
    ([some (some 2, some 0), some (some 1, l)], [some (some 2, some 0)], false) := by
  simp [binRule, bind2, Bin.f]

theorem mul_back (c : ICell) : binRule .mul [some (some 2, some 0), c] [some (some 2, some 0)] =
    ([some (some 2, some 0), some (some 1, some (-Real.log 2))], [some (some 2, some 0)], false) := by
  simp [binRule, bind2, Bin.gl, Bin.ll, npLog, addF]

theorem add_back (c : ICell) : binRule .add [some (some 2, some 0), c] [some (some 1, some 0)] =
    ([some (some 2, some 0), some (some (-1), some 0)], [some (some 1, some 0)], false) := by
  have : (1 : ℝ) - 2 = -1 := by norm_num
  simp [binRule, bind2, Bin.gl, Bin.ll, addF, this]

/-! ### The call -/

/-- What one execution of `t1 = 2 * x1` makes of the cells of `x1` and `t1`. -/
noncomputable def mulF (x t : ICell) : ICell × ICell :=
  (iOps.join x ((binRule .mul [some (some 2, some 0), x] [t]).1.getD 1 none),
    iOps.join t ((binRule .mul [some (some 2, some 0), x] [t]).2.1.getD 0 none))

/-- What one execution of `t2 = -x2` makes of the cells of `x2` and `t2`. -/
noncomputable def negF (x t : ICell) : ICell × ICell :=
  (iOps.join x ((unRule .neg [x] [t]).1.getD 0 none), iOps.join t ((unRule .neg [x] [t]).2.1.getD 0 none))

/-- The jaxpr of the callee. -/
noncomputable def inner : Jaxpr ICell F Bool := ⟨[], [.var 0, .var 1], [.var 2, .var 3],
  [⟨[.lit (some 2), .var 0], [.var 2], binRule .mul⟩, ⟨[.var 1], [.var 3], unRule .neg⟩]⟩

theorem inner_nbr (x e : Nat) : Nbr inner x e ↔ (e = 0 ∧ (x = 0 ∨ x = 2)) ∨ (e = 1 ∧ (x = 1 ∨ x = 3)) := by
  obtain _ | _ | e := e <;> simp [Nbr, inner, Atom.node] <;> omega

theorem exec_mul (env : Env ICell) (z : Nat) :
    (exec iOps env (⟨[.lit (some 2), .var 0], [.var 2], binRule .mul⟩ : Eqn ICell F Bool)).1 z =
      if z = 0 then (mulF (env 0) (env 2)).1 else if z = 2 then (mulF (env 0) (env 2)).2 else env z := by
  rcases h0 : env 0 with _ | ⟨v, l⟩ <;> rcases h2 : env 2 with _ | ⟨w, m⟩ <;>
  · by_cases z0 : z = 0
    · subst z0; simp [exec, Propagate.read, h0, h2, binRule, writeAll, write, iOps, mulF]
    · by_cases z2 : z = 2
      · subst z2; simp [exec, Propagate.read, h0, h2, binRule, writeAll, write, iOps, mulF]
      · simp [exec, Propagate.read, h0, h2, binRule, writeAll, write, iOps, z0, z2]

theorem exec_neg (env : Env ICell) (z : Nat) :
    (exec iOps env (⟨[.var 1], [.var 3], unRule .neg⟩ : Eqn ICell F Bool)).1 z =
      if z = 1 then (negF (env 1) (env 3)).1 else if z = 3 then (negF (env 1) (env 3)).2 else env z := by
  rcases h0 : env 1 with _ | ⟨v, l⟩ <;> rcases h2 : env 3 with _ | ⟨w, m⟩ <;>
  · by_cases z0 : z = 1
    · subst z0; simp [exec, Propagate.read, h0, h2, unRule, writeAll, write, iOps, negF]
    · by_cases z2 : z = 3
      · subst z2; simp [exec, Propagate.read, h0, h2, unRule, writeAll, write, iOps, negF]
      · simp [exec, Propagate.read, h0, h2, unRule, writeAll, write, iOps, z0, z2]

theorem progressed_node (q : Eqn ICell F Bool) (old new : List ICell) (x : Nat)
    (h : x ∈ progressed iOps (q.ins ++ q.outs) old new) : some x ∈ (q.ins ++ q.outs).map Atom.node := by
  rw [mem_progressed] at h
  obtain ⟨i, a, o, n, h1, -, -, -, h5⟩ := h
  exact List.mem_map.2 ⟨a, List.mem_of_getElem? h1, h5⟩

/-- In every order of propagation, the call executes each of its two equations once. -/
theorem inner_run (x1 x2 t1 t2 : ICell) (s : St ICell Bool) (h : Completes inner [x1, x2] [t1, t2] s) :
    s.env 0 = (mulF x1 t1).1 ∧ s.env 2 = (mulF x1 t1).2 ∧ s.env 1 = (negF x2 t2).1 ∧ s.env 3 = (negF x2 t2).2 := by
  obtain ⟨s0, h0, hs, hq⟩ := h
  have key : s.queue.Nodup ∧ ((0 ∈ s.queue ∧ s.env 0 = x1 ∧ s.env 2 = t1) ∨
        (0 ∉ s.queue ∧ s.env 0 = (mulF x1 t1).1 ∧ s.env 2 = (mulF x1 t1).2)) ∧
      ((1 ∈ s.queue ∧ s.env 1 = x2 ∧ s.env 3 = t2) ∨
        (1 ∉ s.queue ∧ s.env 1 = (negF x2 t2).1 ∧ s.env 3 = (negF x2 t2).2)) := by
    clear hq
    induction hs with
    | refl =>
      obtain ⟨henv, hq, -⟩ := h0
      have hm : ∀ e, e ∈ s0.queue ↔ ∃ x, (x = 2 ∨ x = 3 ∨ x = 0 ∨ x = 1) ∧ Nbr inner x e := by
        intro e
        rw [hq.2]
        simp [inner, Atom.node]
      rw [init_env _ rfl] at henv
      refine ⟨hq.1, .inl ⟨(hm 0).2 ⟨0, by simp, by rw [inner_nbr]; simp⟩, ?_, ?_⟩,
        .inl ⟨(hm 1).2 ⟨1, by simp, by rw [inner_nbr]; simp⟩, ?_, ?_⟩⟩
      all_goals
        rw [henv]
        rcases x1 with _ | x1 <;> rcases x2 with _ | x2 <;> rcases t1 with _ | t1 <;> rcases t2 with _ | t2 <;>
          simp [inner, writeAll, write, iOps]
    | tail t u _ hst ih =>
      obtain ⟨hnd, ih0, ih1⟩ := ih
      cases hst with
      | mk e rest q q' hq he hp =>
        rw [hq] at hnd ih0 ih1
        obtain ⟨hner, hndr⟩ := List.nodup_cons.1 hnd
        have hmem : ∀ e', e' ∈ q' ↔ e' ∈ rest := by
          intro e'
          rw [hp.mem]
          constructor
          · rintro (h | ⟨hne, x, hx, hn⟩)
            · exact h
            · exfalso
              have h1 : Nbr inner x e := ⟨q, he, progressed_node q _ _ x hx⟩
              rw [inner_nbr] at h1 hn
              omega
          · exact .inl
        refine ⟨hp.nodup hndr, ?_, ?_⟩
        · simp only [hmem]
          obtain _ | _ | e := e
          · simp only [inner, List.getElem?_cons_zero, Option.some.injEq] at he
            subst he
            rcases ih0 with ⟨-, a, b⟩ | ⟨hno, -⟩
            · refine .inr ⟨hner, ?_, ?_⟩
              · rw [exec_mul, a, b]; simp
              · rw [exec_mul, a, b]; simp
            · simp at hno
          · simp only [inner, Nat.zero_add, List.getElem?_cons_succ, List.getElem?_cons_zero, Option.some.injEq] at he
            subst he
            rw [exec_neg, exec_neg]
            simpa using ih0
          · simp [inner] at he
        · simp only [hmem]
          obtain _ | _ | e := e
          · simp only [inner, List.getElem?_cons_zero, Option.some.injEq] at he
            subst he
            rw [exec_mul, exec_mul]
            simpa using ih1
          · simp only [inner, Nat.zero_add, List.getElem?_cons_succ, List.getElem?_cons_zero, Option.some.injEq] at he
            subst he
            rcases ih1 with ⟨-, a, b⟩ | ⟨hno, -⟩
            · refine .inr ⟨hner, ?_, ?_⟩
              · rw [exec_neg, a, b]; simp
              · rw [exec_neg, a, b]; simp
            · simp at hno
          · simp [inner] at he
  rw [hq] at key
  simp only [List.not_mem_nil, false_and, not_false_eq_true, true_and, false_or] at key
  exact ⟨key.2.1.1, key.2.1.2, key.2.2.1, key.2.2.2⟩

theorem cexBody_wf : wfAll cexBody := by
  simp [cexBody, wfAll, Op.Fits]

theorem cex_wf : wfAll cex.eqns := by
  simp [cex, wfAll, Op.Fits, cexBody_wf]

theorem body_inner (σ : Order) :
    (⟨[], [.var 0, .var 1], [.var 2, .var 3], eqnsOf σ cexBody⟩ : Jaxpr ICell F Bool) = inner := by
  simp [cexBody, eqnsOf, inner, Op.rule]

theorem call_value (σ : Order) (hσ : σ.Valid) (x1 x2 t1 t2 : ICell) : σ 0 inner [x1, x2] [t1, t2] =
    ([(mulF x1 t1).1, (negF x2 t2).1], [(mulF x1 t1).2, (negF x2 t2).2], false) := by
  have hz : Sized inner := by rw [← body_inner σ]; exact sized_all σ hσ _ cexBody_wf
  obtain ⟨s, hs, heq⟩ := hσ 0 inner [x1, x2] [t1, t2] hz rfl rfl
  obtain ⟨h1, h2, h3, h4⟩ := inner_run x1 x2 t1 t2 s hs
  rw [heq]
  simp [inner, Propagate.read, h1, h2, h3, h4]

/-! ### The runs of the function with the call -/

theorem join_join (a b : ICell) : iOps.join a (iOps.join a b) = iOps.join a b := by
  cases a <;> cases b <;> rfl

/-- The propagation problem of the function with the call. -/
noncomputable def outer (σ : Order) : Jaxpr ICell F Bool := ⟨[], [.var 0, .var 1], [.var 2, .var 5],
  [⟨[.var 0], [.var 2], unRule .exp⟩, ⟨[.var 0, .var 1], [.var 3, .var 4], σ 0 inner⟩,
   ⟨[.var 3, .var 4], [.var 5], binRule .add⟩]⟩

theorem cex_jaxpr (σ : Order) : cex.jaxpr σ = outer σ := by
  simp [cex, CProg.jaxpr, eqnsOf, outer, body_inner, Op.rule]

theorem outer_nbr (σ : Order) (x e : Nat) : Nbr (outer σ) x e ↔ (e = 0 ∧ (x = 0 ∨ x = 2)) ∨
    (e = 1 ∧ (x = 0 ∨ x = 1 ∨ x = 3 ∨ x = 4)) ∨ (e = 2 ∧ (x = 3 ∨ x = 4 ∨ x = 5)) := by
  obtain _ | _ | _ | e := e <;> simp [Nbr, outer, Atom.node] <;> omega

theorem outer_sized (σ : Order) (hσ : σ.Valid) : Sized (outer σ) := by
  rw [← cex_jaxpr]
  exact sized_all σ hσ _ cex_wf

theorem exec_call (σ : Order) (hσ : σ.Valid) (env : Env ICell) (z : Nat) :
    (exec iOps env (⟨[.var 0, .var 1], [.var 3, .var 4], σ 0 inner⟩ : Eqn ICell F Bool)).1 z =
      if z = 0 then (mulF (env 0) (env 3)).1 else if z = 1 then (negF (env 1) (env 4)).1
      else if z = 3 then (mulF (env 0) (env 3)).2 else if z = 4 then (negF (env 1) (env 4)).2 else env z := by
  have h1 : ∀ a b, iOps.join a (mulF a b).1 = (mulF a b).1 := fun a b => join_join _ _
  have h2 : ∀ a b, iOps.join b (mulF a b).2 = (mulF a b).2 := fun a b => join_join _ _
  have h3 : ∀ a b, iOps.join a (negF a b).1 = (negF a b).1 := fun a b => join_join _ _
  have h4 : ∀ a b, iOps.join b (negF a b).2 = (negF a b).2 := fun a b => join_join _ _
  simp only [exec, Propagate.read, List.map_cons, List.map_nil, call_value σ hσ, writeAll, write]
  by_cases z0 : z = 0
  · subst z0; simp [h1]
  by_cases z1 : z = 1
  · subst z1; simp [h3]
  by_cases z3 : z = 3
  · subst z3; simp [h2]
  by_cases z4 : z = 4
  · subst z4; simp [h4]
  simp [z0, z1, z3, z4]

theorem mulF_none : mulF none none = (none, none) := rfl
theorem mulF_fwd (l : F) : mulF (some (some 1, l)) none = (some (some 1, l), some (some 2, some 0)) := by
  simp [mulF, mul_fwd, iOps]
theorem mulF_back (c : ICell) :
    mulF c (some (some 2, some 0)) = (some (some 1, some (-Real.log 2)), some (some 2, some 0)) := by
  simp [mulF, mul_back, iOps]
theorem negF_none : negF none none = (none, none) := rfl
theorem negF_back : negF none (some (some (-1), some 0)) = (some (some 1, some 0), some (some (-1), some 0)) := by
  simp [negF, neg_rule, iOps]
theorem negF_both (a b : F × F) : negF (some a) (some b) = (some a, some b) := by
  simp [negF, unRule, iOps]

theorem exec_exp (env : Env ICell) (v l : F) (h2 : env 2 = some (v, l)) (z : Nat) :
    (exec iOps env (⟨[.var 0], [.var 2], unRule .exp⟩ : Eqn ICell F Bool)).1 z =
      if z = 0 then iOps.join (env 0) ((unRule .exp [env 0] [env 2]).1.getD 0 none) else env z := by
  rcases h0 : env 0 with _ | ⟨a, b⟩ <;>
  · by_cases z0 : z = 0
    · subst z0; simp [exec, Propagate.read, h0, h2, unRule, writeAll, write, iOps]
    · by_cases z2 : z = 2
      · subst z2; simp [exec, Propagate.read, h0, h2, unRule, writeAll, write, iOps]
      · simp [exec, Propagate.read, h0, h2, unRule, writeAll, write, iOps, z0, z2]

theorem exec_add (env : Env ICell) (v l : F) (h5 : env 5 = some (v, l)) (z : Nat) :
    (exec iOps env (⟨[.var 3, .var 4], [.var 5], binRule .add⟩ : Eqn ICell F Bool)).1 z =
      if z = 3 then iOps.join (env 3) ((binRule .add [env 3, env 4] [env 5]).1.getD 0 none)
      else if z = 4 then iOps.join (env 4) ((binRule .add [env 3, env 4] [env 5]).1.getD 1 none) else env z := by
  rcases h3 : env 3 with _ | ⟨a, b⟩ <;> rcases h4 : env 4 with _ | ⟨c, d⟩ <;>
  · by_cases z3 : z = 3
    · subst z3; simp [exec, Propagate.read, h3, h4, h5, binRule, writeAll, write, iOps]
    · by_cases z4 : z = 4
      · subst z4; simp [exec, Propagate.read, h3, h4, h5, binRule, writeAll, write, iOps]
      · by_cases z5 : z = 5
        · subst z5; simp [exec, Propagate.read, h3, h4, h5, binRule, writeAll, write, iOps]
        · simp [exec, Propagate.read, h3, h4, h5, binRule, writeAll, write, iOps, z3, z4, z5]

/-- The states of a run. -/
def CexState (env : Env ICell) (Q : Nat → Prop) : Prop :=
  env 2 = some (some (Real.exp 1), some 0) ∧ env 5 = some (some 1, some 0) ∧
  ((env 0 = none ∧ env 1 = none ∧ env 3 = none ∧ env 4 = none ∧ Q 0) ∨
   (env 0 = some (some 1, some (-1)) ∧ env 1 = none ∧ env 3 = none ∧ env 4 = none ∧ Q 1) ∨
   ((∃ l, env 0 = some (some 1, some l)) ∧ env 1 = none ∧ env 3 = some (some 2, some 0) ∧ env 4 = none ∧ Q 2) ∨
   ((∃ l, env 0 = some (some 1, some l)) ∧ env 1 = none ∧ env 3 = some (some 2, some 0) ∧
      env 4 = some (some (-1), some 0) ∧ Q 1) ∨
   (env 0 = some (some 1, some (-Real.log 2)) ∧ env 1 = some (some 1, some 0) ∧ env 3 = some (some 2, some 0) ∧
      env 4 = some (some (-1), some 0)))

theorem pushed (J : Jaxpr ICell F Bool) (hs : Sized J) (e : Nat) (rest : List Nat) (q : Eqn ICell F Bool) (q' : List Nat)
    (env : Env ICell) (he : J.eqns[e]? = some q)
    (hp : Pushes J e (progressed iOps (q.ins ++ q.outs) (q.ins.map (Propagate.read iOps env) ++
      q.outs.map (Propagate.read iOps env)) ((exec iOps env q).2.1 ++ (exec iOps env q).2.2.1)) rest q') :
    (∀ e' ∈ rest, e' ∈ q') ∧ ∀ x, env x = none → (exec iOps env q).1 x ≠ none → ∀ e', e' ≠ e → Nbr J x e' → e' ∈ q' :=
  ⟨fun e' h => (hp.mem e').2 (.inl h), fun x h0 h1 e' hne hn => (hp.mem e').2 (.inr ⟨hne, x,
    LogProb.known_progressed hs (List.mem_of_getElem? he) env x h0 h1, hn⟩)⟩

/-- An execution of an equation of the function with the call, where `Q` are the equations in the queue before and `Q'`
those after it. -/
theorem cex_trans (σ : Order) (hσ : σ.Valid) (env : Env ICell) (Q Q' : Nat → Prop) (e : Nat) (q : Eqn ICell F Bool)
    (he : (outer σ).eqns[e]? = some q) (h : CexState env Q) (hr : ∀ k, k ≠ e → Q k → Q' k)
    (hpush : ∀ x, env x = none → (exec iOps env q).1 x ≠ none → ∀ k, k ≠ e → Nbr (outer σ) x k → Q' k) :
    CexState (exec iOps env q).1 Q' := by
    obtain ⟨h2, h5, h⟩ := h
    obtain _ | _ | _ | e := e
    · simp only [outer, List.getElem?_cons_zero, Option.some.injEq] at he
      subst he
      have hx := exec_exp env _ _ h2
      refine ⟨by rw [hx]; simpa using h2, by rw [hx]; simpa using h5, ?_⟩
      rcases h with ⟨a, b, c, d, f⟩ | ⟨a, b, c, d, f⟩ | ⟨⟨l, a⟩, b, c, d, f⟩ | ⟨⟨l, a⟩, b, c, d, f⟩ | ⟨a, b, c, d⟩
      · have h0 : (exec iOps env (⟨[.var 0], [.var 2], unRule .exp⟩ : Eqn ICell F Bool)).1 0 =
            some (some 1, some (-1)) := by rw [hx, a, h2, exp_rule]; simp [iOps]
        refine .inr (.inl ⟨h0, by rw [hx]; simpa using b, by rw [hx]; simpa using c, by rw [hx]; simpa using d, ?_⟩)
        exact hpush 0 a (by rw [h0]; simp) 1 (by decide) ((outer_nbr σ 0 1).2 (by decide))
      · have h0 : ∀ z, (exec iOps env (⟨[.var 0], [.var 2], unRule .exp⟩ : Eqn ICell F Bool)).1 z = env z := by
          intro z; rw [hx]; split
          · rename_i hz; subst hz; rw [a, h2]; simp [unRule, iOps]
          · rfl
        simp only [h0]
        exact .inr (.inl ⟨a, b, c, d, hr 1 (by decide) f⟩)
      · have h0 : ∀ z, (exec iOps env (⟨[.var 0], [.var 2], unRule .exp⟩ : Eqn ICell F Bool)).1 z = env z := by
          intro z; rw [hx]; split
          · rename_i hz; subst hz; rw [a, h2]; simp [unRule, iOps]
          · rfl
        simp only [h0]
        exact .inr (.inr (.inl ⟨⟨l, a⟩, b, c, d, hr 2 (by decide) f⟩))
      · have h0 : ∀ z, (exec iOps env (⟨[.var 0], [.var 2], unRule .exp⟩ : Eqn ICell F Bool)).1 z = env z := by
          intro z; rw [hx]; split
          · rename_i hz; subst hz; rw [a, h2]; simp [unRule, iOps]
          · rfl
        simp only [h0]
        exact .inr (.inr (.inr (.inl ⟨⟨l, a⟩, b, c, d, hr 1 (by decide) f⟩)))
      · have h0 : ∀ z, (exec iOps env (⟨[.var 0], [.var 2], unRule .exp⟩ : Eqn ICell F Bool)).1 z = env z := by
          intro z; rw [hx]; split
          · rename_i hz; subst hz; rw [a, h2]; simp [unRule, iOps]
          · rfl
        simp only [h0]
        exact .inr (.inr (.inr (.inr ⟨a, b, c, d⟩)))
    · simp only [outer, Nat.zero_add, List.getElem?_cons_succ, List.getElem?_cons_zero, Option.some.injEq] at he
      subst he
      have hx := exec_call σ hσ env
      refine ⟨by rw [hx]; simpa using h2, by rw [hx]; simpa using h5, ?_⟩
      rcases h with ⟨a, b, c, d, f⟩ | ⟨a, b, c, d, f⟩ | ⟨⟨l, a⟩, b, c, d, f⟩ | ⟨⟨l, a⟩, b, c, d, f⟩ | ⟨a, b, c, d⟩
      · rw [a, b, c, d, mulF_none, negF_none] at hx
        refine .inl ⟨by rw [hx]; rfl, by rw [hx]; rfl, by rw [hx]; rfl, by rw [hx]; rfl, hr 0 (by decide) f⟩
      · rw [a, b, c, d, mulF_fwd, negF_none] at hx
        refine .inr (.inr (.inl ⟨⟨-1, by rw [hx]; rfl⟩, by rw [hx]; rfl, by rw [hx]; rfl, by rw [hx]; rfl, ?_⟩))
        exact hpush 3 c (by rw [hx]; simp) 2 (by decide) ((outer_nbr σ 3 2).2 (by decide))
      · rw [a, b, c, d, mulF_back, negF_none] at hx
        refine .inr (.inr (.inl ⟨⟨_, by rw [hx]; rfl⟩, by rw [hx]; rfl, by rw [hx]; rfl, by rw [hx]; rfl,
          hr 2 (by decide) f⟩))
      · rw [a, b, c, d, mulF_back, negF_back] at hx
        exact .inr (.inr (.inr (.inr ⟨by rw [hx]; rfl, by rw [hx]; rfl, by rw [hx]; rfl, by rw [hx]; rfl⟩)))
      · rw [a, b, c, d, mulF_back, negF_both] at hx
        exact .inr (.inr (.inr (.inr ⟨by rw [hx]; rfl, by rw [hx]; rfl, by rw [hx]; rfl, by rw [hx]; rfl⟩)))
    · simp only [outer, Nat.zero_add, List.getElem?_cons_succ, List.getElem?_cons_zero, Option.some.injEq] at he
      subst he
      have hx := exec_add env _ _ h5
      refine ⟨by rw [hx]; simpa using h2, by rw [hx]; simpa using h5, ?_⟩
      rcases h with ⟨a, b, c, d, f⟩ | ⟨a, b, c, d, f⟩ | ⟨⟨l, a⟩, b, c, d, f⟩ | ⟨⟨l, a⟩, b, c, d, f⟩ | ⟨a, b, c, d⟩
      · rw [c, d, h5] at hx
        exact .inl ⟨by rw [hx]; exact a, by rw [hx]; exact b, by rw [hx]; rfl, by rw [hx]; rfl, hr 0 (by decide) f⟩
      · rw [c, d, h5] at hx
        exact .inr (.inl ⟨by rw [hx]; exact a, by rw [hx]; exact b, by rw [hx]; rfl, by rw [hx]; rfl, hr 1 (by decide) f⟩)
      · rw [c, d, h5, add_back] at hx
        refine .inr (.inr (.inr (.inl ⟨⟨l, by rw [hx]; exact a⟩, by rw [hx]; exact b, by rw [hx]; rfl, by rw [hx]; rfl, ?_⟩)))
        exact hpush 4 d (by rw [hx]; simp [iOps]) 1 (by decide) ((outer_nbr σ 4 1).2 (by decide))
      · rw [c, d, h5, add_back] at hx
        exact .inr (.inr (.inr (.inl ⟨⟨l, by rw [hx]; exact a⟩, by rw [hx]; exact b, by rw [hx]; rfl, by rw [hx]; rfl,
          hr 1 (by decide) f⟩)))
      · rw [c, d, h5, add_back] at hx
        exact .inr (.inr (.inr (.inr ⟨by rw [hx]; exact a, by rw [hx]; exact b, by rw [hx]; rfl, by rw [hx]; rfl⟩)))
    · simp [outer] at he

theorem cex_step (σ : Order) (hσ : σ.Valid) (s t : St ICell Bool) (h : CexState s.env (· ∈ s.queue))
    (hst : Step iOps (outer σ) s t) : CexState t.env (· ∈ t.queue) := by
  cases hst with
  | mk e rest q q' hq he hp =>
    obtain ⟨hkeep, hpush⟩ := pushed _ (outer_sized σ hσ) e rest q q' s.env he hp
    refine cex_trans σ hσ s.env (· ∈ s.queue) (· ∈ q') e q he h ?_ hpush
    intro k hk hm
    rw [hq] at hm
    exact hkeep k ((List.mem_cons.1 hm).resolve_left hk)

theorem cex_final (σ : Order) (hσ : σ.Valid) (s : St ICell Bool)
    (h : Completes (outer σ) [none, none] [some (some (Real.exp 1), some 0), some (some 1, some 0)] s) :
    s.env 0 = some (some 1, some (-Real.log 2)) ∧ s.env 1 = some (some 1, some 0) := by
  obtain ⟨s0, h0, hs, hq⟩ := h
  have hst : CexState s.env (· ∈ s.queue) := by
    clear hq
    induction hs with
    | refl =>
      obtain ⟨henv, hqq, -⟩ := h0
      rw [init_env _ rfl] at henv
      have e : ∀ z, s0.env z = if z = 2 then some (some (Real.exp 1), some 0) else if z = 5 then some (some 1, some 0)
          else none := by
        intro z
        rw [henv]
        by_cases z0 : z = 0
        · subst z0; simp [outer, writeAll, write, iOps]
        by_cases z1 : z = 1
        · subst z1; simp [outer, writeAll, write, iOps]
        by_cases z2 : z = 2
        · subst z2; simp [outer, writeAll, write, iOps]
        by_cases z5 : z = 5
        · subst z5; simp [outer, writeAll, write, iOps]
        simp [outer, writeAll, write, iOps, z0, z1, z2, z5]
      refine ⟨by rw [e]; rfl, by rw [e]; rfl, .inl ⟨by rw [e]; rfl, by rw [e]; rfl, by rw [e]; rfl, by rw [e]; rfl, ?_⟩⟩
      exact (hqq.2 0).2 ⟨0, by simp [outer, Atom.node], (outer_nbr σ 0 0).2 (by decide)⟩
    | tail t u _ hst ih => exact cex_step σ hσ t u ih hst
  rw [hq] at hst
  obtain ⟨-, -, h⟩ := hst
  rcases h with ⟨a, b, c, d, f⟩ | ⟨a, b, c, d, f⟩ | ⟨⟨l, a⟩, b, c, d, f⟩ | ⟨⟨l, a⟩, b, c, d, f⟩ | ⟨a, b, c, d⟩
  · simp at f
  · simp at f
  · simp at f
  · simp at f
  · exact ⟨a, b⟩

/-- C71 is false of the ILDJ.  In every order of propagation, the inverse of the function with the call at
`(exp 1, 1)` finds the inputs `1` and `1` with ILDJ `- log 2`. -/
theorem C71_ildj_wrong (σ : Order) (hσ : σ.Valid) (res : Option (List (F × F))) :
    InverseRun σ cex [some (Real.exp 1), some 1] res ↔ res = some [(some 1, some (-Real.log 2)), (some 1, some 0)] := by
  have hfin : ∀ s, Completes (cex.jaxpr σ) (cex.invars.map (fun _ => none))
      ([some (Real.exp 1), some 1].map (fun y => some (y, some 0))) s →
      (cex.invars.map (Propagate.read iOps s.env)).mapM id = some [(some 1, some (-Real.log 2)), (some 1, some 0)] := by
    intro s hs
    rw [cex_jaxpr] at hs
    obtain ⟨a, b⟩ := cex_final σ hσ s hs
    simp [cex, Propagate.read, a, b]
  constructor
  · rintro ⟨s, hs, rfl⟩
    exact hfin s hs
  · rintro rfl
    obtain ⟨s, hs⟩ := completes_exists (cex.jaxpr σ) (by rw [cex_jaxpr]; exact outer_sized σ hσ)
      (cex.invars.map (fun _ => none)) ([some (Real.exp 1), some 1].map (fun y => some (y, some 0)))
    exact ⟨s, hs, (hfin s hs).symm⟩

/-! ### The same function without the call -/

/-- The propagation problem of the function without the call. -/
noncomputable def flatJ : Jaxpr ICell F Bool := ⟨[], [.var 0, .var 1], [.var 2, .var 5],
  [⟨[.var 0], [.var 2], unRule .exp⟩, ⟨[.lit (some 2), .var 0], [.var 3], binRule .mul⟩,
   ⟨[.var 1], [.var 4], unRule .neg⟩, ⟨[.var 3, .var 4], [.var 5], binRule .add⟩]⟩

theorem cexFlat_jaxpr : cexFlat.jaxpr = flatJ := by
  simp [cexFlat, Prog.jaxpr, flatJ, Op.rule]

theorem flat_nbr (x e : Nat) : Nbr flatJ x e ↔ (e = 0 ∧ (x = 0 ∨ x = 2)) ∨ (e = 1 ∧ (x = 0 ∨ x = 3)) ∨
    (e = 2 ∧ (x = 1 ∨ x = 4)) ∨ (e = 3 ∧ (x = 3 ∨ x = 4 ∨ x = 5)) := by
  obtain _ | _ | _ | _ | e := e <;> simp [Nbr, flatJ, Atom.node] <;> omega

theorem flat_sized : Sized flatJ := by
  intro q hq i o hi ho
  simp only [flatJ, List.mem_cons, List.not_mem_nil, or_false] at hq
  rcases hq with rfl | rfl | rfl | rfl
  · exact op_sized (.un .exp) 1 1 ⟨rfl, rfl⟩ i o hi ho
  · exact op_sized (.bin .mul) 2 1 ⟨rfl, rfl⟩ i o hi ho
  · exact op_sized (.un .neg) 1 1 ⟨rfl, rfl⟩ i o hi ho
  · exact op_sized (.bin .add) 2 1 ⟨rfl, rfl⟩ i o hi ho

theorem exec_mulFlat (env : Env ICell) (z : Nat) :
    (exec iOps env (⟨[.lit (some 2), .var 0], [.var 3], binRule .mul⟩ : Eqn ICell F Bool)).1 z =
      if z = 0 then (mulF (env 0) (env 3)).1 else if z = 3 then (mulF (env 0) (env 3)).2 else env z := by
  rcases h0 : env 0 with _ | ⟨v, l⟩ <;> rcases h2 : env 3 with _ | ⟨w, m⟩ <;>
  · by_cases z0 : z = 0
    · subst z0; simp [exec, Propagate.read, h0, h2, binRule, writeAll, write, iOps, mulF]
    · by_cases z2 : z = 3
      · subst z2; simp [exec, Propagate.read, h0, h2, binRule, writeAll, write, iOps, mulF]
      · simp [exec, Propagate.read, h0, h2, binRule, writeAll, write, iOps, z0, z2]

theorem exec_negFlat (env : Env ICell) (z : Nat) :
    (exec iOps env (⟨[.var 1], [.var 4], unRule .neg⟩ : Eqn ICell F Bool)).1 z =
      if z = 1 then (negF (env 1) (env 4)).1 else if z = 4 then (negF (env 1) (env 4)).2 else env z := by
  rcases h0 : env 1 with _ | ⟨v, l⟩ <;> rcases h2 : env 4 with _ | ⟨w, m⟩ <;>
  · by_cases z0 : z = 1
    · subst z0; simp [exec, Propagate.read, h0, h2, unRule, writeAll, write, iOps, negF]
    · by_cases z2 : z = 4
      · subst z2; simp [exec, Propagate.read, h0, h2, unRule, writeAll, write, iOps, negF]
      · simp [exec, Propagate.read, h0, h2, unRule, writeAll, write, iOps, z0, z2]

/-- The states of a run: the product is never executed again once `2 * x1` is known. -/
def FlatState (env : Env ICell) (Q : Nat → Prop) : Prop :=
  env 2 = some (some (Real.exp 1), some 0) ∧ env 5 = some (some 1, some 0) ∧
  ((env 0 = none ∧ env 1 = none ∧ env 3 = none ∧ env 4 = none ∧ Q 0) ∨
   (env 0 = some (some 1, some (-1)) ∧ ((env 1 = none ∧ env 3 = none ∧ env 4 = none ∧ Q 1) ∨
    (¬ Q 1 ∧ env 3 = some (some 2, some 0) ∧ ((env 1 = none ∧ env 4 = none ∧ Q 3) ∨
     (env 4 = some (some (-1), some 0) ∧ ((env 1 = none ∧ Q 2) ∨ env 1 = some (some 1, some 0))))))))

theorem flat_trans (env : Env ICell) (Q Q' : Nat → Prop) (e : Nat) (q : Eqn ICell F Bool)
    (he : flatJ.eqns[e]? = some q) (h : FlatState env Q) (hmem : Q e) (hr : ∀ k, k ≠ e → Q k → Q' k)
    (hpush : ∀ x, env x = none → (exec iOps env q).1 x ≠ none → ∀ k, k ≠ e → Nbr flatJ x k → Q' k)
    (hnew : ∀ k, Q' k → k ≠ e ∧ (Q k ∨ ∃ x, env x = none ∧ Nbr flatJ x k)) :
    FlatState (exec iOps env q).1 Q' := by
    obtain ⟨h2, h5, h⟩ := h
    have h1' : env 0 ≠ none → env 3 ≠ none → ¬ Q 1 → ¬ Q' 1 := by
      intro a b c hm
      rcases (hnew 1 hm).2 with h | ⟨x, hx, hn⟩
      · exact c h
      · rw [flat_nbr] at hn
        rcases (by omega : x = 0 ∨ x = 3) with rfl | rfl
        · exact a hx
        · exact b hx
    obtain _ | _ | _ | _ | e := e
    · simp only [flatJ, List.getElem?_cons_zero, Option.some.injEq] at he
      subst he
      have hx := exec_exp env _ _ h2
      refine ⟨by rw [hx]; simpa using h2, by rw [hx]; simpa using h5, ?_⟩
      rcases h with ⟨a, b, c, d, f⟩ | ⟨a, h⟩
      · have h0 : (exec iOps env (⟨[.var 0], [.var 2], unRule .exp⟩ : Eqn ICell F Bool)).1 0 =
            some (some 1, some (-1)) := by rw [hx, a, h2, exp_rule]; simp [iOps]
        refine .inr ⟨h0, .inl ⟨by rw [hx]; simpa using b, by rw [hx]; simpa using c, by rw [hx]; simpa using d, ?_⟩⟩
        exact hpush 0 a (by rw [h0]; simp) 1 (by decide) ((flat_nbr 0 1).2 (by decide))
      · have h0 : ∀ z, (exec iOps env (⟨[.var 0], [.var 2], unRule .exp⟩ : Eqn ICell F Bool)).1 z = env z := by
          intro z; rw [hx]; split
          · rename_i hz; subst hz; rw [a, h2]; simp [unRule, iOps]
          · rfl
        simp only [h0]
        refine .inr ⟨a, ?_⟩
        rcases h with ⟨b, c, d, f⟩ | ⟨f, c, h⟩
        · exact .inl ⟨b, c, d, hr 1 (by decide) f⟩
        · refine .inr ⟨h1' (by rw [a]; simp) (by rw [c]; simp) f, c, ?_⟩
          rcases h with ⟨b, d, g⟩ | ⟨d, ⟨b, g⟩ | b⟩
          · exact .inl ⟨b, d, hr 3 (by decide) g⟩
          · exact .inr ⟨d, .inl ⟨b, hr 2 (by decide) g⟩⟩
          · exact .inr ⟨d, .inr b⟩
    · simp only [flatJ, Nat.zero_add, List.getElem?_cons_succ, List.getElem?_cons_zero, Option.some.injEq] at he
      subst he
      have hx := exec_mulFlat env
      refine ⟨by rw [hx]; simpa using h2, by rw [hx]; simpa using h5, ?_⟩
      rcases h with ⟨a, b, c, d, f⟩ | ⟨a, h⟩
      · rw [a, c, mulF_none] at hx
        exact .inl ⟨by rw [hx]; rfl, by rw [hx]; exact b, by rw [hx]; rfl, by rw [hx]; exact d, hr 0 (by decide) f⟩
      · rcases h with ⟨b, c, d, f⟩ | ⟨f, c, h⟩
        · rw [a, c, mulF_fwd] at hx
          refine .inr ⟨by rw [hx]; rfl, .inr ⟨?_, by rw [hx]; rfl, .inl ⟨by rw [hx]; exact b, by rw [hx]; exact d, ?_⟩⟩⟩
          · exact fun hm => (hnew 1 hm).1 rfl
          · exact hpush 3 c (by rw [hx]; simp) 3 (by decide) ((flat_nbr 3 3).2 (by decide))
        · exact absurd hmem f
    · simp only [flatJ, Nat.zero_add, List.getElem?_cons_succ, List.getElem?_cons_zero, Option.some.injEq] at he
      subst he
      have hx := exec_negFlat env
      refine ⟨by rw [hx]; simpa using h2, by rw [hx]; simpa using h5, ?_⟩
      rcases h with ⟨a, b, c, d, f⟩ | ⟨a, h⟩
      · rw [b, d, negF_none] at hx
        exact .inl ⟨by rw [hx]; exact a, by rw [hx]; rfl, by rw [hx]; exact c, by rw [hx]; rfl, hr 0 (by decide) f⟩
      · rcases h with ⟨b, c, d, f⟩ | ⟨f, c, h⟩
        · rw [b, d, negF_none] at hx
          exact .inr ⟨by rw [hx]; exact a, .inl ⟨by rw [hx]; rfl, by rw [hx]; exact c, by rw [hx]; rfl, hr 1 (by decide) f⟩⟩
        · have hf := h1' (by rw [a]; simp) (by rw [c]; simp) f
          rcases h with ⟨b, d, g⟩ | ⟨d, ⟨b, g⟩ | b⟩
          · rw [b, d, negF_none] at hx
            exact .inr ⟨by rw [hx]; exact a, .inr ⟨hf, by rw [hx]; exact c, .inl ⟨by rw [hx]; rfl, by rw [hx]; rfl,
              hr 3 (by decide) g⟩⟩⟩
          · rw [b, d, negF_back] at hx
            exact .inr ⟨by rw [hx]; exact a, .inr ⟨hf, by rw [hx]; exact c, .inr ⟨by rw [hx]; rfl, .inr (by rw [hx]; rfl)⟩⟩⟩
          · rw [b, d, negF_both] at hx
            exact .inr ⟨by rw [hx]; exact a, .inr ⟨hf, by rw [hx]; exact c, .inr ⟨by rw [hx]; rfl, .inr (by rw [hx]; rfl)⟩⟩⟩
    · simp only [flatJ, Nat.zero_add, List.getElem?_cons_succ, List.getElem?_cons_zero, Option.some.injEq] at he
      subst he
      have hx := exec_add env _ _ h5
      refine ⟨by rw [hx]; simpa using h2, by rw [hx]; simpa using h5, ?_⟩
      rcases h with ⟨a, b, c, d, f⟩ | ⟨a, h⟩
      · rw [c, d, h5] at hx
        exact .inl ⟨by rw [hx]; exact a, by rw [hx]; exact b, by rw [hx]; rfl, by rw [hx]; rfl, hr 0 (by decide) f⟩
      · rcases h with ⟨b, c, d, f⟩ | ⟨f, c, h⟩
        · rw [c, d, h5] at hx
          exact .inr ⟨by rw [hx]; exact a, .inl ⟨by rw [hx]; exact b, by rw [hx]; rfl, by rw [hx]; rfl, hr 1 (by decide) f⟩⟩
        · have hf := h1' (by rw [a]; simp) (by rw [c]; simp) f
          rw [c, h5, add_back] at hx
          rcases h with ⟨b, d, g⟩ | ⟨d, ⟨b, g⟩ | b⟩
          · rw [d] at hx
            refine .inr ⟨by rw [hx]; exact a, .inr ⟨hf, by rw [hx]; rfl, .inr ⟨by rw [hx]; rfl, .inl ⟨by rw [hx]; exact b, ?_⟩⟩⟩⟩
            exact hpush 4 d (by rw [hx]; simp [iOps]) 2 (by decide) ((flat_nbr 4 2).2 (by decide))
          · rw [d] at hx
            exact .inr ⟨by rw [hx]; exact a, .inr ⟨hf, by rw [hx]; rfl, .inr ⟨by rw [hx]; rfl, .inl ⟨by rw [hx]; exact b,
              hr 2 (by decide) g⟩⟩⟩⟩
          · rw [d] at hx
            exact .inr ⟨by rw [hx]; exact a, .inr ⟨hf, by rw [hx]; rfl, .inr ⟨by rw [hx]; rfl, .inr (by rw [hx]; exact b)⟩⟩⟩
    · simp [flatJ] at he

/-- A variable that progresses was unknown. -/
theorem progressed_none (env : Env ICell) (q : Eqn ICell F Bool) (new : List ICell) (x : Nat)
    (hm : x ∈ progressed iOps (q.ins ++ q.outs) (q.ins.map (Propagate.read iOps env) ++
        q.outs.map (Propagate.read iOps env)) new) : env x = none := by
  rw [mem_progressed] at hm
  obtain ⟨i, a, o, n, h1, h3, -, h4, h6⟩ := hm
  rw [← List.map_append, List.getElem?_map, h1] at h3
  simp only [Option.map_some, Option.some.injEq] at h3
  subst h3
  cases a with
  | lit v => simp [Atom.node] at h6
  | var y =>
    simp only [Atom.node, Option.some.injEq] at h6
    subst h6
    simp only [iOps, Propagate.read, Bool.and_eq_true, Option.isNone_iff_eq_none] at h4
    exact h4.1
  | drop y =>
    simp only [Atom.node, Option.some.injEq] at h6
    subst h6
    simp only [iOps, Propagate.read, Bool.and_eq_true, Option.isNone_iff_eq_none] at h4
    exact h4.1

theorem flat_step (s t : St ICell Bool) (hnd : s.queue.Nodup) (h : FlatState s.env (· ∈ s.queue))
    (hst : Step iOps flatJ s t) : t.queue.Nodup ∧ FlatState t.env (· ∈ t.queue) := by
  cases hst with
  | mk e rest q q' hq he hp =>
    obtain ⟨hkeep, hpush⟩ := pushed _ flat_sized e rest q q' s.env he hp
    rw [hq] at hnd
    obtain ⟨hner, hndr⟩ := List.nodup_cons.1 hnd
    refine ⟨hp.nodup hndr, flat_trans s.env (· ∈ s.queue) (· ∈ q') e q he h (by simp [hq]) ?_ hpush ?_⟩
    · intro k hk hm
      rw [hq] at hm
      exact hkeep k ((List.mem_cons.1 hm).resolve_left hk)
    · intro k hm
      rcases (hp.mem k).1 hm with h | ⟨h, x, hx, hn⟩
      · exact ⟨fun hk => hner (hk ▸ h), .inl (by rw [hq]; exact List.mem_cons_of_mem _ h)⟩
      · exact ⟨h, .inr ⟨x, progressed_none _ _ _ x hx, hn⟩⟩

theorem flat_final (s : St ICell Bool)
    (h : Completes flatJ [none, none] [some (some (Real.exp 1), some 0), some (some 1, some 0)] s) :
    s.env 0 = some (some 1, some (-1)) ∧ s.env 1 = some (some 1, some 0) := by
  obtain ⟨s0, h0, hs, hq⟩ := h
  have hst : s.queue.Nodup ∧ FlatState s.env (· ∈ s.queue) := by
    clear hq
    induction hs with
    | refl =>
      obtain ⟨henv, hqq, -⟩ := h0
      rw [init_env _ rfl] at henv
      have e : ∀ z, s0.env z = if z = 2 then some (some (Real.exp 1), some 0) else if z = 5 then some (some 1, some 0)
          else none := by
        intro z
        rw [henv]
        by_cases z0 : z = 0
        · subst z0; simp [flatJ, writeAll, write, iOps]
        by_cases z1 : z = 1
        · subst z1; simp [flatJ, writeAll, write, iOps]
        by_cases z2 : z = 2
        · subst z2; simp [flatJ, writeAll, write, iOps]
        by_cases z5 : z = 5
        · subst z5; simp [flatJ, writeAll, write, iOps]
        simp [flatJ, writeAll, write, iOps, z0, z1, z2, z5]
      refine ⟨hqq.1, by rw [e]; rfl, by rw [e]; rfl, .inl ⟨by rw [e]; rfl, by rw [e]; rfl, by rw [e]; rfl, by rw [e]; rfl, ?_⟩⟩
      exact (hqq.2 0).2 ⟨0, by simp [flatJ, Atom.node], (flat_nbr 0 0).2 (by decide)⟩
    | tail t u _ hst ih => exact flat_step t u ih.1 ih.2 hst
  rw [hq] at hst
  obtain ⟨-, -, -, h⟩ := hst
  rcases h with ⟨a, b, c, d, f⟩ | ⟨a, ⟨b, c, d, f⟩ | ⟨f, c, ⟨b, d, g⟩ | ⟨d, ⟨b, g⟩ | b⟩⟩⟩
  · simp at f
  · simp at f
  · simp at g
  · simp at g
  · exact ⟨a, b⟩

/-- Without the call, every run finds the inputs `1` and `1` with ILDJ `-1`. -/
theorem C71_flat_right (res : Option (List (F × F))) :
    Inverse.InverseRun cexFlat [some (Real.exp 1), some 1] res ↔
      res = some [(some 1, some (-1)), (some 1, some 0)] := by
  have hfin : ∀ s, Completes flatJ [none, none] [some (some (Real.exp 1), some 0), some (some 1, some 0)] s →
      (cexFlat.invars.map (Propagate.read iOps s.env)).mapM id = some [(some 1, some (-1)), (some 1, some 0)] := by
    intro s hs
    obtain ⟨a, b⟩ := flat_final s hs
    simp [cexFlat, Propagate.read, a, b]
  constructor
  · rintro ⟨s0, s, h0, hs, hq, rfl⟩
    rw [cexFlat_jaxpr] at h0 hs
    exact hfin s ⟨s0, h0, hs, hq⟩
  · rintro rfl
    obtain ⟨s, hs⟩ := completes_exists flatJ flat_sized [none, none]
      [some (some (Real.exp 1), some 0), some (some 1, some 0)]
    have := hfin s hs
    obtain ⟨s0, h0, hst, hq⟩ := hs
    refine ⟨s0, s, ?_, ?_, hq, this.symm⟩
    · rw [cexFlat_jaxpr]; exact h0
    · rw [cexFlat_jaxpr]; exact hst

/-- Both programs compute `(exp 1, 1)` from `(1, 1)`, with every operation on the branch of its registered inverse;
the ILDJ at `(exp 1, 1)` is `-1`, from the Jacobian `[[exp 1, 0], [2, -1]]`; with the call, every order of propagation
returns another number. -/
theorem C71_ildj_changes : cex.Executes [some 1, some 1] [some (Real.exp 1), some 1] ∧ cexFlat.Executes cexVal ∧
    cexFlat.invars.map (aval cexVal) = [some 1, some 1] ∧
    cexFlat.outvars.map (aval cexVal) = [some (Real.exp 1), some 1] ∧
    -Real.log |Matrix.det !![Real.exp 1, 0; 2, -1]| = -1 ∧
    (∀ r, Inverse.InverseRun cexFlat [some (Real.exp 1), some 1] (some r) → reduceIldj r = some (-1)) ∧
    ∀ σ : Order, σ.Valid → (∃ r, InverseRun σ cex [some (Real.exp 1), some 1] (some r)) ∧
      ∀ r, InverseRun σ cex [some (Real.exp 1), some 1] (some r) → reduceIldj r ≠ some (-1) := by
  refine ⟨⟨cexVal, ?_, ?_, ?_⟩, ?_, ?_, ?_, ?_, ?_, ?_⟩
  · simp [cex, cexVal, aval]
  · simp [cex, cexVal, aval]
  · simp only [cex, cexBody, execAll]
    refine ⟨?_, ?_, ?_, ⟨fun u => if u = 2 then 2 else if u = 3 then -1 else 1, ?_, ?_, ?_⟩, ?_⟩
    · simp [cexVal, aval, Op.eval, Un.f]
    · simp [cexVal, aval, Op.ok, Un.ok]
    · simp
    · simp [cexVal, aval]
    · simp [cexVal, aval]
    · simp [aval, Op.eval, Op.ok, Bin.f, Un.f, Un.ok, Bin.ok, bind2]
    · simp [cexVal, aval, Op.eval, Op.ok, Bin.f, Bin.ok, bind2]
      norm_num
  · intro q hq
    simp only [cexFlat, List.mem_cons, List.not_mem_nil, or_false] at hq
    rcases hq with rfl | rfl | rfl | rfl <;> simp [cexVal, aval, Op.eval, Un.f, Bin.f, bind2]
    norm_num
  · simp [cexFlat, cexVal, aval]
  · simp [cexFlat, cexVal, aval]
  · simp [Matrix.det_fin_two]
  · intro r hr
    have := (C71_flat_right _).1 hr
    simp only [Option.some.injEq] at this
    subst this
    simp [reduceIldj, addF]
  · intro σ hσ
    refine ⟨⟨_, (C71_ildj_wrong σ hσ _).2 rfl⟩, ?_⟩
    intro r hr
    have := (C71_ildj_wrong σ hσ _).1 hr
    simp only [Option.some.injEq] at this
    subst this
    have h2 := Real.log_lt_sub_one_of_pos (x := 2) (by norm_num) (by norm_num)
    simp only [reduceIldj, addF, List.foldl_cons, List.foldl_nil]
    intro h
    simp at h
    linarith

end Verif.Inverse.Nested
