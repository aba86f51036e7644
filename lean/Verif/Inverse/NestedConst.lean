import Verif.Inverse.NestedIldj

/-!
# C71: a constant that is computed inside of a call makes `inverse` raise

Outside of calls, operations on constants are executed while the function is staged (`trace_util.stage` with
`dynamic=False`, trace_util.py:57-80), so their results are constants of the jaxpr.  The jaxpr of a jitted function
contains them as equations without variables among their operands, and such an equation is next to no input, output or
constant, so it is not put in the queue (propagate.py:285-290).
-/
namespace Verif.Inverse.Nested

open Verif.Propagate

/-- `lambda x: x + -2.` as staged by `jit`. -/
noncomputable def cstBody : List CEqn := [.prim (.un .neg) [.lit (some 2)] [.var 2], .prim (.bin .add) [.var 0, .var 2] [.var 3]]

/-- `jit(lambda x: x + -2.)`. -/
noncomputable def cst : CProg := ⟨[.var 0], [.var 1], [.call 0 [.var 0] [.var 3] cstBody [.var 0] [.var 1]]⟩

/-- `lambda x: x + -2.` as staged by `inverse`. -/
noncomputable def cstFlat : Prog := ⟨[.var 0], [.var 1], [(.bin .add, [.var 0, .lit (some (-2))], [.var 1])]⟩

/-- The propagation problem of the body. -/
noncomputable def cstInner : Jaxpr ICell F Bool := ⟨[], [.var 0], [.var 3],
  [⟨[.lit (some 2)], [.var 2], unRule .neg⟩, ⟨[.var 0, .var 2], [.var 3], binRule .add⟩]⟩

theorem cst_inner_nbr (x e : Nat) : Nbr cstInner x e ↔ (e = 0 ∧ x = 2) ∨ (e = 1 ∧ (x = 0 ∨ x = 2 ∨ x = 3)) := by
  obtain _ | _ | e := e <;> simp [Nbr, cstInner, Atom.node] <;> omega

/-- In the body, the constant is never computed, so the input is not found. -/
theorem cst_inner_run (o : ICell) (s : St ICell Bool) (h : Completes cstInner [none] [o] s) : s.env 0 = none := by
  obtain ⟨s0, ⟨h1, ⟨-, h2⟩, -⟩, hs, -⟩ := h
  have key : ∀ t, Steps iOps cstInner s0 t → t.env 0 = none ∧ t.env 2 = none ∧ ∀ e ∈ t.queue, e = 1 := by
    intro t ht
    induction ht with
    | refl =>
      refine ⟨?_, ?_, ?_⟩
      · rw [h1]; simp [initEnv, cstInner, writeAll, Propagate.write, iOps, Atom.node]
      · rw [h1]; simp [initEnv, cstInner, writeAll, Propagate.write, iOps, Atom.node]
      · intro e he
        obtain ⟨x, hx, hn⟩ := (h2 e).1 he
        rw [cst_inner_nbr] at hn
        simp [cstInner, Atom.node] at hx
        omega
    | tail t u _ hst ih =>
      obtain ⟨a, b, c⟩ := ih
      cases hst with
      | mk e rest q q' hqe he hp =>
        obtain rfl : e = 1 := c e (by rw [hqe]; exact List.mem_cons_self)
        simp only [cstInner, List.getElem?_cons_succ, List.getElem?_cons_zero, Option.some.injEq] at he
        subst he
        have hr : ∀ o : ICell, binRule .add [none, none] [o] = ([none, none], [o], false) := by
          intro o; cases o <;> rfl
        refine ⟨?_, ?_, ?_⟩
        · simp [exec, Propagate.read, a, b, hr, writeAll, Propagate.write, iOps]
        · simp [exec, Propagate.read, a, b, hr, writeAll, Propagate.write, iOps]
        · intro e he
          rcases (hp.mem e).1 he with h | ⟨hne, y, hy, hn⟩
          · exact c e (by rw [hqe]; exact List.mem_cons_of_mem _ h)
          · exfalso
            rw [cst_inner_nbr] at hn
            rcases hn with ⟨rfl, rfl⟩ | ⟨rfl, -⟩
            · generalize t.env 3 = o3 at hy
              simp [progressed, exec, Propagate.read, a, b, hr, writeAll, Propagate.write, iOps, Atom.node] at hy
            · exact hne rfl
  exact (key s hs).1

theorem cst_sized : Sized cstInner := by
  intro q hq i o hi ho
  simp only [cstInner, List.mem_cons, List.not_mem_nil, or_false] at hq
  rcases hq with rfl | rfl
  · exact op_sized (.un .neg) 1 1 ⟨rfl, rfl⟩ i o hi ho
  · exact op_sized (.bin .add) 2 1 ⟨rfl, rfl⟩ i o hi ho

theorem cst_jaxpr (σ : Order) : cst.jaxpr σ = ⟨[], [.var 0], [.var 1], [⟨[.var 0], [.var 1], σ 0 cstInner⟩]⟩ := by
  simp [cst, CProg.jaxpr, eqnsOf, cstBody, cstInner, Op.rule]

/-- What the call returns when its operand is unknown. -/
theorem cst_call (σ : Order) (hσ : σ.Valid) (o : ICell) : ∃ r, σ 0 cstInner [none] [o] = ([none], r, false) := by
  obtain ⟨s, hs, he⟩ := hσ 0 cstInner [none] [o] cst_sized rfl rfl
  refine ⟨cstInner.outvars.map (Propagate.read iOps s.env), he.trans ?_⟩
  rw [show cstInner.invars.map (Propagate.read iOps s.env) = [none] from by
    simp [cstInner, Propagate.read, cst_inner_run o s hs]]

theorem cst_final (σ : Order) (hσ : σ.Valid) (o : ICell) (s : St ICell Bool) (h : Completes (cst.jaxpr σ) [none] [o] s) :
    s.env 0 = none := by
  rw [cst_jaxpr] at h
  obtain ⟨s0, ⟨h1, -, -⟩, hs, -⟩ := h
  have key : ∀ t, Steps iOps ⟨[], [.var 0], [.var 1], [⟨[.var 0], [.var 1], σ 0 cstInner⟩]⟩ s0 t → t.env 0 = none := by
    intro t ht
    induction ht with
    | refl => rw [h1]; simp [initEnv, writeAll, Propagate.write, iOps, Atom.node]
    | tail t u _ hst ih =>
      cases hst with
      | mk e rest q q' hqe he hp =>
        rcases e with _ | e
        · simp only [List.getElem?_cons_zero, Option.some.injEq] at he
          subst he
          obtain ⟨r, hr⟩ := cst_call σ hσ (t.env 1)
          rcases r with _ | ⟨c, r⟩
          · simp [exec, Propagate.read, ih, hr, writeAll, Propagate.write, iOps]
          · simp [exec, Propagate.read, ih, hr, writeAll, Propagate.write, iOps]
        · simp at he
  exact key s hs

/-- **C71**: `jit(lambda x: x + -2.)` computes `x - 2`, like the same function without `jit`.  In every order of
propagation, `inverse` of the former raises for every output; `inverse` of the latter returns the input, with ILDJ 0. -/
theorem C71_constant_in_call_raises (y : ℝ) :
    cst.Executes [some (y + 2)] [some y] ∧
    (∀ σ : Order, σ.Valid → ∀ res, InverseRun σ cst [some y] res ↔ res = none) ∧
    cstFlat.Executes (fun u => if u = 0 then y + 2 else y) ∧
    ∀ res, Inverse.InverseRun cstFlat [some y] res ↔ res = some [(some (y + 2), some 0)] := by
  refine ⟨⟨fun u => if u = 0 then y + 2 else y, ?_, ?_, ?_⟩, ?_, ?_, ?_⟩
  · simp [cst, aval]
  · simp [cst, aval]
  · simp only [cst, cstBody, execAll]
    refine ⟨⟨fun u => if u = 0 then y + 2 else if u = 2 then -2 else y, ?_, ?_, ?_⟩, trivial⟩
    · simp [aval]
    · simp [aval]
    · simp [aval, Op.eval, Op.ok, Un.f, Un.ok, Bin.f, Bin.ok, bind2]
  · intro σ hσ res
    have hfin : ∀ s, Completes (cst.jaxpr σ) (cst.invars.map (fun _ => none)) ([some y].map (fun y => some (y, some 0))) s →
        (cst.invars.map (Propagate.read iOps s.env)).mapM id = none := by
      intro s hs
      have := cst_final σ hσ _ s hs
      simp [cst, Propagate.read, this]
    constructor
    · rintro ⟨s, hs, rfl⟩
      exact hfin s hs
    · rintro rfl
      have hsz : Sized (cst.jaxpr σ) := by
        rw [cst_jaxpr]
        intro q hq i o hi ho
        simp only [List.mem_singleton] at hq
        subst hq
        obtain ⟨s, hs, he⟩ := hσ 0 cstInner i o cst_sized hi ho
        show (σ 0 cstInner i o).1.length = 1 ∧ (σ 0 cstInner i o).2.1.length = 1
        rw [he]
        exact ⟨rfl, rfl⟩
      obtain ⟨s, hs⟩ := completes_exists (cst.jaxpr σ) hsz (cst.invars.map (fun _ => none)) ([some y].map (fun y => some (y, some 0)))
      exact ⟨s, hs, (hfin s hs).symm⟩
  · simp [cstFlat, Prog.Executes, aval, Op.eval, Bin.f, bind2]
  · intro res
    have hfin : ∀ s, Completes cstFlat.jaxpr [none] [some (some y, some 0)] s → s.env 0 = some (some (y + 2), some 0) := by
      rintro s ⟨s0, ⟨h1, ⟨-, h2⟩, -⟩, hs, hq⟩
      have key : ∀ t, Steps iOps cstFlat.jaxpr s0 t → t.env 1 = some (some y, some 0) ∧
          (0 ∈ t.queue ∧ t.env 0 = none ∨ t.env 0 = some (some (y + 2), some 0)) := by
        intro t ht
        induction ht with
        | refl =>
          refine ⟨?_, .inl ⟨(h2 0).2 ⟨0, by simp [cstFlat, Prog.jaxpr, Atom.node], _, rfl, by simp [Atom.node]⟩, ?_⟩⟩
          · rw [h1]; simp [initEnv, cstFlat, Prog.jaxpr, writeAll, Propagate.write, iOps, Atom.node]
          · rw [h1]; simp [initEnv, cstFlat, Prog.jaxpr, writeAll, Propagate.write, iOps, Atom.node]
        | tail t u _ hst ih =>
          obtain ⟨a, b⟩ := ih
          cases hst with
          | mk e rest q q' hqe he hp =>
            rcases e with _ | e
            · simp only [cstFlat, Prog.jaxpr, List.map_cons, List.map_nil, List.getElem?_cons_zero, Option.some.injEq] at he
              subst he
              have hl : iOps.new (some (-2)) = some ((some (-2) : F), some 0) := rfl
              rcases b with ⟨-, b⟩ | b
              · refine ⟨?_, .inr ?_⟩ <;>
                  simp [exec, Propagate.read, a, b, hl, Op.rule, binRule, writeAll, Propagate.write, iOps, bind2, Bin.gr, Bin.lr, addF]
              · refine ⟨?_, .inr ?_⟩ <;>
                  simp [exec, Propagate.read, a, b, hl, Op.rule, binRule, writeAll, Propagate.write, iOps, bind2]
            · simp [cstFlat, Prog.jaxpr] at he
      obtain ⟨-, b | b⟩ := key s hs
      · rw [hq] at b; simp at b
      · exact b
    constructor
    · rintro ⟨s0, s, h0, hs, hq, rfl⟩
      have := hfin s ⟨s0, h0, hs, hq⟩
      simp [cstFlat, Propagate.read, this]
    · rintro rfl
      have hsz : Sized cstFlat.jaxpr := by
        intro q hq i o hi ho
        simp only [cstFlat, Prog.jaxpr, List.map_cons, List.map_nil, List.mem_singleton] at hq
        subst hq
        exact op_sized (.bin .add) 2 1 ⟨rfl, rfl⟩ i o hi ho
      obtain ⟨s, s0, h0, hs, hq⟩ := completes_exists cstFlat.jaxpr hsz [none] [some (some y, some 0)]
      have := hfin s ⟨s0, h0, hs, hq⟩
      exact ⟨s0, s, h0, hs, hq, by simp [cstFlat, Propagate.read, this]⟩

end Verif.Inverse.Nested
