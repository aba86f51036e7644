import Verif.LogProb.Props

/-! C29: the theorems about arbitrary programs. -/
namespace Verif.LogProb

open Verif.Propagate Verif.Inverse

/-- Every random variable equation mentions a variable besides the key (its value is one). -/
def HasValue (P : LProg) : Prop :=
  ∀ q ∈ P.eqns, ∀ nc d, q.1 = .rv nc d → ∃ x, some x ∈ q.2.2.map Atom.node

/-- The reduction of a complete run returns a value if and only if the parameters and the value of every random variable are
known. -/
theorem finish_returns_iff (P : LProg) (hs : Sized P.jaxpr) (hv : HasValue P) (ins outs : List ICell)
    (s0 s : St ICell (Option F))
    (h0 : Init iOps P.jaxpr [] ins outs s0)
    (h : Steps iOps P.jaxpr s0 s) (hq : s.queue = []) :
    (∃ t, lpFinish P s = some t) ↔
      ∀ q ∈ P.eqns, ∀ nc d, q.1 = .rv nc d →
        ∀ x, some x ∈ ((q.2.1.drop nc).drop 1 ++ q.2.2).map Atom.node → s.env x ≠ none := by
  have hinv := (LInv.init P _ _ _ s0 h0).steps P hs h
  constructor
  · rintro ⟨t, ht⟩ q hqm nc d hqd x hx
    obtain ⟨e, he⟩ := List.mem_iff_getElem?.1 hqm
    obtain ⟨lp, il, -, h2⟩ := finish_some P s hinv.det t ht
    refine hinv.known e q nc d he hqd ?_ x hx
    rw [(h2 e q nc d he hqd).1]; simp
  · intro hall
    have key : ∀ (l : List ((LOp × List (Atom F) × List (Atom F)) × Nat)) (c : F), (∀ p ∈ l, P.eqns[p.2]? = some p.1) →
        ∃ t, l.foldl (fun r p => lpReduce s.env p.1 r (s.states p.2)) (some c) = some t := by
      intro l
      induction l with
      | nil => intro c _; exact ⟨c, rfl⟩
      | cons p l ih =>
        intro c hl
        have hp := hl p (by simp)
        have hl' : ∀ p ∈ l, P.eqns[p.2]? = some p.1 := fun q hq => hl q (by simp [hq])
        obtain ⟨⟨op, ins, outs⟩, e⟩ := p
        simp only [List.foldl_cons]
        cases op with
        | det op =>
          have hd := hinv.det e _ op hp rfl
          rw [show lpReduce s.env (LOp.det op, ins, outs) (some c) (s.states e) = some c by simp only [lpReduce, hd]]
          exact ih c hl'
        | rv nc d =>
          have hm := List.mem_of_getElem? hp
          obtain ⟨x, hx⟩ := hv _ hm nc d rfl
          have h1 := hinv.complete e _ nc d hp rfl ⟨x, by simp only [needs, List.map_append, List.mem_append]; exact .inr hx⟩
            (hall _ hm nc d rfl)
          rw [hq] at h1
          rcases hst : (s.states e).join with _ | v
          · rw [hst] at h1; simp at h1
          · rw [show lpReduce s.env (LOp.rv nc d, ins, outs) (some c) (s.states e) =
              some (addF (addF c v) (ildjSum (outs.map (Propagate.read iOps s.env)))) by simp only [lpReduce, hst]]
            exact ih _ hl'
    refine key _ _ ?_
    rintro ⟨q, e⟩ hp
    exact List.mem_zipIdx_iff_getElem?.1 hp

/-- C29.  For every program and every complete run of the propagation: `log_prob` returns a value if and only if the
parameters and the value of every random variable have been recovered; otherwise it raises.  In particular it never
returns the sum over only some of the random variables. -/
theorem log_prob_returns_iff (P : LProg) (hs : Sized P.jaxpr) (hv : HasValue P) (args ys : List F)
    (s0 s : St ICell (Option F))
    (h0 : Init iOps P.jaxpr [] (none :: args.map (fun a => some (a, some 0))) (ys.map (fun y => some (y, some 0))) s0)
    (h : Steps iOps P.jaxpr s0 s) (hq : s.queue = []) :
    (∃ t, lpFinish P s = some t) ↔
      ∀ q ∈ P.eqns, ∀ nc d, q.1 = .rv nc d →
        ∀ x, some x ∈ ((q.2.1.drop nc).drop 1 ++ q.2.2).map Atom.node → s.env x ≠ none :=
  finish_returns_iff P hs hv _ _ s0 s h0 h hq

/-- `val` is an execution of the deterministic part of the program; the values of the random variables are
arbitrary. -/
def LProg.Executes (P : LProg) (val : Nat → ℝ) : Prop :=
  ∀ q ∈ P.eqns, ∀ op, q.1 = .det op → op.eval (q.2.1.map (aval val)) = q.2.2.map (aval val)

theorem read_tells (val : Nat → ℝ) (env : Env ICell) (henv : ∀ x, Tells (some (val x)) (env x)) (as : List (Atom F)) :
    List.Forall₂ Tells (as.map (aval val)) (as.map (Propagate.read iOps env)) := by
  induction as with
  | nil => exact .nil
  | cons a as ih =>
    refine .cons ?_ ih
    cases a with
    | lit v => exact tells_some _ _
    | var x => exact henv x
    | drop x => exact henv x

theorem lp_true (P : LProg) (val : Nat → ℝ) (hex : P.Executes val)
    (hok : ∀ q ∈ P.eqns, ∀ op, q.1 = .det op → op.ok (q.2.1.map (aval val)))
    (hvar : ∀ q ∈ P.eqns, ∀ a ∈ q.2.2, ∀ v, a ≠ .lit v)
    (s0 s : St ICell (Option F))
    (h0 : Init iOps P.jaxpr [] (none :: (P.invars.drop 1).map (fun a => some (aval val a, some 0)))
      (P.outvars.map (fun a => some (aval val a, some 0))) s0)
    (hs : Steps iOps P.jaxpr s0 s) (x : Nat) : Tells (some (val x)) (s.env x) := by
  refine propagate_sound iOps P.jaxpr (fun x => Tells (some (val x))) Tells ?_ [] _ _ ?_ ?_ ?_ s0 s h0 hs x
  · refine ⟨?_, fun x => tells_none _, fun v => tells_some _ _, ?_⟩
    · intro x a b ha hb
      simp only [iOps]
      split
      · exact hb
      · exact ha
    · intro q' hq' i o hi ho
      simp only [LProg.jaxpr, List.mem_map] at hq'
      obtain ⟨q, hq, rfl⟩ := hq'
      have conv : ∀ (R : Atom F → ICell → Prop), (∀ a c, R a c → Tells (aval val a) c) →
          ∀ (as : List (Atom F)) (cs : List ICell), List.Forall₂ R as cs →
          List.Forall₂ Tells (as.map (aval val)) cs := by
        intro R hR as cs hh
        induction hh with
        | nil => exact .nil
        | @cons a c as cs h1 h2 ih => exact .cons (hR _ _ h1) ih
      have hnone : none ∉ q.2.2.map (aval val) := by
        intro hc
        obtain ⟨a, ha, hav⟩ := List.mem_map.1 hc
        cases a with
        | lit v => exact hvar q hq _ ha v rfl
        | var x => simp [aval] at hav
        | drop x => simp [aval] at hav
      have hi' := conv _ (by intro a c hac; cases a <;> exact hac) _ _ hi
      have ho' := conv _ (by intro a c hac; cases a <;> exact hac) _ _ ho
      have fin : ∀ (as : List (Atom F)) (cs : List ICell), List.Forall₂ Tells (as.map (aval val)) cs →
          ∀ (k x : Nat) (c : ICell), as[k]? = some (Atom.var x) → cs[k]? = some c → Tells (some (val x)) c := by
        intro as
        induction as with
        | nil => intro cs _ k x c h1; simp at h1
        | cons a as ih =>
          intro cs hh k x c h1 h2
          cases hh with | cons h3 h4 =>
          cases k with
          | zero => simp at h1 h2; subst h1 h2; exact h3
          | succ k => exact ih _ h4 k x c (by simpa using h1) (by simpa using h2)
      rcases hop : q.1 with op | ⟨nc, d⟩
      · obtain ⟨r1, r2⟩ := op.rule_tells _ _ (hok q hq op hop) (hex q hq op hop) hnone i o hi' ho'
        exact ⟨fin _ _ r1, fin _ _ r2⟩
      · have hr : (rvRule nc d i o).1 = i ∧ (rvRule nc d i o).2.1 = o := by
          simp only [rvRule]; split <;> exact ⟨rfl, rfl⟩
        simp only [LOp.rule, hr.1, hr.2]
        exact ⟨fin _ _ hi', fin _ _ ho'⟩
  · intro k x c h1; simp [LProg.jaxpr] at h1
  · intro k x c h1 h2
    have h1' : P.invars[k]? = some (Atom.var x) := h1
    cases k with
    | zero => simp at h2; subst h2; exact tells_none _
    | succ k =>
      simp only [List.getElem?_cons_succ, List.getElem?_map, List.getElem?_drop] at h2
      rw [show 1 + k = k + 1 by omega, h1'] at h2
      simp [aval] at h2
      subst h2; exact tells_some _ _
  · intro k x c h1 h2
    have h1' : P.outvars[k]? = some (Atom.var x) := h1
    rw [List.getElem?_map, h1'] at h2
    simp [aval] at h2
    subst h2; exact tells_some _ _

/-- C29.  For every program without nested calls, if `val` is an execution with the operations on the branches of
the registered inverses, every run of `log_prob` on its outputs and arguments that returns, returns the sum over
the random variables — each exactly once — of its log-density at the parameters and value of the execution, plus
the ILDJs propagated to its value. -/
theorem log_prob_sum (P : LProg) (hs : Sized P.jaxpr) (val : Nat → ℝ) (hex : P.Executes val)
    (hok : ∀ q ∈ P.eqns, ∀ op, q.1 = .det op → op.ok (q.2.1.map (aval val)))
    (hvar : ∀ q ∈ P.eqns, ∀ a ∈ q.2.2, ∀ v, a ≠ .lit v) (t : F)
    (s0 s : St ICell (Option F))
    (h0 : Init iOps P.jaxpr [] (none :: (P.invars.drop 1).map (fun a => some (aval val a, some 0)))
      (P.outvars.map (fun a => some (aval val a, some 0))) s0)
    (h : Steps iOps P.jaxpr s0 s) (ht : lpFinish P s = some t) :
    t = sumF (P.eqns.filterMap (fun q => match q.1 with
      | .rv nc d => some (addF (d (((q.2.1.drop nc).drop 1).map (aval val)) (q.2.2.map (aval val)))
          (ildjSum (q.2.2.map (Propagate.read iOps s.env))))
      | .det _ => none)) := by
  have hinv := (LInv.init P _ _ _ s0 h0).steps P hs h
  -- the recorded log-densities are those of the execution
  have hstates : ∀ (e : Nat) q nc d v, P.eqns[e]? = some q → q.1 = .rv nc d → s.states e = some (some v) →
      v = d (((q.2.1.drop nc).drop 1).map (aval val)) (q.2.2.map (aval val)) := by
    clear ht hinv
    induction h with
    | refl =>
      intro e q nc d v _ _ hst
      rw [h0.2.2] at hst; simp at hst
    | tail s u hss hst ih =>
      have htrue := lp_true P val hex hok hvar s0 s h0 hss
      cases hst with
      | mk e r q q' hq he hp =>
        intro e' q nc d v he' hqd hv
        by_cases hee : e' = e
        · subst hee
          rw [lp_eqn, he'] at he
          simp only [Option.map_some, Option.some.injEq] at he
          subst he
          simp only [if_true, exec, hqd, LOp.rule, Option.some.injEq] at hv
          by_cases hall : ∀ x, some x ∈ (needs nc q).map Atom.node → s.env x ≠ none
          · obtain ⟨ps, vs, h1, h2, h3⟩ := rvRule_some s.env nc d q hall
            rw [h3] at hv
            simp only [Option.some.injEq] at hv
            rw [← hv, forall2_some _ _ (read_tells val s.env htrue _) ps h1, forall2_some _ _ (read_tells val s.env htrue _) vs h2]
          · rw [rvRule_none s.env nc d q hall] at hv; simp at hv
        · simp only [if_neg hee] at hv
          exact ih e' q nc d v he' hqd hv
  obtain ⟨lp, il, h1, h2⟩ := finish_some P s hinv.det t ht
  rw [h1]
  congr 1
  have hz : P.eqns = P.eqns.zipIdx.map (·.1) := by simp
  conv_rhs => rw [hz]
  rw [List.filterMap_map]
  apply List.filterMap_congr
  rintro ⟨q, e⟩ hp
  have he : P.eqns[e]? = some q := List.mem_zipIdx_iff_getElem?.1 hp
  simp only [term, Function.comp]
  rcases hop : q.1 with op | ⟨nc, d⟩
  · rfl
  · obtain ⟨h3, h4⟩ := h2 e q nc d he hop
    simp only
    rw [h4, hstates e q nc d _ he hop h3]

end Verif.LogProb
