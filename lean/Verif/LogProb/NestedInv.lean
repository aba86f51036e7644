import Verif.LogProb.NestedModel
import Verif.LogProb.Chain

/-! What holds along every run of the propagation for programs with nested calls. -/
namespace Verif.LogProb.Nested

open Verif.Propagate Verif.Inverse

variable {ι : Type}

theorem top_write (env : Env (BCell ι)) (as : List (Atom F)) (cs : List (BCell ι)) (x : Nat) (h : env x ≠ none) :
    (writeAll (bOps ι) env as cs).1 x ≠ none := by
  induction as generalizing env cs with
  | nil => cases cs <;> exact h
  | cons a as ih =>
    obtain _ | ⟨c, cs⟩ := cs
    · exact h
    · simp only [writeAll]
      apply ih
      cases a with
      | lit v => exact h
      | drop y => exact h
      | var y =>
        by_cases hxy : x = y
        · subst hxy
          simp only [write, bOps, if_true]
          split
          · rename_i hc; intro hn; rw [hn] at hc; simp at hc
          · exact h
        · simpa [write, hxy] using h

theorem top_ex {S : Type} (env : Env (BCell ι)) (q : Eqn (BCell ι) F S) (x : Nat) (h : env x ≠ none) :
    (exec (bOps ι) env q).1 x ≠ none :=
  top_write _ _ _ _ (top_write _ _ _ _ h)

theorem top_progressed {S : Type} {J : Jaxpr (BCell ι) F S} (hs : Sized J) {q : Eqn (BCell ι) F S} (hq : q ∈ J.eqns)
    (env : Env (BCell ι)) (x : Nat) (h0 : env x = none) (h : (exec (bOps ι) env q).1 x ≠ none) :
    x ∈ progressed (bOps ι) (q.ins ++ q.outs)
      (q.ins.map (Propagate.read (bOps ι) env) ++ q.outs.map (Propagate.read (bOps ι) env))
        ((exec (bOps ι) env q).2.1 ++ (exec (bOps ι) env q).2.2.1) := by
  rw [mem_progressed]
  have hlt : (bOps ι).lt (env x) ((exec (bOps ι) env q).1 x) = true := by
    show (Option.isNone (env x) && Option.isSome ((exec (bOps ι) env q).1 x)) = true
    rw [h0, Option.isSome_iff_ne_none.2 h]; rfl
  have hne : (exec (bOps ι) env q).1 x ≠ env x := by rw [h0]; exact h
  obtain ⟨-, -, hl, -⟩ := hs.exec (bOps ι) hq env
  rcases writeAll_last (bOps ι) (writeAll (bOps ι) env q.ins
      (q.rule (q.ins.map (Propagate.read (bOps ι) env)) (q.outs.map (Propagate.read (bOps ι) env))).1).1 q.outs
      (q.rule (q.ins.map (Propagate.read (bOps ι) env)) (q.outs.map (Propagate.read (bOps ι) env))).2.1 x with h1 | ⟨i, h1, h2⟩
  · rcases writeAll_last (bOps ι) env q.ins
      (q.rule (q.ins.map (Propagate.read (bOps ι) env)) (q.outs.map (Propagate.read (bOps ι) env))).1 x with h3 | ⟨i, h3, h4⟩
    · exfalso; apply hne; simp only [exec]; rw [h1, h3]
    · have hi : i < q.ins.length := (List.getElem?_eq_some_iff.1 h3).1
      refine ⟨i, .var x, env x, (exec (bOps ι) env q).1 x, ?_, ?_, ?_, hlt, rfl⟩
      · rw [List.getElem?_append_left hi]; exact h3
      · rw [← List.map_append, List.getElem?_map, List.getElem?_append_left hi, h3]; rfl
      · rw [List.getElem?_append_left (by omega)]
        simp only [exec]; rw [h1]; exact h4
  · refine ⟨i + q.ins.length, .var x, env x, (exec (bOps ι) env q).1 x, ?_, ?_, ?_, hlt, rfl⟩
    · rw [List.getElem?_append_right (by omega)]; simpa using h1
    · rw [← List.map_append, List.getElem?_map, List.getElem?_append_right (by omega)]; simp [h1, Propagate.read]
    · rw [List.getElem?_append_right (by omega), hl]; simpa [exec] using h2

theorem initEnv_top {S : Type} (J : Jaxpr (BCell ι) F S) (consts ins outs : List (BCell ι)) (x : Nat)
    (h : initEnv (bOps ι) J consts ins outs x ≠ none) :
    some x ∈ (J.outvars ++ J.invars ++ J.constvars).map Atom.node := by
  by_contra hn
  simp only [List.map_append, List.mem_append, not_or] at hn
  apply h
  have hunk : ∀ (as : List (Atom F)) (env env0 : Env (BCell ι)), env x = none →
      (writeAll (bOps ι) env as (as.map (fun a => match a.node with
        | some x => (bOps ι).unknown x | none => Propagate.read (bOps ι) env0 a))).1 x = none := by
    intro as
    induction as with
    | nil => intro env env0 h1; exact h1
    | cons a as ih =>
      intro env env0 h1
      simp only [List.map_cons, writeAll]
      refine ih _ env0 ?_
      cases a with
      | lit v => exact h1
      | drop z => exact h1
      | var z =>
        by_cases hyz : x = z
        · subst hyz; simp [write, bOps, Atom.node, h1]
        · simpa [write, hyz] using h1
  unfold initEnv
  refine hunk _ _ _ ?_
  rw [writeAll_frame _ _ _ _ _ hn.1.1, writeAll_frame _ _ _ _ _ hn.1.2, writeAll_frame _ _ _ _ _ hn.2]
  rfl

/-- The equation of the propagation problem. -/
abbrev NEqn.eqn (q : NEqn ι) : Eqn (BCell ι) F (LState ι) := ⟨q.ins, q.outs, q.op.rule⟩

/-- The variables of an equation. -/
def NEqn.vars (q : NEqn ι) : List (Option Nat) := (q.ins ++ q.outs).map Atom.node

/-- The equation mentions an input or an output of the program. -/
def Adjacent (P : NProg ι) (q : NEqn ι) : Prop :=
  ∃ x, some x ∈ (P.outvars ++ P.invars).map Atom.node ∧ some x ∈ q.vars

theorem eqn_at (P : NProg ι) (e : Nat) : P.jaxpr.eqns[e]? = (P.eqns[e]?).map NEqn.eqn := by
  simp [NProg.jaxpr]

/-- `env` occurs in a run of `P` from the given cells. -/
def Seen (P : NProg ι) (i o : List (BCell ι)) (env : Env (BCell ι)) : Prop :=
  ∃ s0 s, Init (bOps ι) P.jaxpr [] i o s0 ∧ Steps (bOps ι) P.jaxpr s0 s ∧ s.env = env

/-- The last visit of equation `e`, if any. -/
structure Visit (P : NProg ι) (i o : List (BCell ι)) (s : St (BCell ι) (LState ι)) (e : Nat) (q : NEqn ι)
    (env : Env (BCell ι)) : Prop where
  seen : Seen P i o env
  state : s.states e = some (exec (bOps ι) env q.eqn).2.2.2
  before : ∀ x, (exec (bOps ι) env q.eqn).1 x ≠ none → s.env x ≠ none
  after : e ∈ s.queue ∨ ∀ x, some x ∈ q.vars → s.env x ≠ none → (exec (bOps ι) env q.eqn).1 x ≠ none

/-- An equation is either not visited yet, and then none of its variables is known and it is not next to an input or
output unless it is in the queue; or it was visited. -/
def VInv (P : NProg ι) (i o : List (BCell ι)) (s : St (BCell ι) (LState ι)) : Prop :=
  ∀ e q, P.eqns[e]? = some q →
    (s.states e = none ∧ (∀ x, some x ∈ q.vars → s.env x ≠ none → e ∈ s.queue) ∧ (Adjacent P q → e ∈ s.queue)) ∨
    ∃ env, Visit P i o s e q env

theorem VInv.init (P : NProg ι) (ins outs : List (BCell ι)) (s : St (BCell ι) (LState ι))
    (h : Init (bOps ι) P.jaxpr [] ins outs s) : VInv P ins outs s := by
  obtain ⟨henv, hq, hst⟩ := h
  intro e q he
  have hn : ∀ x, some x ∈ q.vars → Nbr P.jaxpr x e := fun x hx => ⟨q.eqn, by rw [eqn_at, he]; rfl, hx⟩
  refine .inl ⟨hst e, ?_, ?_⟩
  · intro x hx hne
    rw [hq.2]
    rw [henv] at hne
    exact ⟨x, initEnv_top _ _ _ _ _ hne, hn x hx⟩
  · rintro ⟨x, hx, hx'⟩
    rw [hq.2]
    refine ⟨x, ?_, hn x hx'⟩
    rw [List.map_append, List.mem_append]; exact .inl hx

theorem VInv.step (P : NProg ι) (hs : Sized P.jaxpr) {i o : List (BCell ι)} {s t : St (BCell ι) (LState ι)}
    (h : VInv P i o s) (hseen : Seen P i o s.env) (hst : Step (bOps ι) P.jaxpr s t) : VInv P i o t := by
  cases hst with
  | mk e rest q q' hq he hp =>
    have hqm := List.mem_of_getElem? he
    rw [eqn_at] at he
    rcases hpe : P.eqns[e]? with _ | r
    · rw [hpe] at he; simp at he
    rw [hpe] at he
    simp only [Option.map_some, Option.some.injEq] at he
    subst he
    intro e' q he'
    by_cases hee : e' = e
    · subst hee
      rw [hpe] at he'
      obtain rfl := Option.some.inj he'
      exact .inr ⟨s.env, hseen, by simp, fun x hx => hx, .inr fun x _ hx => hx⟩
    · have hnew : ∀ x, some x ∈ q.vars → s.env x = none → (exec (bOps ι) s.env r.eqn).1 x ≠ none → e' ∈ q' := by
        intro x hx hn hne
        refine (hp.mem e').2 (.inr ⟨hee, x, top_progressed hs hqm _ _ hn hne, ?_⟩)
        exact ⟨q.eqn, by rw [eqn_at, he']; rfl, hx⟩
      have hold : e' ∈ s.queue → e' ∈ q' := by
        intro h1
        rw [hq] at h1
        rcases List.mem_cons.1 h1 with h1 | h1
        · exact absurd h1 hee
        · exact (hp.mem e').2 (.inl h1)
      rcases h e' q he' with ⟨h1, h2, h3⟩ | ⟨env, h0, h1, h2, h3⟩
      · refine .inl ⟨by simpa [hee] using h1, ?_, fun ha => hold (h3 ha)⟩
        intro x hx hne
        by_cases hn : s.env x = none
        · exact hnew x hx hn hne
        · exact hold (h2 x hx hn)
      · refine .inr ⟨env, h0, by simpa [hee] using h1, fun x hx => top_ex _ _ _ (h2 x hx), ?_⟩
        by_cases hin : e' ∈ q'
        · exact .inl hin
        · refine .inr fun x hx hne => ?_
          rcases h3 with h3 | h3
          · exact absurd (hold h3) hin
          · by_cases hn : s.env x = none
            · exact absurd (hnew x hx hn hne) hin
            · exact h3 x hx hn

theorem VInv.run (P : NProg ι) (hs : Sized P.jaxpr) {i o : List (BCell ι)} {s : St (BCell ι) (LState ι)}
    (h : Run P i o s) : VInv P i o s := by
  obtain ⟨s0, h0, h1, -⟩ := h
  induction h1 with
  | refl => exact .init P _ _ _ h0
  | tail t u ht hst ih => exact ih.step P hs ⟨_, t, h0, ht, rfl⟩ hst

/-- At the end of a run an equation next to an input or output, or with a known variable, has been visited. -/
theorem visited (P : NProg ι) (hs : Sized P.jaxpr) {i o : List (BCell ι)} {s : St (BCell ι) (LState ι)}
    (h : Run P i o s) (e : Nat) (q : NEqn ι) (he : P.eqns[e]? = some q)
    (ha : Adjacent P q ∨ ∃ x, some x ∈ q.vars ∧ s.env x ≠ none) : ∃ env, Visit P i o s e q env := by
  have hq := h.choose_spec.2.2
  rcases VInv.run P hs h e q he with ⟨-, h2, h3⟩ | hv
  · rw [hq] at h2 h3
    rcases ha with ha | ⟨x, hx, hne⟩
    · exact absurd (h3 ha) (by simp)
    · exact absurd (h2 x hx hne) (by simp)
  · exact hv

/-- Equations are visited or have no state. -/
theorem unvisited (P : NProg ι) (hs : Sized P.jaxpr) {i o : List (BCell ι)} {s : St (BCell ι) (LState ι)}
    (h : Run P i o s) (e : Nat) (q : NEqn ι) (he : P.eqns[e]? = some q) :
    s.states e = none ∨ ∃ env, Visit P i o s e q env := by
  rcases VInv.run P hs h e q he with ⟨h1, -, -⟩ | hv
  · exact .inl h1
  · exact .inr hv

theorem tops_read (env : Env (BCell ι)) (as : List (Atom F)) :
    (tops (as.map (Propagate.read (bOps ι) env))).isSome = true ↔ ∀ x, some x ∈ as.map Atom.node → env x ≠ none := by
  induction as with
  | nil => simp [tops]
  | cons a as ih =>
    cases a with
    | lit v => simp [tops, Propagate.read, bOps, Atom.node] at ih ⊢; exact ih
    | var y => rcases hy : env y with _ | c <;> simp [tops, Propagate.read, hy, Atom.node] at ih ⊢; exact ih
    | drop y => rcases hy : env y with _ | c <;> simp [tops, Propagate.read, hy, Atom.node] at ih ⊢; exact ih

/-- What a random variable equation needs: its parameters and its value. -/
def NEqn.needs (q : NEqn ι) (nc : Nat) : List (Atom F) := (q.ins.drop nc).drop 1 ++ q.outs

theorem rvRule_id (nc : Nat) (d) (i o : List (BCell ι)) : (rvRule nc d i o).1 = i ∧ (rvRule nc d i o).2.1 = o := by
  simp only [rvRule]; split <;> exact ⟨rfl, rfl⟩

theorem writeAll_same (env : Env (BCell ι)) (as : List (Atom F)) :
    (writeAll (bOps ι) env as (as.map (Propagate.read (bOps ι) env))).1 = env := by
  induction as with
  | nil => rfl
  | cons a as ih =>
    simp only [List.map_cons, writeAll]
    have : (write (bOps ι) env a (Propagate.read (bOps ι) env a)).1 = env := by
      cases a with
      | lit v => rfl
      | drop x => rfl
      | var x =>
        funext y
        simp only [write, Propagate.read, bOps]
        by_cases h : y = x
        · subst h; simp
        · simp [h]
    rw [this]; exact ih

theorem rv_exec (env : Env (BCell ι)) (q : NEqn ι) (nc d) (hq : q.op = .rv nc d) :
    (exec (bOps ι) env q.eqn).1 = env := by
  obtain ⟨op, ins, outs⟩ := q
  subst hq
  simp only [exec, NOp.rule, (rvRule_id nc d _ _).1, (rvRule_id nc d _ _).2]
  rw [writeAll_same, writeAll_same]

theorem rvRule_state (env : Env (BCell ι)) (nc : Nat) (d) (q : NEqn ι) :
    (rvRule nc d (q.ins.map (Propagate.read (bOps ι) env)) (q.outs.map (Propagate.read (bOps ι) env))).2.2 ≠ none ↔
      ∀ x, some x ∈ (q.needs nc).map Atom.node → env x ≠ none := by
  have h1 := tops_read env ((q.ins.drop nc).drop 1)
  have h2 := tops_read env q.outs
  simp only [NEqn.needs, List.map_append, List.mem_append, List.map_drop] at h1 ⊢
  simp only [rvRule]
  rcases hp : tops (((q.ins.map (Propagate.read (bOps ι) env)).drop nc).drop 1) with _ | ps
  · rw [hp] at h1
    simp only [ne_eq, not_true_eq_false, false_iff]
    intro hall
    have := h1.2 (fun x hx => hall x (.inl hx))
    simp at this
  · rcases hv : tops (q.outs.map (Propagate.read (bOps ι) env)) with _ | vs
    · rw [hv] at h2
      simp only [ne_eq, not_true_eq_false, false_iff]
      intro hall
      have := h2.2 (fun x hx => hall x (.inr hx))
      simp at this
    · rw [hp] at h1; rw [hv] at h2
      simp only [ne_eq, reduceCtorEq, not_false_eq_true, true_iff]
      rintro x (hx | hx)
      · exact h1.1 rfl x hx
      · exact h2.1 rfl x hx

end Verif.LogProb.Nested
