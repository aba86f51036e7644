import Verif.LogProb.Model
import Verif.Inverse.Ildj

/-! C29: `log_prob` counts every random variable exactly once, or raises. -/
namespace Verif.LogProb

open Verif.Propagate Verif.Inverse

/-! ### The sum -/

theorem addF_zero_right (a : F) : addF a (some 0) = a := by cases a <;> simp [addF]
theorem addF_zero_left (a : F) : addF (some 0) a = a := by cases a <;> simp [addF]
theorem addF_assoc (a b c : F) : addF (addF a b) c = addF a (addF b c) := by
  cases a <;> cases b <;> cases c <;> simp [addF, add_assoc]

/-- The sum of a list of floats, nan if one of them is. -/
noncomputable def sumF (l : List F) : F := l.foldr addF (some 0)

/-- The term of an equation in the sum: nothing for a deterministic operation; for a random variable the given
log-density and ILDJ. -/
noncomputable def term (lp il : Nat → F) (p : (LOp × List (Atom F) × List (Atom F)) × Nat) : Option F :=
  match p.1.1 with
  | .rv _ _ => some (addF (lp p.2) (il p.2))
  | .det _ => none

theorem finish_some (P : LProg) (s : St ICell (Option F))
    (hdet : ∀ (e : Nat) q op, P.eqns[e]? = some q → q.1 = .det op → (s.states e).join = none) (t : F)
    (h : lpFinish P s = some t) :
    ∃ lp il : Nat → F, t = sumF ((P.eqns.zipIdx).filterMap (term lp il)) ∧
      ∀ (e : Nat) q nc d, P.eqns[e]? = some q → q.1 = .rv nc d →
        s.states e = some (some (lp e)) ∧ il e = ildjSum (q.2.2.map (Propagate.read iOps s.env)) := by
  let lp : Nat → F := fun e => ((s.states e).join).getD none
  let il : Nat → F := fun e => match P.eqns[e]? with
    | some q => ildjSum (q.2.2.map (Propagate.read iOps s.env))
    | none => none
  have key : ∀ (l : List ((LOp × List (Atom F) × List (Atom F)) × Nat)) (c t : F),
      (∀ p ∈ l, P.eqns[p.2]? = some p.1) →
      l.foldl (fun r p => lpReduce s.env p.1 r (s.states p.2)) (some c) = some t →
      t = addF c (sumF (l.filterMap (term lp il))) ∧
        ∀ p ∈ l, ∀ nc d, p.1.1 = .rv nc d → s.states p.2 = some (some (lp p.2)) := by
    intro l
    induction l with
    | nil =>
      intro c t _ h
      simp only [List.foldl_nil, Option.some.injEq] at h
      subst h
      simp [sumF, addF_zero_right]
    | cons p l ih =>
      intro c t hl h
      have hnone : ∀ l : List ((LOp × List (Atom F) × List (Atom F)) × Nat),
          l.foldl (fun r p => lpReduce s.env p.1 r (s.states p.2)) none = none := by
        intro l
        induction l with
        | nil => rfl
        | cons p l ih => simpa [lpReduce] using ih
      have hp := hl p (by simp)
      have hl' : ∀ p ∈ l, P.eqns[p.2]? = some p.1 := fun q hq => hl q (by simp [hq])
      obtain ⟨⟨op, ins, outs⟩, e⟩ := p
      simp only [List.foldl_cons] at h
      cases op with
      | det op =>
        have hd := hdet e _ op hp rfl
        simp only [lpReduce, hd] at h
        obtain ⟨h1, h2⟩ := ih c t hl' h
        refine ⟨by simpa [List.filterMap_cons, term] using h1, ?_⟩
        intro q hq nc d hqd
        rcases List.mem_cons.1 hq with rfl | hq
        · simp at hqd
        · exact h2 q hq nc d hqd
      | rv nc d =>
        rcases hst : (s.states e).join with _ | v
        · rw [show lpReduce s.env (LOp.rv nc d, ins, outs) (some c) (s.states e) = none by simp only [lpReduce, hst]] at h
          rw [hnone] at h; simp at h
        · rw [show lpReduce s.env (LOp.rv nc d, ins, outs) (some c) (s.states e) =
            some (addF (addF c v) (ildjSum (outs.map (Propagate.read iOps s.env)))) by simp only [lpReduce, hst]] at h
          obtain ⟨h1, h2⟩ := ih _ t hl' h
          have hlp : lp e = v := by simp [lp, hst]
          have hile : il e = ildjSum (outs.map (Propagate.read iOps s.env)) := by
            simp only [il]; rw [show P.eqns[e]? = some (LOp.rv nc d, ins, outs) from hp]
          refine ⟨?_, ?_⟩
          · rw [h1]
            simp only [List.filterMap_cons, term, sumF, List.foldr_cons, addF_assoc, hlp, hile]
          · intro q hq nc' d' hqd
            rcases List.mem_cons.1 hq with rfl | hq
            · simp only
              rw [hlp]
              exact Option.join_eq_some_iff.1 hst
            · exact h2 q hq nc' d' hqd
  have hmem : ∀ p ∈ P.eqns.zipIdx, P.eqns[p.2]? = some p.1 := by
    rintro ⟨q, e⟩ hp
    exact List.mem_zipIdx_iff_getElem?.1 hp
  obtain ⟨h1, h2⟩ := key _ _ _ hmem h
  refine ⟨lp, il, by rw [addF_zero_left] at h1; exact h1, ?_⟩
  intro e q nc d he hq
  refine ⟨h2 (q, e) (List.mem_zipIdx_iff_getElem?.2 he) nc d hq, ?_⟩
  simp only [il, he]

theorem finish_none (P : LProg) (s : St ICell (Option F)) (e : Nat) (q) (nc : Nat) (d) (he : P.eqns[e]? = some q)
    (hq : q.1 = .rv nc d) (hst : (s.states e).join = none) : lpFinish P s = none := by
  have hnone : ∀ l : List ((LOp × List (Atom F) × List (Atom F)) × Nat),
      l.foldl (fun r p => lpReduce s.env p.1 r (s.states p.2)) none = none := by
    intro l
    induction l with
    | nil => rfl
    | cons p l ih => simpa [lpReduce] using ih
  have key : ∀ (l : List ((LOp × List (Atom F) × List (Atom F)) × Nat)) (c : Option F), (q, e) ∈ l →
      l.foldl (fun r p => lpReduce s.env p.1 r (s.states p.2)) c = none := by
    intro l
    induction l with
    | nil => intro c h; simp at h
    | cons p l ih =>
      intro c h
      rcases List.mem_cons.1 h with rfl | h
      · simp only [List.foldl_cons]
        have : lpReduce s.env q c (s.states e) = none := by
          cases c with
          | none => rfl
          | some c => simp only [lpReduce, hq, hst]
        rw [this]; exact hnone l
      · exact ih _ h
  exact key _ _ (List.mem_zipIdx_iff_getElem?.2 he)

/-! ### Runs -/

theorem lp_eqn (P : LProg) (e : Nat) : P.jaxpr.eqns[e]? = (P.eqns[e]?).map (fun q => ⟨q.2.1, q.2.2, q.1.rule⟩) := by
  simp [LProg.jaxpr]

/-- Cells never become unknown again. -/
theorem top_writeAll (env : Env ICell) (as : List (Atom F)) (cs : List ICell) (x : Nat) (h : env x ≠ none) :
    (writeAll iOps env as cs).1 x ≠ none := by
  induction as generalizing env cs with
  | nil => cases cs <;> exact h
  | cons a as ih =>
    obtain _ | ⟨c, cs⟩ := cs
    · exact h
    · simp only [writeAll]
      apply ih
      cases a with
      | lit v => exact h
      | drop y => exact h
      | var y =>
        by_cases hxy : x = y
        · subst hxy
          simp only [write, iOps, if_true]
          split
          · rename_i hc; intro hn; rw [hn] at hc; simp at hc
          · exact h
        · simpa [write, hxy] using h

theorem top_exec {S : Type} (env : Env ICell) (q : Eqn ICell F S) (x : Nat) (h : env x ≠ none) :
    (exec iOps env q).1 x ≠ none :=
  top_writeAll _ _ _ _ (top_writeAll _ _ _ _ h)

theorem top_steps {S : Type} {J : Jaxpr ICell F S} {s t : St ICell S} (h : Steps iOps J s t) (x : Nat) (hx : s.env x ≠ none) :
    t.env x ≠ none := by
  induction h with
  | refl => exact hx
  | tail t u _ hst ih => cases hst with | mk e rest q q' hq he hp => exact top_exec _ _ _ ih

/-- A variable whose cell becomes known is reported as progressed. -/
theorem known_progressed {S : Type} {J : Jaxpr ICell F S} (hs : Sized J) {q : Eqn ICell F S} (hq : q ∈ J.eqns)
    (env : Env ICell) (x : Nat) (h0 : env x = none) (h : (exec iOps env q).1 x ≠ none) :
    x ∈ progressed iOps (q.ins ++ q.outs) (q.ins.map (Propagate.read iOps env) ++ q.outs.map (Propagate.read iOps env))
        ((exec iOps env q).2.1 ++ (exec iOps env q).2.2.1) := by
  rw [mem_progressed]
  have hlt : iOps.lt (env x) ((exec iOps env q).1 x) = true := by
    show (Option.isNone (env x) && Option.isSome ((exec iOps env q).1 x)) = true
    rw [h0, Option.isSome_iff_ne_none.2 h]; rfl
  have hne : (exec iOps env q).1 x ≠ env x := by rw [h0]; exact h
  obtain ⟨-, -, hl, -⟩ := hs.exec iOps hq env
  rcases writeAll_last iOps (writeAll iOps env q.ins
      (q.rule (q.ins.map (Propagate.read iOps env)) (q.outs.map (Propagate.read iOps env))).1).1 q.outs
      (q.rule (q.ins.map (Propagate.read iOps env)) (q.outs.map (Propagate.read iOps env))).2.1 x with h1 | ⟨i, h1, h2⟩
  · rcases writeAll_last iOps env q.ins
      (q.rule (q.ins.map (Propagate.read iOps env)) (q.outs.map (Propagate.read iOps env))).1 x with h3 | ⟨i, h3, h4⟩
    · exfalso; apply hne; simp only [exec]; rw [h1, h3]
    · have hi : i < q.ins.length := (List.getElem?_eq_some_iff.1 h3).1
      refine ⟨i, .var x, env x, (exec iOps env q).1 x, ?_, ?_, ?_, hlt, rfl⟩
      · rw [List.getElem?_append_left hi]; exact h3
      · rw [← List.map_append, List.getElem?_map, List.getElem?_append_left hi, h3]; rfl
      · rw [List.getElem?_append_left (by omega)]
        simp only [exec]; rw [h1]; exact h4
  · refine ⟨i + q.ins.length, .var x, env x, (exec iOps env q).1 x, ?_, ?_, ?_, hlt, rfl⟩
    · rw [List.getElem?_append_right (by omega)]; simpa using h1
    · rw [← List.map_append, List.getElem?_map, List.getElem?_append_right (by omega)]; simp [h1, Propagate.read]
    · rw [List.getElem?_append_right (by omega), hl]; simpa [exec] using h2

/-- The atoms a random variable equation needs: its parameters and its value. -/
def needs (nc : Nat) (q : LOp × List (Atom F) × List (Atom F)) : List (Atom F) := (q.2.1.drop nc).drop 1 ++ q.2.2

theorem mapM_read (env : Env ICell) (as : List (Atom F)) :
    ((as.map (Propagate.read iOps env)).mapM id).isSome = true ↔ ∀ x, some x ∈ as.map Atom.node → env x ≠ none := by
  induction as with
  | nil => simp
  | cons a as ih =>
    simp only [List.map_cons, List.mapM_cons, id_eq, Option.bind_eq_bind, Option.pure_def]
    cases a with
    | lit v =>
      simp only [Propagate.read, iOps, Option.bind_some, Option.isSome_bind] at ih ⊢
      rcases hm : (as.map (Propagate.read iOps env)).mapM id with _ | cs
      · simp only [iOps] at hm
        rw [hm] at ih
        simp only [Option.isSome_none, Bool.false_eq_true, false_iff] at ih
        simp [hm, Atom.node] at ih ⊢
        exact ih
      · simp only [iOps] at hm
        rw [hm] at ih
        simp [hm, Atom.node] at ih ⊢
        exact ih
    | var y =>
      rcases hy : env y with _ | c <;> rcases hm : (as.map (Propagate.read iOps env)).mapM id with _ | cs <;> rw [hm] at ih <;>
        simp [Propagate.read, hy, hm, Atom.node] at ih ⊢ <;> exact ih
    | drop y =>
      rcases hy : env y with _ | c <;> rcases hm : (as.map (Propagate.read iOps env)).mapM id with _ | cs <;> rw [hm] at ih <;>
        simp [Propagate.read, hy, hm, Atom.node] at ih ⊢ <;> exact ih

theorem needs_node {nc : Nat} {q : LOp × List (Atom F) × List (Atom F)} {x : Nat} (h : some x ∈ (needs nc q).map Atom.node) :
    some x ∈ (q.2.1 ++ q.2.2).map Atom.node := by
  simp only [needs, List.map_append, List.mem_append, List.mem_map] at h ⊢
  rcases h with ⟨a, ha, hx⟩ | h
  · exact .inl ⟨a, List.mem_of_mem_drop (List.mem_of_mem_drop ha), hx⟩
  · exact .inr h

theorem rvRule_none (env : Env ICell) (nc : Nat) (d) (q : LOp × List (Atom F) × List (Atom F))
    (h : ¬ ∀ x, some x ∈ (needs nc q).map Atom.node → env x ≠ none) :
    (rvRule nc d (q.2.1.map (Propagate.read iOps env)) (q.2.2.map (Propagate.read iOps env))).2.2 = none := by
  have h1 := mapM_read env ((q.2.1.drop nc).drop 1)
  have h2 := mapM_read env q.2.2
  simp only [rvRule, List.map_drop] at h1 ⊢
  split
  · rename_i ps vs hp hv
    exfalso; apply h
    rw [hp] at h1; rw [hv] at h2
    intro x hx
    simp only [needs, List.map_append, List.mem_append, List.map_drop] at hx
    rcases hx with hx | hx
    · exact h1.1 rfl x hx
    · exact h2.1 rfl x hx
  · rfl

theorem rvRule_some (env : Env ICell) (nc : Nat) (d) (q : LOp × List (Atom F) × List (Atom F))
    (h : ∀ x, some x ∈ (needs nc q).map Atom.node → env x ≠ none) :
    ∃ ps vs, (((q.2.1.drop nc).drop 1).map (Propagate.read iOps env)).mapM id = some ps ∧
      (q.2.2.map (Propagate.read iOps env)).mapM id = some vs ∧
      (rvRule nc d (q.2.1.map (Propagate.read iOps env)) (q.2.2.map (Propagate.read iOps env))).2.2 =
        some (d (ps.map (·.1)) (vs.map (·.1))) := by
  have h1 := (mapM_read env ((q.2.1.drop nc).drop 1)).2 (fun x hx => h x (by simp only [needs, List.map_append, List.mem_append]; exact .inl hx))
  have h2 := (mapM_read env q.2.2).2 (fun x hx => h x (by simp only [needs, List.map_append, List.mem_append]; exact .inr hx))
  obtain ⟨ps, hp⟩ := Option.isSome_iff_exists.1 h1
  obtain ⟨vs, hv⟩ := Option.isSome_iff_exists.1 h2
  refine ⟨ps, vs, hp, hv, ?_⟩
  simp only [List.map_drop] at hp
  simp only [rvRule, hp, hv]

/-- What holds along every run. -/
structure LInv (P : LProg) (s : St ICell (Option F)) : Prop where
  det : ∀ (e : Nat) q op, P.eqns[e]? = some q → q.1 = .det op → (s.states e).join = none
  known : ∀ (e : Nat) q nc d, P.eqns[e]? = some q → q.1 = .rv nc d → (s.states e).join ≠ none →
    ∀ x, some x ∈ (needs nc q).map Atom.node → s.env x ≠ none
  complete : ∀ (e : Nat) q nc d, P.eqns[e]? = some q → q.1 = .rv nc d → (∃ x, some x ∈ (needs nc q).map Atom.node) →
    (∀ x, some x ∈ (needs nc q).map Atom.node → s.env x ≠ none) → e ∈ s.queue ∨ (s.states e).join ≠ none

theorem rv_exec_env (P : LProg) (env : Env ICell) (q : LOp × List (Atom F) × List (Atom F)) (nc d) (hq : q.1 = .rv nc d) (x : Nat) :
    ((exec iOps env (⟨q.2.1, q.2.2, q.1.rule⟩ : Eqn ICell F (Option F))).1 x = none ↔ env x = none) := by
  constructor
  · intro h
    by_contra hne
    exact top_exec env _ x hne h
  · intro h
    have hsame : ∀ (as : List (Atom F)) (env env0 : Env ICell), (∀ y, env0 y = none → env y = none) → env0 x = none →
        (writeAll iOps env as (as.map (Propagate.read iOps env0))).1 x = none := by
      intro as
      induction as with
      | nil => intro env env0 h1 h2; exact h1 x h2
      | cons a as ih =>
        intro env env0 h1 h2
        simp only [List.map_cons, writeAll]
        refine ih _ env0 ?_ h2
        intro y hy
        cases a with
        | lit v => exact h1 y hy
        | drop z => exact h1 y hy
        | var z =>
          by_cases hyz : y = z
          · subst hyz; simp [write, iOps, Propagate.read, hy, h1 y hy]
          · simpa [write, hyz] using h1 y hy
    have hr : ∀ i o, (LOp.rv nc d).rule i o = (i, o, (rvRule nc d i o).2.2) := by
      intro i o
      simp only [LOp.rule, rvRule]
      split <;> rfl
    simp only [exec]
    rw [hq, hr]
    refine hsame _ _ env ?_ h
    intro y hy
    have hsame' : ∀ (as : List (Atom F)) (env env0 : Env ICell), (∀ y, env0 y = none → env y = none) → env0 y = none →
        (writeAll iOps env as (as.map (Propagate.read iOps env0))).1 y = none := by
      intro as
      induction as with
      | nil => intro env env0 h1 h2; exact h1 y h2
      | cons a as ih =>
        intro env env0 h1 h2
        simp only [List.map_cons, writeAll]
        refine ih _ env0 ?_ h2
        intro y hy
        cases a with
        | lit v => exact h1 y hy
        | drop z => exact h1 y hy
        | var z =>
          by_cases hyz : y = z
          · subst hyz; simp [write, iOps, Propagate.read, hy, h1 y hy]
          · simpa [write, hyz] using h1 y hy
    exact hsame' _ env env (fun _ h => h) hy

theorem LInv.step (P : LProg) (hs : Sized P.jaxpr) {s t : St ICell (Option F)} (h : LInv P s)
    (hst : Step iOps P.jaxpr s t) : LInv P t := by
  cases hst with
  | mk e rest q q' hq he hp =>
    have hqm := List.mem_of_getElem? he
    rw [lp_eqn] at he
    rcases hpe : P.eqns[e]? with _ | r
    · rw [hpe] at he; simp at he
    rw [hpe] at he
    simp only [Option.map_some, Option.some.injEq] at he
    subst he
    refine ⟨?_, ?_, ?_⟩
    · intro e' q op he' hqo
      by_cases hee : e' = e
      · subst hee
        rw [hpe] at he'; obtain rfl := Option.some.inj he'
        simp only [if_true, exec, hqo, LOp.rule]
        rfl
      · simpa [hee] using h.det e' q op he' hqo
    · intro e' q nc d he' hqd hne x hx
      by_cases hee : e' = e
      · subst hee
        rw [hpe] at he'; obtain rfl := Option.some.inj he'
        simp only [if_true, exec, hqd, LOp.rule, Option.join_some] at hne
        by_contra hn
        apply hne
        apply rvRule_none
        intro hall
        exact top_exec _ _ _ (hall x hx) hn
      · simp only [if_neg hee] at hne
        exact top_exec _ _ _ (h.known e' q nc d he' hqd hne x hx)
    · intro e' q nc d he' hqd hex hall
      by_cases hee : e' = e
      · subst hee
        rw [hpe] at he'; obtain rfl := Option.some.inj he'
        right
        simp only [if_true, exec, hqd, LOp.rule, Option.join_some]
        have hall' : ∀ x, some x ∈ (needs nc r).map Atom.node → s.env x ≠ none := by
          intro x hx hn
          exact hall x hx ((rv_exec_env P s.env r nc d hqd x).2 hn)
        obtain ⟨ps, vs, -, -, h3⟩ := rvRule_some s.env nc d r hall'
        rw [h3]; simp
      · simp only [if_neg hee]
        by_cases hnew : ∃ x, some x ∈ (needs nc q).map Atom.node ∧ s.env x = none
        · obtain ⟨x, hx, hn⟩ := hnew
          left
          refine (hp.mem e').2 (.inr ⟨hee, x, known_progressed hs hqm _ _ hn (hall x hx), ?_⟩)
          exact ⟨_, by rw [lp_eqn, he']; rfl, needs_node hx⟩
        · have hall' : ∀ x, some x ∈ (needs nc q).map Atom.node → s.env x ≠ none :=
            fun x hx hn => hnew ⟨x, hx, hn⟩
          rcases h.complete e' q nc d he' hqd hex hall' with h1 | h1
          · left
            rw [hq] at h1
            rcases List.mem_cons.1 h1 with h1 | h1
            · exact absurd h1 hee
            · exact (hp.mem e').2 (.inl h1)
          · exact .inr h1

theorem initEnv_known {S : Type} (J : Jaxpr ICell F S) (consts ins outs : List ICell) (x : Nat)
    (h : initEnv iOps J consts ins outs x ≠ none) :
    some x ∈ (J.outvars ++ J.invars ++ J.constvars).map Atom.node := by
  by_contra hn
  simp only [List.map_append, List.mem_append, not_or] at hn
  apply h
  have hunk : ∀ (as : List (Atom F)) (env env0 : Env ICell), env x = none →
      (writeAll iOps env as (as.map (fun a => match a.node with | some x => iOps.unknown x | none => Propagate.read iOps env0 a))).1 x = none := by
    intro as
    induction as with
    | nil => intro env env0 h1; exact h1
    | cons a as ih =>
      intro env env0 h1
      simp only [List.map_cons, writeAll]
      refine ih _ env0 ?_
      cases a with
      | lit v => exact h1
      | drop z => exact h1
      | var z =>
        by_cases hyz : x = z
        · subst hyz; simp [write, iOps, Atom.node, h1]
        · simpa [write, hyz] using h1
  unfold initEnv
  refine hunk _ _ _ ?_
  rw [writeAll_frame _ _ _ _ _ hn.1.1, writeAll_frame _ _ _ _ _ hn.1.2, writeAll_frame _ _ _ _ _ hn.2]
  rfl

theorem LInv.init (P : LProg) (consts ins outs : List ICell) (s : St ICell (Option F))
    (h : Init iOps P.jaxpr consts ins outs s) : LInv P s := by
  obtain ⟨henv, hq, hst⟩ := h
  refine ⟨?_, ?_, ?_⟩
  · intro e q op _ _; rw [hst]; rfl
  · intro e q nc d _ _ hne; rw [hst] at hne; exact absurd rfl hne
  · intro e q nc d he hqd ⟨x, hx⟩ hall
    left
    rw [hq.2]
    refine ⟨x, initEnv_known P.jaxpr consts ins outs x (by rw [← henv]; exact hall x hx), ?_⟩
    exact ⟨_, by rw [lp_eqn, he]; rfl, needs_node hx⟩

theorem LInv.steps (P : LProg) (hs : Sized P.jaxpr) {s t : St ICell (Option F)} (h : LInv P s)
    (hst : Steps iOps P.jaxpr s t) : LInv P t := by
  induction hst with
  | refl => exact h
  | tail t u _ hst ih => exact ih.step P hs hst

end Verif.LogProb
