import Verif.LogProb.JointNestCall
import Verif.LogProb.JointTrim

/-! C79: the propagation through a program with calls (helper lemmas). -/
namespace Verif.LogProb.Joint

open Verif.Propagate Verif.Inverse

/-! ### Equations that leave the cells as they are -/

/-- At the end of a run the state of an equation that leaves the cells as they are is that of its rule, unless nothing
around it is known. -/
theorem settled {X : Type} {J : Jaxpr ICell F X} (hs : Propagate.Sized J) {T : Nat → List Nat} {root : Nat → Prop}
    {G : Env ICell} (H : System J T root G) (consts ins outs : List ICell) (s0 s : St ICell X)
    (h : Init iOps J consts ins outs s0) (henv : ∀ x, root x → s0.env x = G x) (hnone : ∀ x, ¬ root x → s0.env x = none)
    (hst : Steps iOps J s0 s) (e : Nat) (q) (he : J.eqns[e]? = some q) (hself : ∀ env, (exec iOps env q).1 = env) :
    e ∉ s.queue → s.states e = some (exec iOps s.env q).2.2.2 ∨ (s.states e = none ∧ ∀ x, Nbr J x e → s.env x = none) := by
  induction hst with
  | refl =>
    intro hq
    refine .inr ⟨h.2.2 e, fun x hx => ?_⟩
    by_contra hc
    apply hq
    rw [h.2.1.2]
    exact ⟨x, initEnv_known J consts ins outs x (by rw [← h.1]; exact hc), hx⟩
  | tail t u hss hst ih =>
    have hsub := (H.final hs _ _ _ s0 t h henv hnone hss).1
    have hsub' := (H.final hs _ _ _ s0 u h henv hnone (.tail _ _ _ hss hst)).1
    cases hst with
    | mk e' rest q1 q' hq he' hp =>
      intro hne
      by_cases hee : e = e'
      · subst hee
        rw [he] at he'; obtain rfl := Option.some.inj he'
        left
        simp only [if_true, hself]
      · have hne' : e ∉ t.queue := by
          rw [hq]
          intro hc
          rcases List.mem_cons.1 hc with hc | hc
          · exact hee hc
          · exact hne ((hp.mem e).2 (.inl hc))
        have hsame : ∀ x, Nbr J x e → (exec iOps t.env q1).1 x = t.env x := by
          intro x hx
          by_cases hk : t.env x = none
          · by_contra hc
            apply hne
            refine (hp.mem e).2 (.inr ⟨hee, x, known_progressed hs (List.mem_of_getElem? he') _ _ hk ?_, hx⟩)
            intro hc'; exact hc (hc'.trans hk.symm)
          · rw [hsub x hk]
            exact hsub' x (top_exec _ _ _ hk)
        simp only [if_neg hee]
        rcases ih hne' with h1 | ⟨h1, h2⟩
        · left
          rw [h1]
          have hr : ∀ as : List (Atom F), (∀ a ∈ as, a ∈ q.ins ++ q.outs) →
              as.map (Propagate.read iOps (exec iOps t.env q1).1) = as.map (Propagate.read iOps t.env) := by
            intro as ha
            apply map_read_congr
            intro x hx
            obtain ⟨a, h3, h4⟩ := List.mem_map.1 hx
            exact hsame x ⟨q, he, List.mem_map.2 ⟨a, ha a h3, h4⟩⟩
          have h5 := hr q.ins (fun a h => List.mem_append_left _ h)
          have h6 := hr q.outs (fun a h => List.mem_append_right _ h)
          conv_rhs => simp only [exec]
          simp only [exec] at h5 h6
          rw [h5, h6]
          rfl
        · right
          exact ⟨h1, fun x hx => by rw [hsame x hx]; exact h2 x hx⟩

/-! ### Systems with the same effect on the cells -/

/-- Two equations with the same variables and the same effect on the cells. -/
def Alike {X Y : Type} (q : Eqn ICell F X) (q' : Eqn ICell F Y) : Prop :=
  (∀ x, some x ∈ (q.ins ++ q.outs).map Atom.node ↔ some x ∈ (q'.ins ++ q'.outs).map Atom.node) ∧
    ∀ env, (exec iOps env q).1 = (exec iOps env q').1

theorem forall₂_get {α β : Type} {R : α → β → Prop} {l : List α} {l' : List β} (h : List.Forall₂ R l l') (e : Nat) :
    (l[e]? = none ∧ l'[e]? = none) ∨ ∃ a b, l[e]? = some a ∧ l'[e]? = some b ∧ R a b := by
  induction h generalizing e with
  | nil => exact .inl ⟨rfl, rfl⟩
  | cons h1 _ ih =>
    cases e with
    | zero => exact .inr ⟨_, _, rfl, rfl, h1⟩
    | succ e => simpa using ih e

theorem System.alike {X Y : Type} {J : Jaxpr ICell F X} {J' : Jaxpr ICell F Y} (hF : List.Forall₂ Alike J.eqns J'.eqns)
    {T : Nat → List Nat} {root : Nat → Prop} {G : Env ICell} (H : System J' T root G) : System J T root G := by
  have hn : ∀ x e, Nbr J x e ↔ Nbr J' x e := by
    intro x e
    simp only [Nbr]
    rcases forall₂_get hF e with ⟨h1, h2⟩ | ⟨a, b, h1, h2, h3⟩
    · simp [h1, h2]
    · simp only [h1, h2, Option.some.injEq, exists_eq_left']
      exact h3.1 x
  have hx : ∀ (e : Nat) q, J.eqns[e]? = some q → ∃ q', J'.eqns[e]? = some q' ∧ ∀ env, (exec iOps env q).1 = (exec iOps env q').1 := by
    intro e q he
    rcases forall₂_get hF e with ⟨h1, h2⟩ | ⟨a, b, h1, h2, h3⟩
    · rw [h1] at he; simp at he
    · rw [h1] at he; obtain rfl := Option.some.inj he
      exact ⟨b, h2, h3.2⟩
  refine ⟨?_, H.uniq, H.free, H.known, ?_, ?_, ?_, ?_⟩
  · intro e x h; exact (hn x e).2 (H.nbr e x h)
  · intro e q he
    obtain ⟨q', h1, h2⟩ := hx e q he
    rw [h2]; exact H.solve e q' h1
  · intro e q env he h1 h2
    obtain ⟨q', h3, h4⟩ := hx e q he
    rw [h4]
    refine H.idle e q' env h3 h1 ?_
    obtain ⟨x, h5, h6⟩ := h2
    exact ⟨x, (hn x e).1 h5, h6⟩
  · intro x h
    have := H.reach x h
    clear h
    induction this with
    | root x hr => exact .root x hr
    | step e x y hx hy hyT _ ih => exact .step e x y hx ((hn y e).2 hy) hyT (fun z h1 h2 => ih z ((hn z e).1 h1) h2)
  · intro e h1 h2 x h3
    refine H.all e ?_ (fun y h4 h5 => h2 y ((hn y e).2 h4) h5) x h3
    obtain ⟨y, h4, h5⟩ := h1
    exact ⟨y, (hn y e).1 h4, h5⟩

/-! ### The reduction -/

/-- The terms of the sum. -/
noncomputable def nTerm (G : Env ICell) (q : NOp × List (Atom F) × List (Atom F)) : Option (Option F) :=
  match q.1 with
  | .flat op => rvTerm G (op, q.2)
  | .call D => some (D.at G (G (lastVar D.value D.links)))

theorem nFinish_eq (P : NProg) (s : St ICell (Option (Option F)))
    (H : ∀ q e, P.eqns[e]? = some q → ∀ c, nReduce s.env q (some c) (s.states e).join =
      match nTerm s.env q with
      | none => some c
      | some t => t.map (addF c)) :
    nFinish P s = ((P.eqns.filterMap (nTerm s.env)).mapM id).map sumF := by
  have hz : ∀ (c t : F) (z : Option (List F)), z.map (fun ts => addF (addF c t) (sumF ts)) =
      (z.bind fun d => some (t :: d)).map fun ts => addF c (sumF ts) := by
    intro c t z
    cases z
    · rfl
    · simp [sumF, addF_assoc]
  have key : ∀ (l : List ((NOp × List (Atom F) × List (Atom F)) × Nat)) (c : F), (∀ p ∈ l, P.eqns[p.2]? = some p.1) →
      l.foldl (fun r p => nReduce s.env p.1 r (s.states p.2).join) (some c) =
        (((l.map (·.1)).filterMap (nTerm s.env)).mapM id).map fun ts => addF c (sumF ts) := by
    intro l
    induction l with
    | nil => intro c _; simp [sumF, addF_zero_right]
    | cons p l ih =>
      intro c hl
      have hl' : ∀ p ∈ l, P.eqns[p.2]? = some p.1 := fun q hq => hl q (by simp [hq])
      obtain ⟨q, e⟩ := p
      simp only [List.foldl_cons, List.map_cons, List.filterMap_cons]
      rw [H q e (hl (q, e) List.mem_cons_self) c]
      rcases nTerm s.env q with _ | t
      · exact ih c hl'
      · rcases t with _ | t
        · simp only [Option.map_none, List.mapM_cons, id_eq, Option.bind_eq_bind, Option.bind_none]
          clear ih hl hl'
          induction l with
          | nil => rfl
          | cons p l ih => simpa [nReduce] using ih
        · simp only [Option.map_some]
          rw [ih _ hl']
          simp only [List.mapM_cons, id_eq, Option.bind_eq_bind, Option.bind_some, Option.pure_def]
          exact hz _ _ _
  rw [nFinish, key]
  · simp only [List.zipIdx_map_fst, addF_zero_left]
  · rintro ⟨q, e⟩ hp
    exact List.mem_zipIdx_iff_getElem?.1 hp

/-! ### The program in which a named random variable has no links -/

/-- A named random variable as a single equation. -/
def Stmt.collapse : Stmt → Stmt
  | .draw D => match D.name with
    | some n => .draw ⟨D.numConsts, D.logp, D.operands ++ D.links.flatMap fun l => l.1.operand, lastVar D.value D.links, [], some n⟩
    | none => .draw D
  | st => st

/-- All named random variables. -/
def Source.collapse (S : Source) : Source := { S with body := S.body.map Stmt.collapse }

theorem collapse_uses (st : Stmt) : st.collapse.uses = st.uses := by
  cases st with
  | draw D =>
    simp only [Stmt.collapse]
    rcases D.name with _ | n
    · rfl
    · simp [Stmt.uses]
  | det op ins outs => rfl
  | tag n a => rfl

theorem collapse_defs (st : Stmt) : st.collapse.defs.Sublist st.defs := by
  cases st with
  | draw D =>
    simp only [Stmt.collapse]
    rcases D.name with _ | n
    · exact List.Sublist.refl _
    · simp only [Stmt.defs, List.map_nil, List.singleton_sublist]
      exact last_mem _ _
  | det op ins outs => exact List.Sublist.refl _
  | tag n a => exact List.Sublist.refl _

theorem collapse_sown (st : Stmt) : st.collapse.sown = st.sown := by
  cases st with
  | draw D =>
    rcases hD : D.name with _ | n <;> simp [Stmt.collapse, hD, Stmt.sown, lastVar]
  | det op ins outs => rfl
  | tag n a => rfl

theorem collapse_flat_defs (body : List Stmt) : ((body.map Stmt.collapse).flatMap Stmt.defs).Sublist (body.flatMap Stmt.defs) := by
  induction body with
  | nil => exact List.Sublist.refl _
  | cons st body ih =>
    simp only [List.map_cons, List.flatMap_cons]
    exact (collapse_defs st).append ih

theorem collapse_scoped (body : List Stmt) (h : Scoped body) : Scoped (body.map Stmt.collapse) := by
  induction body with
  | nil => trivial
  | cons st body ih =>
    refine ⟨?_, ih h.2⟩
    intro x hx hc
    rw [collapse_uses] at hx
    apply h.1 x hx
    exact ((collapse_defs st).append (collapse_flat_defs body)).subset hc

variable {S : Source}

theorem collapse_wf (h : S.WF) : S.collapse.WF where
  once := List.Sublist.nodup ((List.Sublist.refl _).append (collapse_flat_defs S.body)) h.once
  order := collapse_scoped S.body h.order
  sized := by
    intro st hst
    obtain ⟨st0, h1, rfl⟩ := List.mem_map.1 hst
    have := h.sized st0 h1
    cases st0 with
    | draw D =>
      simp only [Stmt.collapse]
      rcases D.name with _ | n <;> trivial
    | det op ins outs => exact this
    | tag n a => trivial

theorem collapse_all_sown : S.collapse.body.flatMap Stmt.sown = S.body.flatMap Stmt.sown := by
  simp only [Source.collapse, List.flatMap_map]
  congr 1
  funext st
  exact collapse_sown st

theorem collapse_noTags (h : S.NoTags) : S.collapse.NoTags := by
  intro st hst n a hc
  obtain ⟨st0, h1, rfl⟩ := List.mem_map.1 hst
  cases st0 with
  | draw D =>
    rcases hD : D.name with _ | m <;> simp [Stmt.collapse, hD] at hc
  | det op ins outs => simp [Stmt.collapse] at hc
  | tag m b => exact h _ h1 m b rfl

/-- The jaxpr with calls with all equations. -/
def Source.nwhole (S : Source) (first : List (Atom F)) : NProg :=
  ⟨.var S.key :: S.args.map .var, S.results first, S.body.flatMap Stmt.calls⟩

/-- The propagation equation. -/
noncomputable def neqn (rules : Draw → CallRule) (q : NOp × List (Atom F) × List (Atom F)) : Eqn ICell F (Option (Option F)) :=
  ⟨q.2.1, q.2.2, q.1.rule rules⟩

theorem flat_exec (rules) (op : LOp) (qq : List (Atom F) × List (Atom F)) (env : Env ICell) :
    (exec iOps env (neqn rules (.flat op, qq))).1 = (exec iOps env (peqn (op, qq))).1 := rfl

/-- The rules are those of the calls in the program (propagate.py:339-367). -/
def RulesFor (rules : Draw → CallRule) (S : Source) : Prop :=
  ∀ D, Stmt.draw D ∈ S.body → D.name ≠ none → Calls D.prog (rules D)

theorem call_exec_rule {rules : Draw → CallRule} {D : Draw} (hn : (Stmt.draw D).defs.Nodup) (hu : ∀ x ∈ (Stmt.draw D).uses, x ∉ (Stmt.draw D).defs)
    (hr : Calls D.prog (rules D)) (env : Env ICell) :
    rules D ((D.invars.map Atom.var).map (Propagate.read iOps env)) [env (lastVar D.value D.links)] =
      (D.invars.map env, [env (lastVar D.value D.links)], some (D.at env (env (lastVar D.value D.links)))) := by
  have hm : (D.invars.map Atom.var).map (Propagate.read iOps env) = D.invars.map env := by
    rw [List.map_map]; rfl
  rw [hm, call_rule hn hu _ _ _ hr (by simp)]
  congr 3
  have hce : ∀ x ∈ (Stmt.draw D).uses, callEnv D (D.invars.map env) (env (lastVar D.value D.links)) x = env x := by
    intro x hx
    have hxl : x ≠ lastVar D.value D.links := by
      rintro rfl; exact hu _ hx (last_mem _ _)
    rw [callEnv, put_ne _ _ hxl]
    have := putAll_get (fun _ => none) D.invars (D.invars.map env) (by rw [invars_eq]; exact List.nodup_dedup _) (by simp)
    obtain ⟨k, hk⟩ := List.mem_iff_getElem?.1 (mem_invars.2 hx)
    have h1 := congrArg (·[k]?) this
    simpa [List.getElem?_map, hk] using h1
  simp only [Draw.at]
  have h1 : ((D.operands.drop D.numConsts).drop 1).map (Propagate.read iOps
      (callEnv D (D.invars.map env) (env (lastVar D.value D.links)))) =
      ((D.operands.drop D.numConsts).drop 1).map (Propagate.read iOps env) := by
    apply map_read_congr
    intro x hx
    refine hce x ?_
    obtain ⟨a, h1, h2⟩ := List.mem_map.1 hx
    simp only [Stmt.uses, List.filterMap_append, List.mem_append]
    exact .inl (List.mem_filterMap.2 ⟨a, List.mem_of_mem_drop (List.mem_of_mem_drop h1), h2⟩)
  have h2 := chainCell_congr (callEnv D (D.invars.map env) (env (lastVar D.value D.links))) env D.links
    (env (lastVar D.value D.links)) (by
      intro x hx
      refine hce x ?_
      simp only [Stmt.uses, List.filterMap_append, List.mem_append]
      exact .inr hx)
  rw [h1, h2]

theorem call_exec {rules : Draw → CallRule} {D : Draw} (hn : (Stmt.draw D).defs.Nodup) (hu : ∀ x ∈ (Stmt.draw D).uses, x ∉ (Stmt.draw D).defs)
    (hr : Calls D.prog (rules D)) (env : Env ICell) :
    (exec iOps env (neqn rules (.call D, D.invars.map .var, [.var (lastVar D.value D.links)]))).1 = env ∧
    (exec iOps env (neqn rules (.call D, D.invars.map .var, [.var (lastVar D.value D.links)]))).2.2.2 =
      some (D.at env (env (lastVar D.value D.links))) := by
  have h := call_exec_rule hn hu hr env
  have hm : (D.invars.map Atom.var).map (Propagate.read iOps env) = D.invars.map env := by
    rw [List.map_map]; rfl
  have ho : [Atom.var (lastVar D.value D.links)].map (Propagate.read iOps env) = [env (lastVar D.value D.links)] := rfl
  simp only [exec, neqn, NOp.rule, ho, h]
  refine ⟨?_, trivial⟩
  rw [← hm, ← ho, writeAll_self, writeAll_self]

theorem alike_stmt {rules : Draw → CallRule} (st : Stmt) (hn : st.defs.Nodup) (hu : ∀ x ∈ st.uses, x ∉ st.defs)
    (hr : ∀ D, st = .draw D → D.name ≠ none → Calls D.prog (rules D)) :
    List.Forall₂ Alike (st.calls.map (neqn rules)) (st.collapse.eqns.map peqn) := by
  have hflat : ∀ qs : List (LOp × List (Atom F) × List (Atom F)),
      List.Forall₂ Alike ((qs.map fun q => (NOp.flat q.1, q.2)).map (neqn rules)) (qs.map peqn) := by
    intro qs
    induction qs with
    | nil => exact .nil
    | cons q qs ih => exact .cons ⟨fun x => Iff.rfl, fun env => rfl⟩ ih
  cases st with
  | det op ins outs => exact hflat _
  | tag n a => exact hflat _
  | draw D =>
    simp only [Stmt.calls, Stmt.collapse]
    rcases hD : D.name with _ | n
    · exact hflat _
    · refine .cons ⟨?_, ?_⟩ .nil
      · intro x
        simp only [neqn, peqn, List.map_append, List.mem_append]
        refine or_congr ?_ Iff.rfl
        have h1 : some x ∈ (D.invars.map (Atom.var (L := F))).map Atom.node ↔ x ∈ D.invars := by
          simp [Atom.node]
        rw [h1, mem_invars]
        simp [Stmt.uses]
      · intro env
        rw [(call_exec hn hu (hr D rfl (by simp [hD])) env).1]
        exact (rv_exec_self env _ _ _ _).symm

theorem alike_prog {rules} (h : S.WF) (hr : RulesFor rules S) (first) :
    List.Forall₂ Alike ((S.nwhole first).jaxpr rules).eqns (S.collapse.whole first).jaxpr.eqns := by
  have key : ∀ body : List Stmt, (∀ st ∈ body, st ∈ S.body) →
      List.Forall₂ Alike ((body.flatMap Stmt.calls).map (neqn rules)) (((body.map Stmt.collapse).flatMap Stmt.eqns).map peqn) := by
    intro body
    induction body with
    | nil => intro _; exact .nil
    | cons st body ih =>
      intro hb
      simp only [List.flatMap_cons, List.map_cons, List.map_append]
      have hst := hb st (by simp)
      exact List.rel_append (alike_stmt st (defs_mem (WF.body h).1 st hst) (scoped_mem h.order st hst)
        (fun D hD hn => hr D (hD ▸ hst) hn)) (ih fun s hs => hb s (by simp [hs]))
  exact key S.body fun _ h => h

theorem nwhole_sized {rules} (h : S.WF) (hr : RulesFor rules S) (first) :
    Propagate.Sized ((S.nwhole first).jaxpr rules) := by
  intro q hq i o hi ho
  simp only [NProg.jaxpr, Source.nwhole, List.mem_map] at hq
  obtain ⟨r, hr', rfl⟩ := hq
  obtain ⟨st, h1, h2⟩ := List.mem_flatMap.1 hr'
  have hflat : ∀ qs : List (LOp × List (Atom F) × List (Atom F)), (∀ q ∈ qs, q ∈ S.body.flatMap Stmt.eqns) → r ∈ qs.map (fun q => (NOp.flat q.1, q.2)) →
      ((r.1.rule rules i o).1.length = r.2.1.length ∧ (r.1.rule rules i o).2.1.length = r.2.2.length) := by
    intro qs hqs hm
    obtain ⟨q0, h3, rfl⟩ := List.mem_map.1 hm
    exact prog_sized h first (peqn q0) (List.mem_map.2 ⟨q0, hqs q0 h3, rfl⟩) i o hi ho
  have hmem : ∀ q ∈ st.eqns, q ∈ S.body.flatMap Stmt.eqns := fun q hq => List.mem_flatMap.2 ⟨st, h1, hq⟩
  cases st with
  | det op ins outs => exact hflat _ hmem h2
  | tag n a => exact hflat _ hmem h2
  | draw D =>
    simp only [Stmt.calls] at h2
    rcases hD : D.name with _ | n
    · rw [hD] at h2; exact hflat _ hmem h2
    · rw [hD] at h2
      simp only [List.mem_singleton] at h2
      subst h2
      simp only [List.length_map, List.length_singleton] at hi ho ⊢
      obtain ⟨c, rfl⟩ := List.length_eq_one_iff.1 ho
      simp only [NOp.rule]
      rw [call_rule (defs_mem (WF.body h).1 _ h1) (scoped_mem h.order _ h1) i c _ (hr D h1 (by simp [hD])) hi]
      exact ⟨hi, rfl⟩

end Verif.LogProb.Joint
