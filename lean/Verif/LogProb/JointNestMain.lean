import Verif.LogProb.JointNestSys
import Verif.LogProb.JointLawProps

/-! C79: the value of `joint_log_prob` with the calls (helper lemmas). -/
namespace Verif.LogProb.Joint

open Verif.Propagate Verif.Inverse

variable {S : Source}

/-! ### The terms -/

theorem putAll_agree (env env' : Env ICell) (xs : List Nat) (cs : List ICell) (x : Nat) (h : env x = env' x) :
    putAll env xs cs x = putAll env' xs cs x := by
  induction xs generalizing env env' cs with
  | nil => cases cs <;> exact h
  | cons y xs ih =>
    obtain _ | ⟨c, cs⟩ := cs
    · exact h
    · simp only [putAll]
      refine ih _ _ _ ?_
      simp only [put]
      split
      · rfl
      · exact h

theorem putChain_agree (e e' env env' : Env ICell) (t ls c) (hu : ∀ x ∈ (ls.flatMap (fun l : Link × Nat => l.1.operand)).filterMap Atom.node, e x = e' x)
    (x : Nat) (h : env x = env' x) : putChain e t ls c env x = putChain e' t ls c env' x := by
  induction ls generalizing t with
  | nil =>
    simp only [putChain, put]
    split
    · rfl
    · exact h
  | cons l ls ih =>
    obtain ⟨l, y⟩ := l
    simp only [putChain, put]
    split
    · exact chainCell_congr _ _ _ _ hu
    · exact ih y (fun x hx => hu x (by simp only [List.flatMap_cons, List.filterMap_append, List.mem_append]; exact .inr hx))

theorem inner_mem {D : Draw} {x : Nat} (hd : x ∈ (Stmt.draw D).defs) (hl : x ≠ lastVar D.value D.links) : x ∈ D.inner := by
  have h1 : (Stmt.draw D).defs = (linkT D.value D.links).flatMap (·.2) ++ [lastVar D.value D.links] := (linkT_targets _ _).symm
  have h2 : D.inner = (linkT D.value D.links).flatMap (·.2) := by
    have : D.inner = ((Stmt.draw D).defs).dropLast := rfl
    rw [this, h1, List.dropLast_concat]
  rw [h1, List.mem_append, List.mem_singleton] at hd
  rw [h2]
  exact hd.resolve_right hl

theorem not_inner {D : Draw} (hn : (Stmt.draw D).defs.Nodup) : lastVar D.value D.links ∉ D.inner := by
  have h1 : (Stmt.draw D).defs = (linkT D.value D.links).flatMap (·.2) ++ [lastVar D.value D.links] := (linkT_targets _ _).symm
  have h2 : D.inner = (linkT D.value D.links).flatMap (·.2) := by
    have : D.inner = ((Stmt.draw D).defs).dropLast := rfl
    rw [this, h1, List.dropLast_concat]
  rw [h1, List.nodup_append] at hn
  rw [h2]
  intro hc
  exact hn.2.2 _ hc _ (by simp) rfl

/-- Running a statement and the collapsed statement. -/
theorem run_agree (lat) (P : Nat → Prop) (st : Stmt) (env env' : Env ICell) (hag : ∀ x, ¬ P x → env' x = env x)
    (hn : st.defs.Nodup) (hu : ∀ x ∈ st.uses, ¬ P x) (hP : ∀ D, st = .draw D → D.name ≠ none → ∀ x ∈ D.inner, P x) :
    ∀ x, ¬ P x → st.collapse.run lat env' x = st.run lat env x := by
  intro x hx
  cases st with
  | det op ins outs =>
    have hr : ins.map (Propagate.read iOps env') = ins.map (Propagate.read iOps env) := by
      apply map_read_congr
      intro y hy
      obtain ⟨a, h1, h2⟩ := List.mem_map.1 hy
      exact hag y (hu y (List.mem_filterMap.2 ⟨a, h1, h2⟩))
    simp only [Stmt.collapse, Stmt.run, hr]
    rcases (ins.map (Propagate.read iOps env)).mapM id with _ | vs
    · exact hag x hx
    · exact putAll_agree _ _ _ _ _ (hag x hx)
  | tag n a => exact hag x hx
  | draw D =>
    rcases hD : D.name with _ | n
    · have hc : (Stmt.draw D).collapse = .draw D := by simp [Stmt.collapse, hD]
      rw [hc]
      simp only [Stmt.run]
      refine putChain_agree _ _ _ _ _ _ _ ?_ _ (hag x hx)
      intro y hy
      refine hag y (hu y ?_)
      simp only [Stmt.uses, List.filterMap_append, List.mem_append]
      exact .inr hy
    · have hc : (Stmt.draw D).collapse.run lat env' = put env' (lastVar D.value D.links) (D.given lat) := by
        simp [Stmt.collapse, hD, Stmt.run, putChain, Draw.given]
      rw [hc]
      simp only [Stmt.run]
      by_cases hl : x = lastVar D.value D.links
      · subst hl
        rw [put_same, putChain_last _ _ _ _ _ hn]
      · rw [put_ne _ _ hl, putChain_frame]
        · exact hag x hx
        · intro hd
          exact hx (hP D rfl (by simp [hD]) x (inner_mem hd hl))

theorem Draw.at_congr (D : Draw) (env env' : Env ICell) (c : ICell) (h : ∀ x ∈ (Stmt.draw D).uses, env x = env' x) :
    D.at env c = D.at env' c := by
  simp only [Draw.at]
  rw [map_read_congr iOps _ env env', chainCell_congr env env']
  · intro x hx
    refine h x ?_
    simp only [Stmt.uses, List.filterMap_append, List.mem_append]
    exact .inr hx
  · intro x hx
    refine h x ?_
    obtain ⟨a, h1, h2⟩ := List.mem_map.1 hx
    simp only [Stmt.uses, List.filterMap_append, List.mem_append]
    exact .inl (List.mem_filterMap.2 ⟨a, List.mem_of_mem_drop (List.mem_of_mem_drop h1), h2⟩)

theorem nterms_eq (lat) (P : Nat → Prop) (body : List Stmt) (env env' : Env ICell) (hag : ∀ x, ¬ P x → env' x = env x)
    (hsc : Scoped body) (hn : (body.flatMap Stmt.defs).Nodup) (hu : ∀ st ∈ body, ∀ x ∈ st.uses, ¬ P x)
    (hP : ∀ D, Stmt.draw D ∈ body → D.name ≠ none → ∀ x ∈ D.inner, P x) :
    (body.flatMap Stmt.calls).filterMap (nTerm (runAll lat env' (body.map Stmt.collapse))) = terms lat env body := by
  induction body generalizing env env' with
  | nil => rfl
  | cons st body ih =>
    simp only [List.flatMap_cons] at hn
    rw [List.nodup_append] at hn
    have hag' := run_agree lat P st env env' hag hn.1 (hu st (by simp)) (fun D hD => hP D (by simp [hD]))
    simp only [List.flatMap_cons, List.filterMap_append, terms, List.map_cons, runAll]
    rw [ih (st.run lat env) (st.collapse.run lat env') hag' hsc.2 hn.2.1 (fun s hs => hu s (by simp [hs]))
      (fun D hD => hP D (by simp [hD]))]
    congr 1
    have hcd := (collapse_flat_defs body).subset
    -- what is used by the statement is what it was before
    have huse : ∀ x ∈ st.uses, runAll lat (st.collapse.run lat env') (body.map Stmt.collapse) x = env x := by
      intro x hx
      have h1 := hsc.1 x hx
      simp only [List.mem_append, not_or] at h1
      rw [runAll_frame _ _ _ _ (fun hc => h1.2 (hcd hc)), st.collapse.run_frame _ _ _ (fun hc => h1.1 ((collapse_defs st).subset hc))]
      exact hag x (hu st (by simp) x hx)
    have hdef : ∀ x ∈ st.defs, runAll lat (st.collapse.run lat env') (body.map Stmt.collapse) x = st.collapse.run lat env' x := by
      intro x hx
      exact runAll_frame _ _ _ _ (fun hc => hn.2.2 x hx x (hcd hc) rfl)
    generalize runAll lat (st.collapse.run lat env') (body.map Stmt.collapse) = G at huse hdef
    cases st with
    | det op ins outs => rfl
    | tag n a => rfl
    | draw D =>
      rcases hD : D.name with _ | n
      · have hc : (Stmt.draw D).collapse = .draw D := by simp [Stmt.collapse, hD]
        rw [hc] at hdef
        have hq : (Stmt.draw D).calls = (Stmt.draw D).eqns.map fun q => (NOp.flat q.1, q.2) := by simp [Stmt.calls, hD]
        rw [hq, List.filterMap_map]
        show (Stmt.draw D).eqns.filterMap (rvTerm G) = _
        simp only [Stmt.eqns]
        rw [List.filterMap_cons, linkEqns_terms]
        have hv : G D.value = chainCell env D.links (D.given lat) := by
          rw [hdef _ (by simp [Stmt.defs])]
          simp only [Stmt.run]
          rw [putChain_head]
          refine chainCell_congr _ _ _ _ ?_
          intro y hy
          refine hag y (hu _ List.mem_cons_self y ?_)
          simp only [Stmt.uses, List.filterMap_append, List.mem_append]
          exact .inr hy
        rw [draw_term lat env G D huse hv]
      · have hq : (Stmt.draw D).calls = [(.call D, D.invars.map .var, [.var (lastVar D.value D.links)])] := by
          simp [Stmt.calls, hD]
        have hl : G (lastVar D.value D.links) = D.given lat := by
          rw [hdef _ (last_mem _ _)]
          simp [Stmt.collapse, hD, Stmt.run, putChain, Draw.given, put_same]
        rw [hq]
        simp only [List.filterMap_cons, List.filterMap_nil, nTerm]
        rw [hl, D.at_congr G env _ huse]
        rfl

/-! ### The value of the program with all equations -/

theorem rvRule_state (G : Env ICell) (nc d) (ins outs : List (Atom F)) :
    (match (exec iOps G (peqn (.rv nc d, ins, outs))).2.2.2 with
      | none => some none
      | some l => some (some (addF l (ildjSum (outs.map (Propagate.read iOps G)))))) = rvTerm G (.rv nc d, ins, outs) := by
  simp only [exec, peqn, LOp.rule, rvRule, rvTerm, List.map_drop]
  rcases (((ins.map (Propagate.read iOps G)).drop nc).drop 1).mapM id with _ | ps
  · rfl
  · rcases (outs.map (Propagate.read iOps G)).mapM id with _ | vs <;> rfl

/-- The reduction at the end of a complete run. -/
theorem nest_finish {rules} (h : S.WF) (hr : RulesFor rules S) (hT : S.NoTags) (latents : List (String × F)) (args : List F)
    (hl : args.length = S.args.length) (hn : S.names.Nodup) (hk : (latents.map (·.1)).Perm S.names)
    (hL : S.Local) (s0 s : St ICell (Option (Option F)))
    (h0 : Init iOps ((S.nwhole []).jaxpr rules) [] (none :: args.map fun a => some (a, some 0))
      (((sortByKey latents).map (·.2)).map fun y => some (y, some 0)) s0)
    (hst : Steps iOps ((S.nwhole []).jaxpr rules) s0 s) (hq : s.queue = []) :
    nFinish (S.nwhole []) s = ((terms (dict latents) (argEnv S.args args) S.body).mapM id).map sumF := by
  have hC := collapse_wf h
  have hCT := collapse_noTags hT
  have hCn : S.collapse.names = S.names := by rw [Source.names, collapse_all_sown]; rfl
  have hlat : ∀ n ∈ S.collapse.names, dict latents n ≠ none := by
    intro n hn'
    rw [hCn] at hn'
    obtain ⟨⟨k, v⟩, h1, rfl⟩ := List.mem_map.1 (hk.symm.subset hn')
    rw [lookup_of_mem (hk.nodup_iff.2 hn) h1]; simp
  have hsys := System.alike (alike_prog h hr []) (system hC hCT [] (dict latents) args hl hlat)
  have hsz := nwhole_sized h hr []
  obtain ⟨c0, hc0⟩ := init_exists (S.collapse.whole []).jaxpr [] (none :: args.map (fun a => some (a, some 0)))
    ((([] : List F) ++ (sortByKey latents).map (·.2)).map (fun y => some (y, some 0)))
  obtain ⟨i1, i2⟩ := init_ok hC hCT [] [] latents args hl (by rw [hCn]; exact hn) (by rw [hCn]; exact hk)
    (by intro a ha; simp at ha) rfl c0 hc0
  have henv : s0.env = c0.env := by
    rw [h0.1, hc0.1, initEnv_eq _ rfl, initEnv_eq _ rfl]
    show (writeAll iOps _ (S.results []) _).1 = (writeAll iOps _ (S.collapse.results []) _).1
    simp only [Source.results, collapse_all_sown]
    rfl
  rw [← henv] at i1 i2
  have hG := (hsys.final hsz _ _ _ s0 s h0 i1 i2 hst).2 hq
  have hset := settled hsz hsys _ _ _ s0 s h0 i1 i2 hst
  rw [hq] at hset
  rw [nFinish_eq]
  · rw [hG]
    refine congrArg _ (congrArg _ ?_)
    refine nterms_eq (dict latents) (fun x => ∃ D, Stmt.draw D ∈ S.body ∧ x ∈ D.inner) S.body _ _ (fun x _ => rfl) h.order
      (WF.body h).1 ?_ (fun D hD _ x hx => ⟨D, hD, hx⟩)
    rintro st hst' x hx ⟨D, hD, hxi⟩
    exact hL st hst' x hx D (draws_mem.2 hD) hxi
  · intro q e he c
    have he' : ((S.nwhole []).jaxpr rules).eqns[e]? = some (neqn rules q) := by
      simp only [NProg.jaxpr, List.getElem?_map, he, Option.map_some]; rfl
    obtain ⟨st, h1, h2⟩ := List.mem_flatMap.1 (List.mem_of_getElem? he)
    have hflat : ∀ op, q.1 = .flat op → nReduce s.env q (some c) (s.states e).join =
        match nTerm s.env q with
        | none => some c
        | some t => t.map (addF c) := by
      intro op hop
      obtain ⟨o, ins, outs⟩ := q
      simp only at hop; subst hop
      cases op with
      | det op =>
        -- the state of a deterministic operation is `None`
        have hdet : (s.states e).join = none := by
          clear hset hG hq
          induction hst with
          | refl => rw [h0.2.2 e]; rfl
          | tail t u hss hst ih =>
            cases hst with
            | mk e' rest q1 q' hq1 he1 hp =>
              by_cases hee : e = e'
              · subst hee
                rw [he'] at he1; obtain rfl := Option.some.inj he1
                simp only [if_true]
                rfl
              · simp only [if_neg hee]; exact ih
        simp only [nReduce, nTerm, rvTerm, hdet]
      | rv nc d =>
        have hself : ∀ env, (exec iOps env (neqn rules (.flat (.rv nc d), ins, outs))).1 = env := by
          intro env
          rw [flat_exec]
          exact rv_exec_self env nc d ins outs
        have hmap : (exec iOps s.env (neqn rules (.flat (.rv nc d), ins, outs))).2.2.2 =
            (exec iOps s.env (peqn (.rv nc d, ins, outs))).2.2.2.map some := rfl
        have hrs := rvRule_state s.env nc d ins outs
        rcases hset e _ he' hself (by simp) with h3 | ⟨h3, h4⟩
        · rw [h3, hmap]
          simp only [nTerm]
          rw [← hrs]
          rcases (exec iOps s.env (peqn (.rv nc d, ins, outs))).2.2.2 with _ | l
          · rfl
          · simp [nReduce, addF_assoc]
        · rw [h3]
          have hnone : rvTerm s.env (.rv nc d, ins, outs) = some none := by
            have hmem : (NOp.flat (.rv nc d), ins, outs) ∈ (S.nwhole []).eqns := List.mem_of_getElem? he
            have hov : ∃ x, some x ∈ outs.map Atom.node := by
              have hm : ((.rv nc d, ins, outs) : LOp × _) ∈ st.eqns := by
                have hmm : ∀ qs : List (LOp × List (Atom F) × List (Atom F)),
                    ((NOp.flat (.rv nc d), ins, outs) : NOp × _) ∈ qs.map (fun q => (NOp.flat q.1, q.2)) → (.rv nc d, ins, outs) ∈ qs := by
                  intro qs hm
                  obtain ⟨⟨a, b⟩, h5, h6⟩ := List.mem_map.1 hm
                  simp only [Prod.mk.injEq, NOp.flat.injEq] at h6
                  obtain ⟨rfl, rfl⟩ := h6
                  exact h5
                cases st with
                | det op ins outs => exact hmm _ h2
                | tag n a => exact hmm _ h2
                | draw D =>
                  rcases hD : D.name with _ | n
                  · simp only [Stmt.calls, hD] at h2; exact hmm _ h2
                  · simp [Stmt.calls, hD] at h2
              exact prog_value (S := S) [] _ (List.mem_flatMap.2 ⟨st, h1, hm⟩) nc d rfl
            obtain ⟨x, hx⟩ := hov
            have hxn := h4 x ⟨_, he', by simp only [neqn, List.map_append, List.mem_append]; exact .inr hx⟩
            have hm : (outs.map (Propagate.read iOps s.env)).mapM id = none := by
              rcases hm : (outs.map (Propagate.read iOps s.env)).mapM id with _ | vs
              · rfl
              · exact absurd hxn ((mapM_read s.env outs).1 (by rw [hm]; rfl) x hx)
            simp only [rvTerm, hm]
            rcases ((List.drop 1 (List.drop nc ins)).map (Propagate.read iOps s.env)).mapM id with _ | ps <;> rfl
          simp only [nTerm, hnone]
          rfl
    rcases hop : q.1 with op | D
    · exact hflat op hop
    · -- a call
      have hcall : q = (.call D, D.invars.map .var, [.var (lastVar D.value D.links)]) ∧ st = .draw D ∧ D.name ≠ none := by
        have hmm : ∀ qs : List (LOp × List (Atom F) × List (Atom F)), q ∉ qs.map (fun q => (NOp.flat q.1, q.2)) := by
          intro qs hm
          obtain ⟨a, h5, h6⟩ := List.mem_map.1 hm
          rw [← h6] at hop; simp at hop
        cases st with
        | det op ins outs => exact absurd h2 (hmm _)
        | tag n a => exact absurd h2 (hmm _)
        | draw D' =>
          rcases hD : D'.name with _ | n
          · simp only [Stmt.calls, hD] at h2; exact absurd h2 (hmm _)
          · simp only [Stmt.calls, hD, List.mem_singleton] at h2
            subst h2
            simp only [NOp.call.injEq] at hop
            subst hop
            exact ⟨rfl, rfl, by simp [hD]⟩
      obtain ⟨rfl, rfl, hD⟩ := hcall
      have hce := call_exec (rules := rules) (defs_mem (WF.body h).1 _ h1) (scoped_mem h.order _ h1) (hr D h1 hD)
      rcases hset e _ he' (fun env => (hce env).1) (by simp) with h3 | ⟨h3, h4⟩
      · rw [h3, (hce s.env).2]
        simp only [nReduce, nTerm, Option.join]
        rcases D.at s.env (s.env (lastVar D.value D.links)) with _ | l
        · rfl
        · simp [addF_zero_right]
      · exfalso
        have := h4 (lastVar D.value D.links) ⟨_, he', by simp [neqn, Atom.node]⟩
        refine hsys.known (lastVar D.value D.links) (.inr ?_) (by rw [← hG]; exact this)
        rw [collapse_all_sown]
        obtain ⟨n, hDn⟩ := Option.ne_none_iff_exists'.1 hD
        exact ⟨n, List.mem_flatMap.2 ⟨_, h1, by simp [Stmt.sown, hDn]⟩⟩

end Verif.LogProb.Joint
