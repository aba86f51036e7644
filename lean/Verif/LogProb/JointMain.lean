import Verif.LogProb.JointProps

/-! C79: the theorems. -/
namespace Verif.LogProb.Joint

open Verif.Propagate Verif.Inverse

variable {S : Source}

theorem linkEqns_terms (G : Env ICell) (t ls) : (linkEqns t ls).filterMap (rvTerm G) = [] := by
  induction ls generalizing t with
  | nil => rfl
  | cons l ls ih =>
    obtain ⟨l, y⟩ := l
    rw [linkEqns, List.filterMap_cons, ih]
    cases l <;> rfl

theorem draw_term (lat) (env G : Env ICell) (D : Draw)
    (hu : ∀ x ∈ (Stmt.draw D).uses, G x = env x) (hv : G D.value = chainCell env D.links (D.given lat)) :
    rvTerm G (.rv D.numConsts D.logp, D.operands, [.var D.value]) = some (D.term lat env) := by
  have hr : ((D.operands.drop D.numConsts).drop 1).map (Propagate.read iOps G) =
      ((D.operands.drop D.numConsts).drop 1).map (Propagate.read iOps env) := by
    apply map_read_congr
    intro x hx
    refine hu x ?_
    obtain ⟨a, h1, h2⟩ := List.mem_map.1 hx
    simp only [Stmt.uses, List.filterMap_append, List.mem_append]
    exact .inl (List.mem_filterMap.2 ⟨a, List.mem_of_mem_drop (List.mem_of_mem_drop h1), h2⟩)
  simp only [rvTerm, Draw.term, hr, List.map_cons, List.map_nil, Propagate.read, hv]
  rcases (((D.operands.drop D.numConsts).drop 1).map (Propagate.read iOps env)).mapM id with _ | ps
  · simp
  · rcases chainCell env D.links (D.given lat) with _ | ⟨v, l⟩
    · simp
    · simp [ildjSum, addF_zero_left]

theorem terms_eq (lat) (body : List Stmt) (env : Env ICell) (hsc : Scoped body) (hn : (body.flatMap Stmt.defs).Nodup) :
    (body.flatMap Stmt.eqns).filterMap (rvTerm (runAll lat env body)) = terms lat env body := by
  induction body generalizing env with
  | nil => rfl
  | cons st body ih =>
    simp only [List.flatMap_cons] at hn
    rw [List.nodup_append] at hn
    simp only [List.flatMap_cons, List.filterMap_append, terms, runAll]
    rw [ih _ hsc.2 hn.2.1]
    congr 1
    cases st with
    | det op ins outs => rfl
    | tag n a => rfl
    | draw D =>
      have hdisj : ∀ x ∈ (Stmt.draw D).defs, x ∉ body.flatMap Stmt.defs := fun x hx hx' => hn.2.2 x hx x hx' rfl
      simp only [Stmt.eqns]
      rw [List.filterMap_cons, linkEqns_terms, draw_term lat env]
      · intro x hx
        have := hsc.1 x hx
        simp only [List.mem_append, not_or] at this
        rw [runAll_frame _ _ _ _ this.2, (Stmt.draw D).run_frame _ _ _ this.1]
      · rw [runAll_frame _ _ _ _ (hdisj _ (by simp [Stmt.defs]))]
        exact putChain_head _ _ _ _ _

theorem un_sized (p : Un) (i o : List ICell) (hi : i.length = 1) (ho : o.length = 1) :
    (unRule p i o).1.length = 1 ∧ (unRule p i o).2.1.length = 1 := by
  obtain ⟨c, rfl⟩ := List.length_eq_one_iff.1 hi
  obtain ⟨c', rfl⟩ := List.length_eq_one_iff.1 ho
  obtain _ | ⟨v, l⟩ := c <;> obtain _ | ⟨v', l'⟩ := c' <;> exact ⟨rfl, rfl⟩

theorem bin_sized (p : Bin) (i o : List ICell) (hi : i.length = 2) (ho : o.length = 1) :
    (binRule p i o).1.length = 2 ∧ (binRule p i o).2.1.length = 1 := by
  obtain ⟨c, d, rfl⟩ := List.length_eq_two.1 hi
  obtain ⟨c', rfl⟩ := List.length_eq_one_iff.1 ho
  obtain _ | ⟨v, l⟩ := c <;> obtain _ | ⟨w, k⟩ := d <;> obtain _ | ⟨v', l'⟩ := c' <;> exact ⟨rfl, rfl⟩

theorem linkEqns_sized (t ls) : ∀ q ∈ linkEqns t ls, ∀ i o : List ICell, i.length = q.2.1.length → o.length = q.2.2.length →
    (q.1.rule i o).1.length = q.2.1.length ∧ (q.1.rule i o).2.1.length = q.2.2.length := by
  induction ls generalizing t with
  | nil => simp [linkEqns]
  | cons l ls ih =>
    obtain ⟨l, y⟩ := l
    intro q hq
    rcases List.mem_cons.1 hq with rfl | hq
    · intro i o hi ho
      cases l with
      | un p => exact un_sized p i o hi ho
      | left p a => exact bin_sized p i o hi ho
      | right p a => exact bin_sized p i o hi ho
    · exact ih y q hq

theorem prog_sized (h : S.WF) (first) : Propagate.Sized (S.whole first).jaxpr := by
  intro q hq i o hi ho
  simp only [LProg.jaxpr, Source.whole, List.mem_map] at hq
  obtain ⟨r, hr, rfl⟩ := hq
  obtain ⟨st, h1, h2⟩ := List.mem_flatMap.1 hr
  have hs := h.sized st h1
  simp only at hi ho ⊢
  cases st with
  | tag n a => simp [Stmt.eqns] at h2
  | draw D =>
    rcases List.mem_cons.1 h2 with rfl | h2
    · simp only [LOp.rule, rvRule]
      split <;> exact ⟨hi, ho⟩
    · exact linkEqns_sized _ _ r h2 i o hi ho
  | det op ins outs =>
    simp only [Stmt.eqns, List.mem_singleton] at h2
    subst h2
    simp only [List.length_map] at hi ho ⊢
    obtain ⟨hl, hm⟩ := hs.2 (List.replicate ins.length none) (by simp)
    simp only [LOp.rule]
    cases op with
    | un p =>
      simp only at hm
      rw [hm] at hl hi ⊢
      have hl' : outs.length = 1 := by simpa [Op.eval] using hl.symm
      rw [hl'] at ho ⊢
      exact un_sized p i o hi ho
    | bin p =>
      simp only at hm
      rw [hm] at hl hi ⊢
      have hl' : outs.length = 1 := by simpa [Op.eval, List.replicate] using hl.symm
      rw [hl'] at ho ⊢
      exact bin_sized p i o hi ho
    | other g =>
      simp only [Op.rule, defRule]
      split
      · rcases hmm : i.mapM id with _ | vs
        · exact ⟨hi, ho⟩
        · refine ⟨hi, ?_⟩
          simp only [List.length_map]
          have := mapM_id_length _ _ hmm
          exact (hs.2 (vs.map (·.1)) (by simp [this, hi])).1
      · split <;> exact ⟨hi, ho⟩

theorem prog_value (first) : HasValue (S.whole first) := by
  intro q hq nc d hd
  obtain ⟨st, h1, h2⟩ := List.mem_flatMap.1 hq
  have hlink : ∀ t ls, q ∉ linkEqns t ls := by
    intro t ls hc
    induction ls generalizing t with
    | nil => simp [linkEqns] at hc
    | cons l ls ih =>
      obtain ⟨l, y⟩ := l
      rcases List.mem_cons.1 hc with rfl | hc
      · cases l <;> simp [Link.eqn] at hd
      · exact ih y hc
  cases st with
  | tag n a => simp [Stmt.eqns] at h2
  | draw D =>
    rcases List.mem_cons.1 h2 with rfl | h2
    · exact ⟨D.value, by simp [Atom.node]⟩
    · exact absurd h2 (hlink _ _)
  | det op ins outs =>
    simp only [Stmt.eqns, List.mem_singleton] at h2
    subst h2; simp at hd

/-! ### The initial cells -/

theorem writeAll_sub (G env : Env ICell) (as : List (Atom F)) (cs : List ICell)
    (henv : ∀ x, env x = none ∨ env x = G x)
    (h : ∀ (i x : Nat) (c : ICell), as[i]? = some (.var x) → cs[i]? = some c → c = none ∨ c = G x) (x : Nat) :
    (writeAll iOps env as cs).1 x = none ∨ (writeAll iOps env as cs).1 x = G x := by
  induction as generalizing env cs with
  | nil => cases cs <;> exact henv x
  | cons a as ih =>
    obtain _ | ⟨c, cs⟩ := cs
    · exact henv x
    · simp only [writeAll]
      refine ih _ _ ?_ (fun i x c h1 h2 => h (i + 1) x c (by simpa using h1) (by simpa using h2))
      intro y
      cases a with
      | lit v => exact henv y
      | drop z => exact henv y
      | var z =>
        by_cases hy : y = z
        · subst hy
          have := h 0 y c (by simp) (by simp)
          simp only [write, iOps, if_true]
          split
          · exact this
          · exact henv y
        · simp only [write, hy, if_false]; exact henv y

theorem writeAll_hit (env : Env ICell) (as : List (Atom F)) (cs : List ICell) (i x : Nat) (c : F × F)
    (h1 : as[i]? = some (.var x)) (h2 : cs[i]? = some (some c)) : (writeAll iOps env as cs).1 x ≠ none := by
  induction as generalizing env cs i with
  | nil => simp at h1
  | cons a as ih =>
    obtain _ | ⟨b, cs⟩ := cs
    · simp at h2
    · simp only [writeAll]
      cases i with
      | zero =>
        simp only [List.getElem?_cons_zero, Option.some.injEq] at h1 h2
        subst h1 h2
        refine top_writeAll _ _ _ _ ?_
        simp [write, iOps]
      | succ i => exact ih _ _ i (by simpa using h1) (by simpa using h2)

theorem init_env {J : Jaxpr ICell F (Option F)} (hc : J.constvars = []) (ins outs : List ICell) (G : Env ICell)
    (h1 : ∀ (i x : Nat) (c : ICell), J.invars[i]? = some (.var x) → ins[i]? = some c → c = none ∨ c = G x)
    (h2 : ∀ (i x : Nat) (c : ICell), J.outvars[i]? = some (.var x) → outs[i]? = some c → c = none ∨ c = G x) :
    (∀ x, initEnv iOps J [] ins outs x = none ∨ initEnv iOps J [] ins outs x = G x) ∧
    (∀ (i x : Nat) (c : F × F), J.invars[i]? = some (.var x) → ins[i]? = some (some c) → initEnv iOps J [] ins outs x ≠ none) ∧
    (∀ (i x : Nat) (c : F × F), J.outvars[i]? = some (.var x) → outs[i]? = some (some c) → initEnv iOps J [] ins outs x ≠ none) := by
  have hunk : ∀ (as : List (Atom F)) (i x : Nat) (c : ICell) (env0 : Env ICell), as[i]? = some (.var x) →
      (as.map (fun a => match a.node with | some x => iOps.unknown x | none => Propagate.read iOps env0 a))[i]? = some c → c = none := by
    intro as i x c env0 ha hcs
    rw [List.getElem?_map, ha] at hcs
    simp only [Option.map_some, Atom.node, iOps, Option.some.injEq] at hcs
    exact hcs.symm
  refine ⟨?_, ?_, ?_⟩
  · refine writeAll_sub G _ _ _ ?_ (fun i x c ha hcs => .inl (hunk _ i x c _ ha hcs))
    refine writeAll_sub G _ _ _ ?_ h2
    refine writeAll_sub G _ _ _ ?_ h1
    rw [hc]
    intro x; exact .inl rfl
  · intro i x c ha hcs
    exact top_writeAll _ _ _ _ (top_writeAll _ _ _ _ (writeAll_hit _ _ _ i x c ha hcs))
  · intro i x c ha hcs
    exact top_writeAll _ _ _ _ (writeAll_hit _ _ _ i x c ha hcs)

/-- The atoms that `trace` returns in addition may be constants, arguments and named random variables. -/
def GivenOuts (S : Source) (first : List (Atom F)) : Prop :=
  ∀ a ∈ first, (∃ v, a = .lit v) ∨ ∃ x, a = .var x ∧ S.Root x

theorem init_ok (h : S.WF) (hT : S.NoTags) (first : List (Atom F)) (obs : List F) (latents : List (String × F)) (args : List F)
    (hl : args.length = S.args.length) (hn : S.names.Nodup) (hk : (latents.map (·.1)).Perm S.names)
    (hf : GivenOuts S first)
    (ho : first.map (Propagate.read iOps (S.final (dict latents) args)) = obs.map fun v => some (v, some 0))
    (s0 : St ICell (Option F))
    (h0 : Init iOps (S.whole first).jaxpr [] (none :: args.map (fun a => some (a, some 0)))
      ((obs ++ (sortByKey latents).map (·.2)).map (fun y => some (y, some 0))) s0) :
    (∀ x, S.Root x → s0.env x = S.final (dict latents) args x) ∧ (∀ x, ¬ S.Root x → s0.env x = none) := by
  obtain ⟨hb1, hb2, hb3, hb4, hb5⟩ := WF.body h
  set G := S.final (dict latents) args with hG
  have hlen : obs.length = first.length := by
    have := congrArg List.length ho
    simpa using this.symm
  have hargs := final_args h (dict latents) args hl
  have hsys := system h hT first (dict latents) args hl (by
    intro n hn'
    obtain ⟨⟨k, v⟩, h1, rfl⟩ := List.mem_map.1 (hk.symm.subset hn')
    rw [lookup_of_mem (hk.nodup_iff.2 hn) h1]; simp)
  have hkeys := sortByKey_keys latents (S.body.flatMap Stmt.sown) hk
  have hnone : ∀ x ∈ S.body.flatMap Stmt.defs, argEnv S.args args x = none := by
    intro x hx
    rw [argEnv, putAll_frame]
    exact fun hc => hb3 x hc hx
  have heqs := runAll_eqs (dict latents) S.body (argEnv S.args args) h.sized h.order hb1 hnone
  -- the leaf of a named random variable is its value
  have hnamed : ∀ (i x : Nat) (n : String), (sortByKey (S.body.flatMap Stmt.sown))[i]? = some (n, .var x) →
      ∃ v, (sortByKey latents)[i]? = some (n, v) ∧ G x = some (v, some 0) := by
    intro i x n hi
    have h1 : ((sortByKey latents).map (·.1))[i]? = some n := by
      rw [hkeys, List.getElem?_map, hi]; rfl
    rw [List.getElem?_map, Option.map_eq_some_iff] at h1
    obtain ⟨⟨k, v⟩, h2, rfl⟩ := h1
    refine ⟨v, h2, ?_⟩
    have hm : (k, v) ∈ latents := (sortByKey_perm latents).subset (List.mem_of_getElem? h2)
    have hlk := lookup_of_mem (hk.nodup_iff.2 hn) hm
    have hsm := (sortByKey_perm _).subset (List.mem_of_getElem? hi)
    obtain ⟨st, h3, h4⟩ := List.mem_flatMap.1 hsm
    cases st with
    | det op ins outs => simp [Stmt.sown] at h4
    | tag m a => exact absurd rfl (hT _ h3 m a)
    | draw D =>
      rcases hD : D.name with _ | m
      · simp [Stmt.sown, hD] at h4
      · simp [Stmt.sown, hD] at h4
        obtain ⟨rfl, rfl⟩ := h4
        have := chainEq_last _ _ _ _ (heqs _ h3)
        rw [hG, Source.final, this]
        simp [Draw.given, hD, hlk]
  obtain ⟨i1, i2, i3⟩ := init_env (J := (S.whole first).jaxpr) rfl (none :: args.map (fun a => some (a, some 0)))
    ((obs ++ (sortByKey latents).map (·.2)).map (fun y => some (y, some 0))) G (by
      intro i x c ha hcs
      cases i with
      | zero => simp at hcs; exact .inl hcs.symm
      | succ i =>
        right
        have ha' : (S.args.map Atom.var)[i]? = some (Atom.var x : Atom F) := by simpa [LProg.jaxpr, Source.whole, Source.results] using ha
        have hcs' : (args.map (fun a => (some (a, some 0) : ICell)))[i]? = some c := by simpa using hcs
        rw [← hargs, List.getElem?_map] at hcs'
        rw [List.getElem?_map] at ha'
        obtain ⟨y, h5, h6⟩ := Option.map_eq_some_iff.1 ha'
        rw [h5] at hcs'
        simp only [Atom.var.injEq] at h6; subst h6
        simpa using hcs'.symm) (by
      intro i x c ha hcs
      right
      have ha' : (first ++ (sortByKey (S.body.flatMap Stmt.sown)).map (·.2))[i]? = some (Atom.var x) := ha
      by_cases hi : i < first.length
      · rw [List.getElem?_append_left hi] at ha'
        rw [List.map_append, List.getElem?_append_left (by simpa [hlen] using hi), ← ho, List.getElem?_map, ha'] at hcs
        simpa [Propagate.read] using hcs.symm
      · rw [List.getElem?_append_right (by omega)] at ha'
        rw [List.map_append, List.getElem?_append_right (by simpa [hlen] using hi)] at hcs
        simp only [List.length_map, hlen] at hcs
        rw [List.getElem?_map] at ha'
        obtain ⟨⟨n, a⟩, h5, h6⟩ := Option.map_eq_some_iff.1 ha'
        simp only at h6; subst h6
        obtain ⟨v, h7, h8⟩ := hnamed _ x n h5
        rw [List.map_map, List.getElem?_map, h7] at hcs
        simp only [Option.map_some, Function.comp, Option.some.injEq] at hcs
        rw [h8, ← hcs])
  rw [← h0.1] at i1 i2 i3
  have hroot : ∀ x, S.Root x → s0.env x ≠ none := by
    rintro x (hx | ⟨n, hx⟩)
    · obtain ⟨i, hi⟩ := List.mem_iff_getElem?.1 hx
      have hlt : i < args.length := by rw [hl]; exact (List.getElem?_eq_some_iff.1 hi).1
      refine i2 (i + 1) x (args[i], some 0) ?_ ?_
      · simp [LProg.jaxpr, Source.whole, Source.results, hi]
      · simp [hlt]
    · obtain ⟨i, hi⟩ := List.mem_iff_getElem?.1 ((sortByKey_perm _).symm.subset hx)
      obtain ⟨v, h7, h8⟩ := hnamed i x n hi
      refine i3 (first.length + i) x (v, some 0) ?_ ?_
      · show (first ++ (sortByKey (S.body.flatMap Stmt.sown)).map (·.2))[first.length + i]? = _
        rw [List.getElem?_append_right (by omega)]
        simp [hi]
      · rw [List.map_append, List.getElem?_append_right (by simp [hlen])]
        simp [hlen, h7]
  refine ⟨fun x hx => ?_, fun x hx => ?_⟩
  · rcases i1 x with h5 | h5
    · exact absurd h5 (hroot x hx)
    · exact h5
  · by_contra hc
    have hmem := initEnv_known (S.whole first).jaxpr _ _ _ x (by rw [← h0.1]; exact hc)
    have hGx : G x ≠ none := by
      rcases i1 x with h5 | h5
      · exact absurd h5 hc
      · rw [← h5]; exact hc
    simp only [List.map_append, List.mem_append] at hmem
    rcases hmem with (hmem | hmem) | hmem
    · obtain ⟨a, h5, h6⟩ := List.mem_map.1 hmem
      have h5' : a ∈ first ++ (sortByKey (S.body.flatMap Stmt.sown)).map (·.2) := h5
      rcases List.mem_append.1 h5' with h7 | h7
      · rcases hf a h7 with ⟨v, rfl⟩ | ⟨y, rfl, hy⟩
        · simp [Atom.node] at h6
        · simp only [Atom.node, Option.some.injEq] at h6; subst h6; exact hx hy
      · obtain ⟨⟨n, b⟩, h8, rfl⟩ := List.mem_map.1 h7
        have hsm := (sortByKey_perm _).subset h8
        obtain ⟨st, h3, h4⟩ := List.mem_flatMap.1 hsm
        have hvar : ∃ y, b = .var y := by
          cases st with
          | det op ins outs => simp [Stmt.sown] at h4
          | tag m a => exact absurd rfl (hT _ h3 m a)
          | draw D =>
            rcases hD : D.name with _ | m
            · simp [Stmt.sown, hD] at h4
            · simp [Stmt.sown, hD] at h4; exact ⟨_, h4.2⟩
        obtain ⟨y, rfl⟩ := hvar
        simp only [Atom.node, Option.some.injEq] at h6; subst h6
        exact hx (.inr ⟨n, hsm⟩)
    · obtain ⟨a, h5, h6⟩ := List.mem_map.1 hmem
      have h5' : a ∈ Atom.var S.key :: S.args.map Atom.var := h5
      rcases List.mem_cons.1 h5' with rfl | h7
      · simp only [Atom.node, Option.some.injEq] at h6; subst h6
        apply hGx
        rw [hG, Source.final, runAll_frame _ _ _ _ hb5, argEnv, putAll_frame _ _ _ _ hb4]
      · obtain ⟨y, hy, rfl⟩ := List.mem_map.1 h7
        simp only [Atom.node, Option.some.injEq] at h6; subst h6
        exact hx (.inl hy)
    · simp [LProg.jaxpr] at hmem

/-- `log_prob` of the jaxpr with all equations. -/
theorem whole_value (h : S.WF) (hT : S.NoTags) (first : List (Atom F)) (obs : List F) (latents : List (String × F)) (args : List F)
    (hl : args.length = S.args.length) (hn : S.names.Nodup) (hk : (latents.map (·.1)).Perm S.names)
    (hf : GivenOuts S first)
    (ho : first.map (Propagate.read iOps (S.final (dict latents) args)) = obs.map fun v => some (v, some 0))
    (res : Except JErr F) :
    (∃ r, LogProbRun (S.whole first) args (obs ++ (sortByKey latents).map (·.2)) r ∧
      res = match r with
        | none => .error .cannot
        | some v => .ok v) ↔ res = S.joint (dict latents) args := by
  have hlat : ∀ n ∈ S.names, dict latents n ≠ none := by
    intro n hn'
    obtain ⟨⟨k, v⟩, h1, rfl⟩ := List.mem_map.1 (hk.symm.subset hn')
    rw [lookup_of_mem (hk.nodup_iff.2 hn) h1]; simp
  have hsz := prog_sized h first
  have hsys := system h hT first (dict latents) args hl hlat
  have hval : ∀ s0 s, Init iOps (S.whole first).jaxpr [] (none :: args.map (fun a => some (a, some 0)))
      ((obs ++ (sortByKey latents).map (·.2)).map (fun y => some (y, some 0))) s0 →
      Steps iOps (S.whole first).jaxpr s0 s → s.queue = [] →
      lpFinish (S.whole first) s = ((terms (dict latents) (argEnv S.args args) S.body).mapM id).map sumF := by
    intro s0 s h0 hst hq
    obtain ⟨i1, i2⟩ := init_ok h hT first obs latents args hl hn hk hf ho s0 h0
    rw [hsys.log_prob (S.whole first) hsz (prog_value first) args _ s0 s h0 i1 i2 hst hq]
    rw [← terms_eq (dict latents) S.body (argEnv S.args args) h.order (WF.body h).1]
    rfl
  constructor
  · rintro ⟨r, ⟨s0, s, h0, hst, hq, rfl⟩, rfl⟩
    rw [hval s0 s h0 hst hq]
    simp only [Source.joint]
    rcases (terms (dict latents) (argEnv S.args args) S.body).mapM id with _ | ts <;> rfl
  · rintro rfl
    obtain ⟨s0, h0⟩ := init_exists (S.whole first).jaxpr [] (none :: args.map (fun a => some (a, some 0)))
      ((obs ++ (sortByKey latents).map (·.2)).map (fun y => some (y, some 0)))
    obtain ⟨s, hst, hqe⟩ := propagate_completes iOps (S.whole first).jaxpr hsz (fun c => if c.isSome then 0 else 1)
      (by intro a b; cases a <;> cases b <;> simp [iOps])
      (by intro a b; cases a <;> cases b <;> simp [iOps]) _ _ _ s0 s0 h0 (.refl _)
    refine ⟨_, ⟨s0, s, h0, hst, hqe, rfl⟩, ?_⟩
    rw [hval s0 s h0 hst hqe]
    simp only [Source.joint]
    rcases (terms (dict latents) (argEnv S.args args) S.body).mapM id with _ | ts <;> rfl

end Verif.LogProb.Joint
