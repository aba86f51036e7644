import Verif.LogProb.JointDoLive

/-! C82: running the planted program. -/
namespace Verif.LogProb.Joint

open Verif.Propagate Verif.Inverse

variable {obs : String → Option (Atom F)} {extra : List Nat}

/-- The environments of the planted program (`env'`) and of the program (`env`) agree, through `σ`. -/
def Agree (H : Nat → Prop) (σ : Nat → Atom F) (env' env : Env ICell) : Prop :=
  ∀ x, ¬ H x → Propagate.read iOps env' (σ x) = env x

theorem Agree.read {H σ env' env} (h : Agree H σ env' env) (a : Atom F) (ha : ∀ x ∈ vars [a], ¬ H x) :
    Propagate.read iOps env' (replace σ a) = Propagate.read iOps env a := by
  cases a with
  | lit c => rfl
  | var x => exact h x (ha x (by simp [vars, Atom.node]))
  | drop x => exact h x (ha x (by simp [vars, Atom.node]))

theorem Agree.reads {H σ env' env} (h : Agree H σ env' env) (as : List (Atom F)) (ha : ∀ x ∈ vars as, ¬ H x) :
    (as.map (replace σ)).map (Propagate.read iOps env') = as.map (Propagate.read iOps env) := by
  rw [List.map_map]
  refine List.map_congr_left fun a hm => h.read a fun x hx => ha x ?_
  obtain ⟨b, h1, h2⟩ := List.mem_filterMap.1 hx
  rw [List.mem_singleton] at h1
  subst h1
  exact List.mem_filterMap.2 ⟨b, hm, h2⟩

theorem read_put_ne (env : Env ICell) (x : Nat) (c : ICell) (a : Atom F) (h : a.node ≠ some x) :
    Propagate.read iOps (put env x c) a = Propagate.read iOps env a := by
  cases a with
  | lit v => rfl
  | var y => simp only [Propagate.read, put]; rw [if_neg]; rintro rfl; exact h rfl
  | drop y => simp only [Propagate.read, put]; rw [if_neg]; rintro rfl; exact h rfl

/-- The variable of what `y` stands for is `y` or a further argument. -/
theorem Stands.node {σ : Nat → Atom F} (h : Stands extra σ) {x y : Nat} (hxe : x ∉ extra) (hne : y ≠ x) : (σ y).node ≠ some x := by
  intro hc
  rcases h y with e | ⟨c, e⟩ | ⟨e, he, e'⟩
  · rw [e] at hc; simp only [Atom.node, Option.some.injEq] at hc; exact hne hc
  · rw [e] at hc; simp [Atom.node] at hc
  · rw [e'] at hc; simp only [Atom.node, Option.some.injEq] at hc; subst hc; exact hxe he

theorem Agree.put {H σ env' env} (h : Agree H σ env' env) (hσ : Stands extra σ) (x : Nat) (hx : σ x = .var x) (hxe : x ∉ extra)
    (c : ICell) : Agree H σ (put env' x c) (put env x c) := by
  intro y hy
  by_cases hyx : y = x
  · subst hyx; simp [hx, Propagate.read, Joint.put]
  · rw [read_put_ne _ _ _ _ (hσ.node hxe hyx), h y hy]
    simp [Joint.put, hyx]

theorem Agree.putAll (xs : List Nat) : ∀ {H σ env' env}, Agree H σ env' env → Stands extra σ →
    (∀ x ∈ xs, σ x = .var x ∧ x ∉ extra) → ∀ cs : List ICell, Agree H σ (putAll env' xs cs) (putAll env xs cs) := by
  induction xs with
  | nil => intro H σ env' env h _ _ cs; cases cs <;> exact h
  | cons x xs ih =>
    intro H σ env' env h hσ hx cs
    cases cs with
    | nil => exact h
    | cons c cs =>
      exact ih (h.put hσ x (hx x List.mem_cons_self).1 (hx x List.mem_cons_self).2 c) hσ
        (fun y hy => hx y (List.mem_cons_of_mem _ hy)) cs

theorem Agree.fold (xs : List Nat) : ∀ {H σ env' env}, Agree H σ env' env → ∀ cs : List F,
    Agree H (bindAll σ xs cs) env' (Joint.putAll env xs (cs.map fun c => some (c, some 0))) := by
  induction xs with
  | nil => intro H σ env' env h cs; cases cs <;> exact h
  | cons x xs ih =>
    intro H σ env' env h cs
    cases cs with
    | nil => exact h
    | cons c cs =>
      refine ih (fun y hy => ?_) cs
      simp only [Joint.bind1, Joint.put]
      split
      · rfl
      · exact h y hy

theorem Agree.chain {H σ env' env} (h : Agree H σ env' env) (ls : List (Link × Nat)) (c : ICell)
    (ha : ∀ x ∈ vars (ls.flatMap fun l => l.1.operand), ¬ H x) :
    chainCell env' (ls.map fun l => (l.1.replace σ, l.2)) c = chainCell env ls c := by
  induction ls with
  | nil => rfl
  | cons p ls ih =>
    obtain ⟨l, y⟩ := p
    rw [List.flatMap_cons, vars_append] at ha
    have ih := ih fun x hx => ha x (List.mem_append_right _ hx)
    simp only [List.map_cons, chainCell, ih]
    cases l with
    | un p => rfl
    | left p a =>
      simp only [Link.replace, Link.back]
      rw [h.read a fun x hx => ha x (List.mem_append_left _ hx)]
    | right p a =>
      simp only [Link.replace, Link.back]
      rw [h.read a fun x hx => ha x (List.mem_append_left _ hx)]

theorem Agree.putChain {H σ env' env} (h0 : Agree H σ env' env) (hσ : Stands extra σ) (ls : List (Link × Nat)) :
    ∀ (t : Nat) (c : ICell) {e' e : Env ICell}, Agree H σ e' e → (∀ x ∈ t :: ls.map (·.2), σ x = .var x ∧ x ∉ extra) →
    (∀ x ∈ vars (ls.flatMap fun l => l.1.operand), ¬ H x) →
    Agree H σ (putChain env' t (ls.map fun l => (l.1.replace σ, l.2)) c e') (putChain env t ls c e) := by
  induction ls with
  | nil =>
    intro t c e' e h hx _
    exact h.put hσ t (hx t List.mem_cons_self).1 (hx t List.mem_cons_self).2 c
  | cons p ls ih =>
    intro t c e' e h hx ha
    have hch := h0.chain (p :: ls) c ha
    rw [List.flatMap_cons, vars_append] at ha
    have := (ih p.2 c h (fun x hm => hx x (List.mem_cons_of_mem _ hm)) fun x hm => ha x (List.mem_append_right _ hm)).put hσ t
      (hx t List.mem_cons_self).1 (hx t List.mem_cons_self).2 (chainCell env (p :: ls) c)
    simp only [List.map_cons, Joint.putChain]
    rw [List.map_cons] at hch
    rw [hch]
    exact this

theorem mapM_constant (as : List (Atom F)) : ∀ cs, as.mapM constant = some cs → as = cs.map .lit := by
  induction as with
  | nil => intro cs h; simp at h; subst h; rfl
  | cons a as ih =>
    intro cs h
    rw [List.mapM_cons] at h
    cases a with
    | var x => simp [constant] at h
    | drop x => simp [constant] at h
    | lit c =>
      rcases hm : as.mapM constant with _ | bs
      · simp [constant, hm] at h
      · simp only [constant, hm, Option.bind_eq_bind, Option.bind_some, Option.pure_def, Option.some.injEq] at h
        subst h
        rw [List.map_cons, ← ih bs hm]

theorem read_lits (env : Env ICell) (cs : List F) :
    ((cs.map Atom.lit).map (Propagate.read iOps env)).mapM id = some (cs.map fun c => (c, some 0)) := by
  induction cs with
  | nil => rfl
  | cons c cs ih =>
    rw [List.map_cons, List.map_cons, List.mapM_cons, ih]
    rfl

theorem namedTerms_plant (all : List Stmt) (hn : (all.flatMap Stmt.defs).Nodup) (hp : Plants extra obs)
    (he : ∀ e ∈ extra, e ∉ all.flatMap Stmt.defs)
    (hl : ∀ st ∈ all, ∀ x ∈ st.uses, ∀ D ∈ draws all, x ∉ D.inner)
    (hf : ∀ st ∈ all, ∀ x ∈ st.uses, x ∉ extra) (hnm : ∀ D ∈ draws all, D.name ≠ none)
    (given : List String) (hg : ∀ n, n ∈ given ↔ obs n ≠ none) (lat lat' : String → Option F) (base : Env ICell)
    (h1 : ∀ n a, obs n = some a → ∃ v, lat' n = some v ∧ Propagate.read iOps base a = some (v, some 0))
    (h2 : ∀ n, obs n = none → lat' n = lat n)
    (body : List Stmt) : ∀ pre, all = pre ++ body → ∀ σ env' env, Stands extra σ →
    (∀ x ∈ body.flatMap Stmt.defs, σ x = .var x) → (∀ e ∈ extra, env' e = base e) → Agree (fun x => Hidden obs all x ∨ x ∈ extra) σ env' env →
    namedTerms lat env' (plantBody obs σ body).1 = termsWithout given lat' env body := by
  induction body with
  | nil => intro pre _ σ env' env _ _ _ _; rfl
  | cons st rest ih =>
    intro pre hall σ env' env hσ hv hb ha
    have ih := ih (pre ++ [st]) (by rw [hall]; simp)
    have hst : st ∈ all := by rw [hall]; simp
    have hxd : ∀ x ∈ st.defs, σ x = .var x ∧ x ∉ extra := by
      intro x hx
      refine ⟨hv x ?_, fun hc => he x hc (defs_disjoint hst x hx)⟩
      rw [List.flatMap_cons]; exact List.mem_append_left _ hx
    have hv' : ∀ x ∈ rest.flatMap Stmt.defs, σ x = .var x := fun x hx => hv x (by
      rw [List.flatMap_cons]; exact List.mem_append_right _ hx)
    have hdisj : ∀ x ∈ rest.flatMap Stmt.defs, x ∉ st.defs := by
      rw [hall, List.flatMap_append, List.nodup_append, List.flatMap_cons, List.nodup_append] at hn
      exact fun x hx hc => hn.2.1.2.2 x hc x hx rfl
    have hnd : st.defs.Nodup := defs_mem hn st hst
    have hu : ∀ x ∈ st.uses, ¬ (Hidden obs all x ∨ x ∈ extra) := by
      rintro x hx (⟨D, hD, -, hi⟩ | hi)
      · exact hl st hst x hx D hD hi
      · exact hf st hst x hx hi
    have hbase : ∀ (s : Stmt), s.defs = st.defs → ∀ e ∈ extra, s.run lat env' e = base e := by
      intro s hs e hee
      rw [Stmt.run_frame _ _ _ _ (by rw [hs]; exact fun hc => (hxd e hc).2 hee), hb e hee]
    cases st with
    | tag n a =>
      simp only [plantBody]
      split
      · exact ih σ env' env hσ hv' hb ha
      · exact ih σ env' env hσ hv' hb ha
    | det op ins outs =>
      simp only [plantBody]
      have hr := ha.reads ins hu
      split
      · rename_i cs hcs
        rw [mapM_constant _ _ hcs] at hr
        have hrun : (Stmt.det op ins outs).run lat' env = putAll env outs ((op.eval cs).map fun v => some (v, some 0)) := by
          simp only [Stmt.run]
          rw [← hr, read_lits]
          simp [Function.comp_def]
        refine ih _ env' _ (Stands.bindAll outs _ hσ) (fun x hx => ?_) hb ?_
        · rw [bindAll_frame _ _ _ _ (show x ∉ outs from hdisj x hx), hv' x hx]
        · rw [hrun]
          exact ha.fold outs _
      · refine ih σ _ _ hσ hv' (hbase (.det op _ outs) rfl) ?_
        simp only [Stmt.run, hr]
        rcases (ins.map (Propagate.read iOps env)).mapM id with _ | vs
        · exact ha
        · exact ha.putAll outs hσ hxd _
    | draw D =>
      obtain ⟨n, hDn⟩ := Option.ne_none_iff_exists'.1 (hnm D (draws_mem.2 hst))
      have hops : ∀ x ∈ vars (D.links.flatMap fun l => l.1.operand), ¬ (Hidden obs all x ∨ x ∈ extra) := fun x hx => hu x (mem_uses_links hx)
      rcases ho : obs n with _ | a
      · -- not planted
        have hng : ¬ ∃ m ∈ given, D.name = some m := by
          rintro ⟨m, hm, hmn⟩
          rw [hDn, Option.some.injEq] at hmn
          subst hmn
          exact (hg n).1 hm ho
        have hgiv : D.given lat = D.given lat' := by simp [Draw.given, hDn, h2 n ho]
        have hterm : (D.replace σ).term lat env' = D.term lat' env := by
          have e1 : (((D.replace σ).operands.drop (D.replace σ).numConsts).drop 1).map (Propagate.read iOps env')
              = ((D.operands.drop D.numConsts).drop 1).map (Propagate.read iOps env) := by
            simp only [Draw.replace, ← List.map_drop]
            refine ha.reads _ fun x hx => hu x (mem_uses_operands ?_)
            obtain ⟨a, h1, h2⟩ := List.mem_filterMap.1 hx
            exact List.mem_filterMap.2 ⟨a, List.mem_of_mem_drop (List.mem_of_mem_drop h1), h2⟩
          have e2 : chainCell env' (D.replace σ).links ((D.replace σ).given lat) = chainCell env D.links (D.given lat') := by
            rw [← hgiv]
            exact ha.chain D.links _ hops
          rw [Draw.term, Draw.term, e1, e2]
          rfl
        have hrep : (D.replace σ).name ≠ none := by rw [draw_same]; simp [hDn]
        have hob : D.name.bind obs = none := by simp [hDn, ho]
        simp only [plantBody, hob, namedTerms, termsWithout, if_neg hng, if_neg hrep, hterm]
        congr 1
        refine ih σ _ _ hσ hv' (hbase (.draw (D.replace σ)) (by rw [draw_same, defs_replace])) ?_
        have := ha.putChain hσ D.links D.value (D.given lat) ha hxd hops
        rw [hgiv] at this
        simp only [Stmt.run]
        rw [show (D.replace σ).given lat = D.given lat' from hgiv]
        exact this
      · -- planted
        have hP : Planted obs D := by simp [Planted, hDn, ho]
        have hgg : ∃ m ∈ given, D.name = some m := ⟨n, (hg n).2 (by simp [ho]), hDn⟩
        obtain ⟨v, hv1, hv2⟩ := h1 n a ho
        have hob : D.name.bind obs = some a := by simp [hDn, ho]
        simp only [plantBody, hob, namedTerms, termsWithout, if_pos hgg, if_true, List.nil_append]
        set D' : Draw := { D.replace σ with name := none } with hD'
        have hb' := hbase (.draw D') (defs_replace σ D none)
        refine ih _ _ _ (hσ.bind1 _ (hp n a ho)) (fun x hx => ?_) hb' ?_
        · simp only [Joint.bind1]
          rw [if_neg, hv' x hx]
          rintro rfl
          exact hdisj _ hx (lastVar_mem _ _)
        · intro x hx
          simp only [Joint.bind1]
          have hgiv : D.given lat' = some (v, some 0) := by simp [Draw.given, hDn, hv1]
          split
          · rename_i hxl
            rw [hxl]
            have e1 : (Stmt.draw D).run lat' env (lastVar D.value D.links) = some (v, some 0) := by
              simp only [Stmt.run, hgiv]
              exact putChain_last _ _ _ _ _ hnd
            rw [e1, ← hv2]
            rcases hp n a ho with ⟨c, rfl⟩ | ⟨e, hee, rfl⟩
            · rfl
            · exact hb' e hee
          · rename_i hxl
            have hxn : x ∉ (Stmt.draw D).defs := by
              intro hc
              rcases inner_or_last D.links D.value x hc with h | h
              · exact hx (.inl ⟨D, draws_mem.2 hst, hP, h⟩)
              · exact hxl h
            rw [Stmt.run_frame _ _ _ _ hxn, ← ha x hx]
            have hfr : ∀ z ∉ (Stmt.draw D).defs, (Stmt.draw D').run lat env' z = env' z := fun z hz =>
              Stmt.run_frame _ _ _ _ (by rw [hD', defs_replace]; exact hz)
            rcases hσ x with e | ⟨c, e⟩ | ⟨e, hee, e'⟩
            · rw [e]; exact hfr x hxn
            · rw [e]; rfl
            · rw [e']; exact hfr e fun hc => (hxd e hc).2 hee

end Verif.LogProb.Joint
