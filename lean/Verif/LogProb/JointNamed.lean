import Verif.LogProb.JointAlive

/-! C79: with all random variables named, the statements that no named value depends on do not matter. -/
namespace Verif.LogProb.Joint

open Verif.Propagate Verif.Inverse

variable {S : Source}

theorem reads_congr (G G' : Env ICell) (as : List (Atom F)) (h : ∀ x ∈ vars as, G x = G' x) :
    as.map (Propagate.read iOps G) = as.map (Propagate.read iOps G') := by
  refine List.map_congr_left fun a ha => read_congr G G' a fun x hx => h x ?_
  exact List.mem_filterMap.2 ⟨a, ha, hx⟩

theorem putAll_congr (xs : List Nat) : ∀ (env env' : Env ICell) (cs : List ICell) (x : Nat), env x = env' x →
    putAll env xs cs x = putAll env' xs cs x := by
  induction xs with
  | nil => intro env env' cs x h; cases cs <;> exact h
  | cons y xs ih =>
    intro env env' cs x h
    cases cs with
    | nil => exact h
    | cons c cs =>
      refine ih _ _ cs x ?_
      simp only [put]
      split
      · rfl
      · exact h

theorem putChain_congr (env0 env0' : Env ICell) (ls : List (Link × Nat)) : ∀ (t : Nat) (c : ICell) (env env' : Env ICell) (x : Nat),
    (∀ x ∈ vars (ls.flatMap fun l => l.1.operand), env0 x = env0' x) → env x = env' x →
    putChain env0 t ls c env x = putChain env0' t ls c env' x := by
  induction ls with
  | nil =>
    intro t c env env' x _ h
    simp only [putChain, put]
    split
    · rfl
    · exact h
  | cons p ls ih =>
    obtain ⟨l, y⟩ := p
    intro t c env env' x hu h
    have hu' : ∀ x ∈ vars (ls.flatMap fun l => l.1.operand), env0 x = env0' x := fun x hx => hu x (by
      rw [List.flatMap_cons]
      simp only [vars, List.filterMap_append, List.mem_append]
      exact .inr hx)
    simp only [putChain, put]
    split
    · exact chainCell_congr env0 env0' _ c hu
    · exact ih y c env env' x hu' h

theorem mem_uses_operands {D : Draw} {x : Nat} (h : x ∈ vars D.operands) : x ∈ (Stmt.draw D).uses := by
  obtain ⟨a, h1, h2⟩ := List.mem_filterMap.1 h
  exact List.mem_filterMap.2 ⟨a, List.mem_append_left _ h1, h2⟩

theorem mem_uses_links {D : Draw} {x : Nat} (h : x ∈ vars (D.links.flatMap fun l => l.1.operand)) : x ∈ (Stmt.draw D).uses := by
  obtain ⟨a, h1, h2⟩ := List.mem_filterMap.1 h
  exact List.mem_filterMap.2 ⟨a, List.mem_append_right _ h1, h2⟩

theorem run_congr (lat) (env env' : Env ICell) (st : Stmt) (hu : ∀ x ∈ st.uses, env x = env' x) (x : Nat) (h : env x = env' x) :
    st.run lat env x = st.run lat env' x := by
  cases st with
  | tag n a => exact h
  | det op ins outs =>
    simp only [Stmt.run, reads_congr env env' ins hu]
    rcases (ins.map (Propagate.read iOps env')).mapM id with _ | vs
    · exact h
    · exact putAll_congr _ _ _ _ _ h
  | draw D => exact putChain_congr _ _ _ _ _ _ _ _ (fun x hx => hu x (mem_uses_links hx)) h

theorem term_congr (lat) (env env' : Env ICell) (D : Draw) (hu : ∀ x ∈ (Stmt.draw D).uses, env x = env' x) :
    D.term lat env = D.term lat env' := by
  have h1 := reads_congr env env' ((D.operands.drop D.numConsts).drop 1) fun x hx => hu x (mem_uses_operands (by
    obtain ⟨a, h1, h2⟩ := List.mem_filterMap.1 hx
    exact List.mem_filterMap.2 ⟨a, List.mem_of_mem_drop (List.mem_of_mem_drop h1), h2⟩))
  have h2 := chainCell_congr env env' D.links (D.given lat) fun x hx => hu x (mem_uses_links hx)
  rw [Draw.term, Draw.term, h1, h2]

/-- Everything that a named random variable uses is live. -/
theorem links_live_all {R : Nat → Prop} (ls : List (Link × Nat)) : ∀ t, (∀ q ∈ linkEqns t ls, q ∈ S.body.flatMap Stmt.eqns) →
    Live S R (lastVar t ls) → Live S R t ∧ ∀ x ∈ vars (ls.flatMap fun l => l.1.operand), Live S R x := by
  induction ls with
  | nil => intro t _ h; exact ⟨h, by simp [vars]⟩
  | cons p ls ih =>
    obtain ⟨l, y⟩ := p
    intro t hq h
    obtain ⟨h1, h2⟩ := ih y (fun q h => hq q (List.mem_cons_of_mem _ h)) h
    have hyo : y ∈ vars (l.eqn t y).2.2 := by cases l <;> simp [Link.eqn, vars, Atom.node]
    refine ⟨.operand (l.eqn t y) (hq _ List.mem_cons_self) y hyo h1 t ?_, ?_⟩
    · cases l <;> simp [Link.eqn, vars, Atom.node]
    · intro x hx
      rw [List.flatMap_cons] at hx
      simp only [vars, List.filterMap_append, List.mem_append] at hx
      rcases hx with hx | hx
      · refine .operand (l.eqn t y) (hq _ List.mem_cons_self) y hyo h1 x ?_
        cases l with
        | un p => simp [Link.operand] at hx
        | left p a =>
          obtain ⟨b, h3, h4⟩ := List.mem_filterMap.1 hx
          exact List.mem_filterMap.2 ⟨b, by simp only [Link.operand, List.mem_singleton] at h3; simp [Link.eqn, h3], h4⟩
        | right p a =>
          obtain ⟨b, h3, h4⟩ := List.mem_filterMap.1 hx
          exact List.mem_filterMap.2 ⟨b, by simp only [Link.operand, List.mem_singleton] at h3; simp [Link.eqn, h3], h4⟩
      · exact h2 x hx

theorem keeps_uses {R : Nat → Prop} {st : Stmt} (hst : st ∈ S.body) (hk : ∃ x ∈ st.defs, Live S R x)
    (hD : ∀ D, st = .draw D → Live S R (lastVar D.value D.links)) : ∀ x ∈ st.uses, Live S R x := by
  intro x hx
  obtain ⟨y, hy, hl⟩ := hk
  cases st with
  | tag n a => simp [Stmt.defs] at hy
  | det op ins outs =>
    refine .operand _ (List.mem_flatMap.2 ⟨_, hst, List.mem_singleton_self _⟩) y ?_ hl x hx
    rw [vars_map_var]
    exact hy
  | draw D =>
    obtain ⟨h1, h2⟩ := links_live_all (S := S) (R := R) D.links D.value
      (fun q hq => List.mem_flatMap.2 ⟨_, hst, List.mem_cons_of_mem _ hq⟩) (hD D rfl)
    obtain ⟨a, h3, h4⟩ := List.mem_filterMap.1 hx
    rcases List.mem_append.1 h3 with h3 | h3
    · refine .operand (.rv D.numConsts D.logp, D.operands, [.var D.value])
        (List.mem_flatMap.2 ⟨_, hst, List.mem_cons_self⟩) D.value (by simp [vars, Atom.node]) h1 x ?_
      exact List.mem_filterMap.2 ⟨a, h3, h4⟩
    · exact h2 x (List.mem_filterMap.2 ⟨a, h3, h4⟩)

theorem terms_alive (lat) (hnm : ∀ D ∈ draws S.body, D.name ≠ none) (suf : List Stmt) : ∀ pre, S.body = pre ++ suf →
    ∀ env env' : Env ICell, (∀ x, Live S S.Named x → env x = env' x) →
    terms lat env (suf.filter (keeps S S.Named)) = terms lat env' suf := by
  induction suf with
  | nil => intro pre _ env env' _; rfl
  | cons st suf ih =>
    intro pre hb env env' he
    have ih := ih (pre ++ [st]) (by rw [hb]; simp)
    have hst : st ∈ S.body := by rw [hb]; simp
    have hlast : ∀ D, st = .draw D → Live S S.Named (lastVar D.value D.links) := by
      rintro D rfl
      obtain ⟨n, hn⟩ := Option.ne_none_iff_exists'.1 (hnm D (draws_mem.2 hst))
      exact .result _ ⟨n, List.mem_flatMap.2 ⟨_, hst, by simp [Stmt.sown, hn]⟩⟩
    by_cases hk : keeps S S.Named st = true
    · rw [List.filter_cons_of_pos hk]
      have hu : ∀ x ∈ st.uses, (∀ n a, st ≠ .tag n a) → env x = env' x := by
        intro x hx hnt
        refine he x (keeps_uses hst ?_ hlast x hx)
        cases st with
        | tag n a => exact absurd rfl (hnt n a)
        | det op ins outs => simpa [keeps, -exists_prop] using hk
        | draw D => simpa [keeps, -exists_prop] using hk
      cases st with
      | tag n a => exact ih env env' he
      | det op ins outs =>
        exact ih _ _ fun x hx => run_congr lat env env' _ (fun x hx => hu x hx (by simp)) x (he x hx)
      | draw D =>
        have hu' : ∀ x ∈ (Stmt.draw D).uses, env x = env' x := fun x hx => hu x hx (by simp)
        simp only [terms]
        rw [term_congr lat env env' D hu',
          ih _ _ fun x hx => run_congr lat env env' _ hu' x (he x hx)]
    · rw [List.filter_cons_of_neg hk]
      cases st with
      | tag n a => exact absurd rfl hk
      | draw D => exact absurd (keeps_of ⟨_, lastVar_mem _ _, hlast D rfl⟩) hk
      | det op ins outs =>
        refine ih env _ fun x hx => ?_
        rw [he x hx, Stmt.run_frame]
        intro hd
        exact hk (keeps_of ⟨x, hd, hx⟩)

/-- If all random variables are named, `alive` makes no difference to the value. -/
theorem alive_joint (hnm : ∀ D ∈ draws S.body, D.name ≠ none) (lat args) : S.alive.joint lat args = S.joint lat args := by
  have h := terms_alive lat hnm S.body [] rfl (argEnv S.args args) _ fun _ _ => rfl
  rw [← alive_body] at h
  rw [Source.joint, Source.joint, ← h]
  rfl

theorem alive_sown : S.alive.body.flatMap Stmt.sown = S.body.flatMap Stmt.sown := by
  rw [alive_body]
  have : ∀ suf : List Stmt, (∀ st ∈ suf, st ∈ S.body) →
      (suf.filter (keeps S S.Named)).flatMap Stmt.sown = suf.flatMap Stmt.sown := by
    intro suf
    induction suf with
    | nil => intro _; rfl
    | cons st suf ih =>
      intro hb
      have ih := ih fun s hs => hb s (List.mem_cons_of_mem _ hs)
      by_cases hk : keeps S S.Named st = true
      · rw [List.filter_cons_of_pos hk, List.flatMap_cons, List.flatMap_cons, ih]
      · rw [List.filter_cons_of_neg hk, List.flatMap_cons, ih]
        cases st with
        | tag n a => exact absurd rfl hk
        | det op ins outs => rfl
        | draw D =>
          rcases hD : D.name with _ | n
          · simp [Stmt.sown, hD]
          · exact absurd (keeps_of ⟨_, lastVar_mem _ _, .result _ ⟨n, List.mem_flatMap.2
              ⟨_, hb _ List.mem_cons_self, by simp [Stmt.sown, hD]⟩⟩⟩) hk
  exact this S.body fun _ h => h

theorem alive_names : S.alive.names = S.names := by rw [Source.names, alive_sown]; rfl

theorem alive_sub : ∀ st ∈ S.alive.body, st ∈ S.body := by
  intro st hst
  rw [alive_body] at hst
  exact (List.mem_filter.1 hst).1

end Verif.LogProb.Joint
