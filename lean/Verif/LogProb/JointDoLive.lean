import Verif.LogProb.JointDoProps

/-! C82: the random variables that are planted are dead. -/
namespace Verif.LogProb.Joint

open Verif.Propagate Verif.Inverse

variable {obs : String → Option (Atom F)} {extra : List Nat} {S : Source}

/-- A random variable whose value is planted. -/
def Planted (obs : String → Option (Atom F)) (D : Draw) : Prop := D.name.bind obs ≠ none

/-- The variables of the planted random variables of a program. -/
def Gone (obs : String → Option (Atom F)) (body : List Stmt) (z : Nat) : Prop :=
  ∃ D ∈ draws body, Planted obs D ∧ z ∈ (Stmt.draw D).defs

/-- Their local variables. -/
def Hidden (obs : String → Option (Atom F)) (body : List Stmt) (z : Nat) : Prop :=
  ∃ D ∈ draws body, Planted obs D ∧ z ∈ D.inner

/-- A statement that does not mention the variables `G`, or the unnamed random variable that has replaced a planted one. -/
def CleanStmt (G : Nat → Prop) (st : Stmt) : Prop :=
  ((∀ z ∈ st.uses, ¬ G z) ∧ ∀ z ∈ st.defs, ¬ G z) ∨ ∃ D, st = .draw D ∧ D.name = none ∧ ∀ z ∈ st.defs, G z

theorem defs_disjoint {st : Stmt} {body : List Stmt} (hst : st ∈ body) : ∀ z ∈ st.defs, z ∈ body.flatMap Stmt.defs :=
  fun _ hz => List.mem_flatMap.2 ⟨st, hst, hz⟩

/-- A defined variable belongs to one statement. -/
theorem defs_unique {body : List Stmt} (hn : (body.flatMap Stmt.defs).Nodup) {st st' : Stmt} (h : st ∈ body) (h' : st' ∈ body)
    {z : Nat} (hz : z ∈ st.defs) (hz' : z ∈ st'.defs) : st = st' := by
  induction body with
  | nil => simp at h
  | cons s rest ih =>
    rw [List.flatMap_cons, List.nodup_append] at hn
    rcases List.mem_cons.1 h with e1 | h1 <;> rcases List.mem_cons.1 h' with e2 | h2
    · rw [e1, e2]
    · exact absurd rfl (hn.2.2 z (e1 ▸ hz) z (defs_disjoint h2 z hz'))
    · exact absurd rfl (hn.2.2 z (e2 ▸ hz') z (defs_disjoint h1 z hz))
    · exact ih hn.2.1 h1 h2

theorem gone_of_draw {all : List Stmt} (hn : (all.flatMap Stmt.defs).Nodup) {st : Stmt} (hst : st ∈ all) {z : Nat}
    (hz : z ∈ st.defs) (hg : Gone obs all z) : ∃ D, st = .draw D ∧ Planted obs D := by
  obtain ⟨D, hD, hp, hz'⟩ := hg
  exact ⟨D, defs_unique hn hst (draws_mem.1 hD) hz hz', hp⟩

theorem plant_clean (all : List Stmt) (hn : (all.flatMap Stmt.defs).Nodup) (hp : Plants extra obs)
    (he : ∀ e ∈ extra, e ∉ all.flatMap Stmt.defs)
    (hl : ∀ st ∈ all, ∀ x ∈ st.uses, ∀ D ∈ draws all, x ∉ D.inner)
    (body : List Stmt) : ∀ σ, (∀ st ∈ body, st ∈ all) → Scoped body →
    (∀ x z, (σ x).node = some z → Gone obs all z → x = z ∧ (Hidden obs all x ∨ x ∈ body.flatMap Stmt.defs)) →
    ∀ st ∈ (plantBody obs σ body).1, CleanStmt (Gone obs all) st := by
  induction body with
  | nil => intro σ _ _ _ st hst; simp [plantBody] at hst
  | cons s rest ih =>
    intro σ hb hs hi
    have hb' : ∀ st ∈ rest, st ∈ all := fun st h => hb st (List.mem_cons_of_mem _ h)
    have hsall := hb s List.mem_cons_self
    have huses : ∀ (as : List (Atom F)), (∀ x ∈ vars as, x ∈ s.uses) → ∀ z ∈ vars (as.map (replace σ)), ¬ Gone obs all z := by
      intro as ha z hz hg
      obtain ⟨x, hx, hxz⟩ := vars_replace_from as hz
      obtain ⟨rfl, h | h⟩ := hi x z hxz hg
      · obtain ⟨D, hD, -, h⟩ := h
        exact hl s hsall x (ha x hx) D hD h
      · rw [List.flatMap_cons] at h
        exact hs.1 x (ha x hx) h
    -- a statement that is kept
    have keep : (∀ z ∈ s.defs, ¬ Gone obs all z) →
        ∀ x z, (σ x).node = some z → Gone obs all z → x = z ∧ (Hidden obs all x ∨ x ∈ rest.flatMap Stmt.defs) := by
      intro hd x z hx hg
      obtain ⟨rfl, h | h⟩ := hi x z hx hg
      · exact ⟨rfl, .inl h⟩
      · rw [List.flatMap_cons] at h
        rcases List.mem_append.1 h with h | h
        · exact absurd hg (hd x h)
        · exact ⟨rfl, .inr h⟩
    cases s with
    | det op ins outs =>
      have hd : ∀ z ∈ (Stmt.det op ins outs).defs, ¬ Gone obs all z := by
        intro z hz hg
        obtain ⟨D, h, -⟩ := gone_of_draw hn hsall hz hg
        simp at h
      simp only [plantBody]
      split
      · refine ih _ hb' hs.2 fun x z hx hg => ?_
        by_cases hxo : x ∈ outs
        · exfalso
          have h2 : ∀ (xs : List Nat) (σ : Nat → Atom F) (cs : List F), (∀ y, y ∈ xs → (σ y).node ≠ some z) → x ∈ xs →
              (bindAll σ xs cs x).node ≠ some z := by
            intro xs
            induction xs with
            | nil => intro σ cs _ h; simp at h
            | cons y xs ihx =>
              intro σ cs hy h
              cases cs with
              | nil => exact hy x h
              | cons c cs =>
                by_cases hm : x ∈ xs
                · refine ihx _ cs (fun w hw => ?_) hm
                  simp only [Joint.bind1]
                  split
                  · simp [Atom.node]
                  · exact hy w (List.mem_cons_of_mem _ hw)
                · rcases List.mem_cons.1 h with rfl | h
                  · simp [bindAll, bindAll_frame _ _ _ _ hm, Joint.bind1, Atom.node]
                  · exact absurd h hm
          refine h2 outs σ _ (fun y hy hyz => ?_) hxo hx
          obtain ⟨rfl, -⟩ := hi y z hyz hg
          exact hd y hy hg
        · rw [bindAll_frame _ _ _ _ hxo] at hx
          exact keep hd x z hx hg
      · intro st hst
        rcases List.mem_cons.1 hst with rfl | hst
        · exact .inl ⟨huses ins fun x hx => hx, hd⟩
        · exact ih σ hb' hs.2 (keep hd) st hst
    | draw D =>
      simp only [plantBody]
      split
      · rename_i a ha
        have hP : Planted obs D := by rw [Planted, ha]; simp
        intro st hst
        rcases List.mem_cons.1 hst with rfl | hst
        · refine .inr ⟨_, rfl, rfl, ?_⟩
          rw [defs_replace]
          exact fun z hz => ⟨D, draws_mem.2 hsall, hP, hz⟩
        · refine ih _ hb' hs.2 (fun x z hx hg => ?_) st hst
          simp only [Joint.bind1] at hx
          split at hx
          · exfalso
            rcases hp.bind ha with ⟨c, rfl⟩ | ⟨e, hee, rfl⟩
            · simp [Atom.node] at hx
            · simp only [Atom.node, Option.some.injEq] at hx
              subst hx
              obtain ⟨E, hE, -, hz⟩ := hg
              exact he e hee (defs_disjoint (draws_mem.1 hE) e hz)
          · rename_i hne
            obtain ⟨rfl, h | h⟩ := hi x z hx hg
            · exact ⟨rfl, .inl h⟩
            · rw [List.flatMap_cons] at h
              rcases List.mem_append.1 h with h | h
              · refine ⟨rfl, .inl ⟨D, draws_mem.2 hsall, hP, ?_⟩⟩
                exact (inner_or_last D.links D.value x h).resolve_right hne
              · exact ⟨rfl, .inr h⟩
      · rename_i ha
        have hd : ∀ z ∈ (Stmt.draw D).defs, ¬ Gone obs all z := by
          intro z hz hg
          obtain ⟨E, h, hp⟩ := gone_of_draw hn hsall hz hg
          simp only [Stmt.draw.injEq] at h
          subst h
          exact hp ha
        intro st hst
        rcases List.mem_cons.1 hst with rfl | hst
        · left
          rw [draw_same, uses_replace, defs_replace]
          exact ⟨huses _ fun x hx => hx, hd⟩
        · exact ih σ hb' hs.2 (keep hd) st hst
    | tag n a =>
      simp only [plantBody]
      split
      · exact ih σ hb' hs.2 (keep (by simp [Stmt.defs]))
      · intro st hst
        rcases List.mem_cons.1 hst with rfl | hst
        · exact .inl ⟨huses [a] fun x hx => hx, by simp [Stmt.defs]⟩
        · exact ih σ hb' hs.2 (keep (by simp [Stmt.defs])) st hst

/-- The variables of the inputs of the equations of a statement. -/
theorem eqn_ins (st : Stmt) : ∀ q ∈ st.eqns, ∀ x ∈ vars q.2.1, x ∈ st.uses ∨ x ∈ st.defs := by
  have links : ∀ (ls : List (Link × Nat)) (t : Nat), ∀ q ∈ linkEqns t ls, ∀ x ∈ vars q.2.1,
      x ∈ vars (ls.flatMap fun l => l.1.operand) ∨ x ∈ t :: ls.map (·.2) := by
    intro ls
    induction ls with
    | nil => intro t q hq; simp [linkEqns] at hq
    | cons p ls ih =>
      obtain ⟨l, y⟩ := p
      intro t q hq x hx
      rcases List.mem_cons.1 hq with rfl | hq
      · have : x = t ∨ x ∈ vars l.operand := by
          cases l with
          | un p => left; simpa [Link.eqn, vars, Atom.node] using hx
          | left p a =>
            simp only [Link.eqn] at hx
            rw [show ([a, Atom.var t] : List (Atom F)) = [a] ++ [.var t] from rfl, vars_append] at hx
            rcases List.mem_append.1 hx with h | h
            · exact .inr h
            · left; simpa [vars, Atom.node] using h
          | right p a =>
            simp only [Link.eqn] at hx
            rw [show ([Atom.var t, a] : List (Atom F)) = [.var t] ++ [a] from rfl, vars_append] at hx
            rcases List.mem_append.1 hx with h | h
            · left; simpa [vars, Atom.node] using h
            · exact .inr h
        rcases this with rfl | h
        · exact .inr List.mem_cons_self
        · left
          rw [List.flatMap_cons, vars_append]
          exact List.mem_append_left _ h
      · rcases ih y q hq x hx with h | h
        · left
          rw [List.flatMap_cons, vars_append]
          exact List.mem_append_right _ h
        · exact .inr (List.mem_cons_of_mem _ h)
  cases st with
  | det op ins outs =>
    intro q hq x hx
    simp only [Stmt.eqns, List.mem_singleton] at hq
    subst hq
    exact .inl hx
  | draw D =>
    intro q hq x hx
    rcases List.mem_cons.1 hq with rfl | hq
    · exact .inl (mem_uses_operands hx)
    · rcases links D.links D.value q hq x hx with h | h
      · exact .inl (mem_uses_links h)
      · exact .inr h
  | tag n a => intro q hq; simp [Stmt.eqns] at hq

/-- If all statements are clean, nothing that the named values depend on is among the variables `G`. -/
theorem clean_live {T : Source} {G : Nat → Prop} (hT : T.NoTags) (hc : ∀ st ∈ T.body, CleanStmt G st) {x : Nat}
    (hx : Live T T.Named x) : ¬ G x := by
  induction hx with
  | result x h =>
    obtain ⟨n, h⟩ := h
    obtain ⟨st, hst, hm⟩ := List.mem_flatMap.1 h
    cases st with
    | det op ins outs => simp [Stmt.sown] at hm
    | tag n a => exact absurd rfl (hT _ hst n a)
    | draw D =>
      rcases hD : D.name with _ | m
      · simp [Stmt.sown, hD] at hm
      · simp only [Stmt.sown, hD, List.mem_singleton, Prod.mk.injEq, Atom.var.injEq] at hm
        rcases hc _ hst with h | ⟨E, h1, h2, -⟩
        · rw [hm.2]
          exact h.2 _ (lastVar_mem _ _)
        · simp only [Stmt.draw.injEq] at h1
          subst h1
          rw [hD] at h2
          simp at h2
  | operand q hq y hy _ x hx ih =>
    obtain ⟨st, hst, hq⟩ := List.mem_flatMap.1 hq
    have hyd : y ∈ st.defs := by
      rw [← outsOf_eqns]
      exact List.mem_flatMap.2 ⟨q, hq, hy⟩
    rcases hc st hst with h | ⟨E, -, -, h⟩
    · rcases eqn_ins st q hq x hx with h' | h'
      · exact h.1 x h'
      · exact h.2 x h'
    · exact absurd (h y hyd) ih

/-- The terms of the named random variables. -/
noncomputable def namedTerms (lat : String → Option F) : Env ICell → List Stmt → List (Option F)
  | _, [] => []
  | env, st :: rest => (match st with
    | .draw D => if D.name = none then [] else [D.term lat env]
    | _ => []) ++ namedTerms lat (st.run lat env) rest

/-- If the unnamed random variables are dead, the terms of what is alive are those of the named ones. -/
theorem terms_alive_named (lat) (hnm : ∀ D ∈ draws S.body, D.name = none → ∀ x ∈ (Stmt.draw D).defs, ¬ Live S S.Named x)
    (suf : List Stmt) : ∀ pre, S.body = pre ++ suf →
    ∀ env env' : Env ICell, (∀ x, Live S S.Named x → env x = env' x) →
    terms lat env (suf.filter (keeps S S.Named)) = namedTerms lat env' suf := by
  induction suf with
  | nil => intro pre _ env env' _; rfl
  | cons st suf ih =>
    intro pre hb env env' he
    have ih := ih (pre ++ [st]) (by rw [hb]; simp)
    have hst : st ∈ S.body := by rw [hb]; simp
    have hlast : ∀ D, st = .draw D → D.name ≠ none → Live S S.Named (lastVar D.value D.links) := by
      rintro D rfl hne
      obtain ⟨n, hn⟩ := Option.ne_none_iff_exists'.1 hne
      exact .result _ ⟨n, List.mem_flatMap.2 ⟨_, hst, by simp [Stmt.sown, hn]⟩⟩
    by_cases hk : keeps S S.Named st = true
    · rw [List.filter_cons_of_pos hk]
      have hkk : (∀ n a, st ≠ .tag n a) → ∃ x ∈ st.defs, Live S S.Named x := by
        intro hnt
        cases st with
        | tag n a => exact absurd rfl (hnt n a)
        | det op ins outs => simpa [keeps, -exists_prop] using hk
        | draw D => simpa [keeps, -exists_prop] using hk
      have hnn : ∀ D, st = .draw D → D.name ≠ none := by
        rintro D rfl hD
        obtain ⟨x, hx, hl⟩ := hkk (by simp)
        exact hnm D (draws_mem.2 hst) hD x hx hl
      have hu : ∀ x ∈ st.uses, (∀ n a, st ≠ .tag n a) → env x = env' x := by
        intro x hx hnt
        exact he x (keeps_uses hst (hkk hnt) (fun D hD => hlast D hD (hnn D hD)) x hx)
      cases st with
      | tag n a => exact ih env env' he
      | det op ins outs =>
        exact ih _ _ fun x hx => run_congr lat env env' _ (fun x hx => hu x hx (by simp)) x (he x hx)
      | draw D =>
        have hu' : ∀ x ∈ (Stmt.draw D).uses, env x = env' x := fun x hx => hu x hx (by simp)
        simp only [terms, namedTerms, if_neg (hnn D rfl)]
        rw [term_congr lat env env' D hu',
          ih _ _ fun x hx => run_congr lat env env' _ hu' x (he x hx)]
    · rw [List.filter_cons_of_neg hk]
      have hdead : ∀ x ∈ st.defs, ¬ Live S S.Named x := fun x hd hx => hk (keeps_of ⟨x, hd, hx⟩)
      have hr : ∀ x, Live S S.Named x → env x = st.run lat env' x := by
        intro x hx
        rw [he x hx, Stmt.run_frame]
        exact fun hd => hdead x hd hx
      cases st with
      | tag n a => exact absurd rfl hk
      | draw D =>
        have : D.name = none := by
          by_contra hne
          exact hdead _ (lastVar_mem _ _) (hlast D rfl hne)
        simp only [namedTerms, if_pos this, List.nil_append]
        exact ih env _ hr
      | det op ins outs => exact ih env _ hr

theorem alive_named (hnm : ∀ D ∈ draws S.body, D.name = none → ∀ x ∈ (Stmt.draw D).defs, ¬ Live S S.Named x) (lat args) :
    S.alive.joint lat args = match (namedTerms lat (argEnv S.args args) S.body).mapM id with
      | some ts => .ok (sumF ts)
      | none => .error .cannot := by
  have h := terms_alive_named lat hnm S.body [] rfl (argEnv S.args args) _ fun _ _ => rfl
  rw [← alive_body] at h
  rw [← h]
  rfl

end Verif.LogProb.Joint
