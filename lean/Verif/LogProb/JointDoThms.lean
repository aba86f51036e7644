import Verif.LogProb.JointDoSim

/-! C82: `joint_log_prob` of `intervene(f, **obs)` and `conditional(f, names)`. -/
namespace Verif.LogProb.Joint

open Verif.Propagate Verif.Inverse

variable {obs : String → Option (Atom F)} {extra : List Nat} {S : Source}

/-- Variables that a program does not mention. -/
def Source.Fresh (S : Source) (xs : List Nat) : Prop :=
  xs.Nodup ∧ ∀ x ∈ xs, x ∉ S.key :: S.args ++ S.body.flatMap Stmt.defs ∧ ∀ st ∈ S.body, x ∉ st.uses

theorem argEnv_nodup (xs : List Nat) : ∀ (vs : List F) (env : Env ICell), xs.Nodup → ∀ p ∈ xs.zip vs,
    putAll env xs (vs.map fun v => some (v, some 0)) p.1 = some (p.2, some 0) := by
  induction xs with
  | nil => intro vs env _ p hp; simp at hp
  | cons x xs ih =>
    intro vs env hn p hp
    rw [List.nodup_cons] at hn
    cases vs with
    | nil => simp at hp
    | cons v vs =>
      rw [List.zip_cons_cons, List.mem_cons] at hp
      rcases hp with rfl | hp
      · simp only [List.map_cons, putAll]
        rw [putAll_frame _ _ _ _ hn.1]
        simp [put]
      · exact ih vs _ hn.2 p hp

theorem putAll_append (xs ys : List Nat) (as bs : List ICell) (h : as.length = xs.length) : ∀ env : Env ICell,
    putAll env (xs ++ ys) (as ++ bs) = putAll (putAll env xs as) ys bs := by
  induction xs generalizing as with
  | nil => intro env; obtain rfl := List.length_eq_zero_iff.1 h; rfl
  | cons x xs ih =>
    intro env
    cases as with
    | nil => simp at h
    | cons a as => exact ih as (by simpa using h) _

/-- The value of `joint_log_prob` on the program with planted values. -/
theorem plant_log_prob (h : S.WF) (hT : S.NoTags) (hL : S.Local) (hn : S.names.Nodup) (hnm : ∀ D ∈ draws S.body, D.name ≠ none)
    (hp : Plants extra obs) (hx : S.Fresh extra) (given : List String) (hg : ∀ n, n ∈ given ↔ obs n ≠ none)
    (latents : List (String × F)) (lat' : String → Option F) (args vals : List F) (hl : args.length = S.args.length)
    (hv : vals.length = extra.length)
    (hk : (latents.map (·.1)).Perm (S.names.filter (· ∉ given)))
    (h1 : ∀ n a, obs n = some a → ∃ v, lat' n = some v ∧ ((a = .lit v) ∨ ∃ x, a = .var x ∧ (x, v) ∈ extra.zip vals))
    (h2 : ∀ n, obs n = none → lat' n = dict latents n) (res : Except JErr F) :
    JointLogProb (S.plant extra obs) latents (args ++ vals) res ↔ res = S.jointWithout given lat' args := by
  have hd := (WF.body h).1
  have hextra : ∀ e ∈ extra, e ∉ S.body.flatMap Stmt.defs := fun e he hc => (hx.2 e he).1 (by
    simp only [List.cons_append, List.mem_cons, List.mem_append]; exact .inr (.inr hc))
  have hwf := plant_wf h hp hx.1 (fun e he => (hx.2 e he).1)
  have hT' : (S.plant extra obs).NoTags := plant_noTags S.body _ hT
  have hnames : (S.plant extra obs).names = S.names.filter (· ∉ given) := by
    rw [Source.names, Source.plant, plant_names S.body _ hT]
    refine List.filter_congr fun n _ => ?_
    have := hg n
    by_cases hm : n ∈ given
    · have h3 := this.1 hm
      rcases ho : obs n with _ | a
      · exact absurd ho h3
      · simp [hm]
    · have : obs n = none := by by_contra hc; exact hm ((hg n).2 hc)
      simp [hm, this]
  have hclean := plant_clean S.body hd hp hextra hL S.body .var (fun _ h => h) h.order (by
    intro x z hxz hgone
    simp only [Atom.node, Option.some.injEq] at hxz
    subst hxz
    obtain ⟨D, hD, -, hz⟩ := hgone
    exact ⟨rfl, .inr (defs_disjoint (draws_mem.1 hD) x hz)⟩)
  rw [joint_log_prob_value_partial hwf hT' latents (args ++ vals) (by simp [Source.plant, hl, hv])
    (by rw [hnames]; exact hn.filter _) (by rw [hnames]; exact hk) res, alive_named]
  · have hargs : argEnv (S.args ++ extra) (args ++ vals)
        = putAll (argEnv S.args args) extra (vals.map fun v => some (v, some 0)) := by
      rw [argEnv, List.map_append, putAll_append _ _ _ _ (by simpa using hl)]
      rfl
    have := namedTerms_plant (extra := extra) S.body hd hp hextra hL (fun st hst x hxu hxe => (hx.2 x hxe).2 st hst hxu) hnm
      given hg (dict latents) lat' (argEnv (S.args ++ extra) (args ++ vals))
      (by
        intro n a ha
        obtain ⟨v, hv1, hv2⟩ := h1 n a ha
        refine ⟨v, hv1, ?_⟩
        rcases hv2 with rfl | ⟨x, rfl, hxv⟩
        · rfl
        · rw [hargs]
          exact argEnv_nodup extra vals _ hx.1 (x, v) hxv)
      h2 S.body [] rfl .var (argEnv (S.args ++ extra) (args ++ vals)) (argEnv S.args args) stands_var (fun _ _ => rfl)
      (fun _ _ => rfl) (by
        intro x hxH
        rw [hargs]
        simp only [Propagate.read]
        exact putAll_frame _ _ _ _ fun hc => hxH (.inr hc))
    rw [Source.jointWithout, ← this]
    rfl
  · intro D hD hname x hxd hlive
    rcases hclean _ (draws_mem.1 hD) with hc | ⟨E, he, -, hc⟩
    · -- a random variable that is still there has its name
      have key : ∀ (body : List Stmt), (∀ D ∈ draws body, D.name ≠ none) → ∀ σ, ∀ st ∈ (plantBody obs σ body).1,
          ∀ D, st = .draw D → D.name = none → ∃ E ∈ draws body, Planted obs E ∧ (Stmt.draw D).defs = (Stmt.draw E).defs := by
        intro body
        induction body with
        | nil => intro _ σ st hst; simp [plantBody] at hst
        | cons s rest ih =>
          intro hnm σ st hst D hD hname
          cases s with
          | det op ins outs =>
            simp only [plantBody] at hst
            split at hst
            · exact ih hnm _ st hst D hD hname
            · rcases List.mem_cons.1 hst with rfl | hst
              · simp at hD
              · exact ih hnm _ st hst D hD hname
          | draw E =>
            have hnm' : ∀ D ∈ draws rest, D.name ≠ none := fun D hD => hnm D (List.mem_cons_of_mem _ hD)
            simp only [plantBody] at hst
            split at hst
            · rename_i a ha
              rcases List.mem_cons.1 hst with e | hst
              · rw [e, Stmt.draw.injEq] at hD
                refine ⟨E, List.mem_cons_self, by rw [Planted, ha]; simp, ?_⟩
                rw [← hD, defs_replace]
              · obtain ⟨E', hE', h⟩ := ih hnm' _ st hst D hD hname
                exact ⟨E', List.mem_cons_of_mem _ hE', h⟩
            · rcases List.mem_cons.1 hst with e | hst
              · rw [e, Stmt.draw.injEq] at hD
                rw [← hD, draw_same] at hname
                exact absurd hname (hnm E List.mem_cons_self)
              · obtain ⟨E', hE', h⟩ := ih hnm' _ st hst D hD hname
                exact ⟨E', List.mem_cons_of_mem _ hE', h⟩
          | tag n a =>
            simp only [plantBody] at hst
            split at hst
            · exact ih hnm _ st hst D hD hname
            · rcases List.mem_cons.1 hst with rfl | hst
              · simp at hD
              · exact ih hnm _ st hst D hD hname
      obtain ⟨E, hE, hP, hEd⟩ := key S.body hnm _ _ (draws_mem.1 hD) D rfl hname
      exact hc.2 x hxd ⟨E, hE, hP, hEd ▸ hxd⟩
    · exact clean_live hT' hclean hlive (hc x hxd)

theorem dict_append (a b : List (String × F)) (n : String) : dict (a ++ b) n = (dict a n).or (dict b n) := by
  unfold dict
  induction a with
  | nil => rfl
  | cons p a ih =>
    rw [List.cons_append, List.lookup, List.lookup]
    split
    · rfl
    · exact ih

theorem lookup_ne_none {α : Type} (l : List (String × α)) (n : String) : l.lookup n ≠ none ↔ n ∈ l.map (·.1) := by
  induction l with
  | nil => simp [List.lookup]
  | cons p l ih =>
    rw [List.lookup]
    split
    · rename_i he
      simp only [beq_iff_eq] at he
      simp [he]
    · rename_i he
      rw [ih]
      have : n ≠ p.1 := by intro hc; simp [hc] at he
      simp [this]

/-- **C82 (intervene).**  `joint_log_prob(intervene(f, **obs))(latents, *args)`, on values for the names that are left, is
the joint log density of `f` at the values of `obs` and `latents` without the terms of the variables of `obs`. -/
theorem intervene_log_prob_partial (h : S.WF) (hT : S.NoTags) (hL : S.Local) (hn : S.names.Nodup)
    (hnm : ∀ D ∈ draws S.body, D.name ≠ none) (obs latents : List (String × F)) (args : List F)
    (hl : args.length = S.args.length) (hk : (latents.map (·.1)).Perm (S.names.filter (· ∉ obs.map (·.1))))
    (res : Except JErr F) :
    JointLogProb (S.intervene obs) latents args res ↔ res = S.jointWithout (obs.map (·.1)) (dict (obs ++ latents)) args := by
  have := plant_log_prob (extra := []) (obs := fun n => (obs.lookup n).map .lit) h hT hL hn hnm
    (by
      intro n a ha
      obtain ⟨c, -, rfl⟩ := Option.map_eq_some_iff.1 ha
      exact .inl ⟨c, rfl⟩)
    ⟨List.nodup_nil, by simp⟩ (obs.map (·.1))
    (by intro n; rw [← lookup_ne_none]; simp) latents (dict (obs ++ latents)) args [] hl rfl hk
    (by
      intro n a ha
      obtain ⟨c, hc, rfl⟩ := Option.map_eq_some_iff.1 ha
      refine ⟨c, ?_, .inl rfl⟩
      rw [dict_append, dict, hc]; rfl)
    (by
      intro n hn
      have hc : obs.lookup n = none := by simpa using hn
      rw [dict_append]
      simp [dict, hc]) res
  rw [List.append_nil] at this
  exact this

theorem lookup_zip (names : List String) : ∀ (xs : List Nat) (vals : List F), xs.length = names.length → vals.length = names.length →
    ∀ n, ((names.zip xs).reverse.lookup n = none ∧ (names.zip vals).reverse.lookup n = none) ∨
      ∃ x v, (names.zip xs).reverse.lookup n = some x ∧ (names.zip vals).reverse.lookup n = some v ∧ (x, v) ∈ xs.zip vals := by
  have happ : ∀ {α : Type} (l : List (String × α)) (m : String) (a : α) (n : String),
      (l ++ [(m, a)]).lookup n = (l.lookup n).or (if n = m then some a else none) := by
    intro α l m a n
    induction l with
    | nil =>
      by_cases hnm : n = m
      · simp [List.lookup, hnm]
      · simp only [List.nil_append, List.lookup, if_neg hnm]
        rw [show (n == m) = false by simpa using hnm]
        rfl
    | cons p l ih =>
      rw [List.cons_append, List.lookup, List.lookup]
      split
      · rfl
      · exact ih
  induction names with
  | nil =>
    intro xs vals _ _ n
    left; simp
  | cons m names ih =>
    intro xs vals hx hv n
    cases xs with
    | nil => simp at hx
    | cons x xs =>
      cases vals with
      | nil => simp at hv
      | cons v vals =>
        simp only [List.zip_cons_cons, List.reverse_cons, happ]
        rcases ih xs vals (by simpa using hx) (by simpa using hv) n with ⟨e1, e2⟩ | ⟨y, w, e1, e2, e3⟩
        · rw [e1, e2]
          by_cases hnm : n = m
          · right
            exact ⟨x, v, by simp [hnm], by simp [hnm], List.mem_cons_self⟩
          · left; simp [hnm]
        · right
          exact ⟨y, w, by rw [e1]; rfl, by rw [e2]; rfl, List.mem_cons_of_mem _ e3⟩

/-- **C82 (conditional).**  `joint_log_prob(conditional(f, names))(latents, *args, *vals)` is the joint log density of `f` at
the values `vals` of `names` and `latents` of the other names, without the terms of the variables of `names`. -/
theorem conditional_log_prob_partial (h : S.WF) (hT : S.NoTags) (hL : S.Local) (hn : S.names.Nodup)
    (hnm : ∀ D ∈ draws S.body, D.name ≠ none) (names : List String) (xs : List Nat) (hx : S.Fresh xs)
    (hxl : xs.length = names.length) (latents : List (String × F)) (args vals : List F) (hl : args.length = S.args.length)
    (hv : vals.length = names.length) (hk : (latents.map (·.1)).Perm (S.names.filter (· ∉ names))) (res : Except JErr F) :
    JointLogProb (S.conditional names xs) latents (args ++ vals) res ↔
      res = S.jointWithout names (dict ((names.zip vals).reverse ++ latents)) args := by
  refine plant_log_prob (extra := xs) (obs := fun n => ((names.zip xs).reverse.lookup n).map .var) h hT hL hn hnm ?_ hx names ?_
    latents _ args vals hl (by rw [hv, hxl]) hk ?_ ?_ res
  · intro n a ha
    obtain ⟨x, hx1, rfl⟩ := Option.map_eq_some_iff.1 ha
    rcases lookup_zip names xs vals hxl hv n with ⟨e1, -⟩ | ⟨y, w, e1, -, e3⟩
    · rw [e1] at hx1; simp at hx1
    · rw [e1, Option.some.injEq] at hx1
      exact .inr ⟨x, hx1 ▸ (List.of_mem_zip e3).1, rfl⟩
  · intro n
    have := lookup_ne_none (names.zip xs).reverse n
    rw [List.map_reverse, List.mem_reverse, List.map_fst_zip (by omega)] at this
    rw [← this]
    simp
  · intro n a ha
    obtain ⟨x, hx1, rfl⟩ := Option.map_eq_some_iff.1 ha
    rcases lookup_zip names xs vals hxl hv n with ⟨e1, -⟩ | ⟨y, w, e1, e2, e3⟩
    · rw [e1] at hx1; simp at hx1
    · rw [e1, Option.some.injEq] at hx1
      subst hx1
      refine ⟨w, ?_, .inr ⟨y, rfl, e3⟩⟩
      rw [dict_append, dict, e2]
      rfl
  · intro n hne
    rcases lookup_zip names xs vals hxl hv n with ⟨-, e2⟩ | ⟨y, w, e1, -, -⟩
    · rw [dict_append, dict, e2]
      rfl
    · rw [e1] at hne; simp at hne

/-! ### The chain rule -/

/-- The terms of the random variables named in `given`. -/
noncomputable def termsOf (given : List String) (lat : String → Option F) : Env ICell → List Stmt → List (Option F)
  | _, [] => []
  | env, st :: rest => (match st with
    | .draw D => if ∃ n ∈ given, D.name = some n then [D.term lat env] else []
    | _ => []) ++ termsOf given lat (st.run lat env) rest

theorem sumF_swap (a b c : F) : addF a (addF b c) = addF b (addF a c) := by
  rcases a with _ | a <;> rcases b with _ | b <;> rcases c with _ | c <;> simp [addF]
  ring

theorem terms_split (given : List String) (lat : String → Option F) (body : List Stmt) : ∀ (env : Env ICell) (ts : List F),
    (terms lat env body).mapM id = some ts → ∃ t1 t2, (termsOf given lat env body).mapM id = some t1 ∧
      (termsWithout given lat env body).mapM id = some t2 ∧ sumF ts = addF (sumF t1) (sumF t2) := by
  induction body with
  | nil =>
    intro env ts h
    simp only [terms, List.mapM_nil, Option.pure_def, Option.some.injEq] at h
    subst h
    exact ⟨[], [], rfl, rfl, by simp [sumF, addF]⟩
  | cons st rest ih =>
    intro env ts h
    cases st with
    | det op ins outs => exact ih _ ts h
    | tag n a => exact ih _ ts h
    | draw D =>
      simp only [terms, List.cons_append, List.nil_append, List.mapM_cons, id] at h
      rcases hD : D.term lat env with _ | t
      · rw [hD] at h; simp at h
      · rw [hD] at h
        rcases hm : (terms lat ((Stmt.draw D).run lat env) rest).mapM id with _ | us
        · rw [hm] at h; simp at h
        · rw [hm] at h
          simp only [Option.bind_eq_bind, Option.bind_some, Option.pure_def, Option.some.injEq] at h
          obtain ⟨t1, t2, e1, e2, e3⟩ := ih _ us hm
          subst h
          by_cases hg : ∃ n ∈ given, D.name = some n
          · refine ⟨t :: t1, t2, ?_, ?_, ?_⟩
            · simp [termsOf, if_pos hg, hD, e1, List.mapM_cons]
            · simp [termsWithout, if_pos hg, e2]
            · simp only [sumF, List.foldr_cons] at e3 ⊢
              rw [e3, addF_assoc]
          · refine ⟨t1, t :: t2, ?_, ?_, ?_⟩
            · simp [termsOf, if_neg hg, e1]
            · simp [termsWithout, if_neg hg, hD, e2, List.mapM_cons]
            · simp only [sumF, List.foldr_cons] at e3 ⊢
              rw [e3, sumF_swap]

/-- **C82 (chain rule).**  If `joint_log_prob(f)` returns `r` on `obs` and `latents`, then `joint_log_prob(intervene(f, **obs))`
returns a value on `latents`, and the difference is the sum of the log densities of the variables of `obs`. -/
theorem intervene_chain_rule_partial (h : S.WF) (hT : S.NoTags) (hL : S.Local) (hn : S.names.Nodup)
    (hnm : ∀ D ∈ draws S.body, D.name ≠ none) (obs latents : List (String × F)) (args : List F)
    (hl : args.length = S.args.length) (hk : ((obs ++ latents).map (·.1)).Perm S.names) (r : F)
    (hr : JointLogProb S (obs ++ latents) args (.ok r)) :
    ∃ r' ts, JointLogProb (S.intervene obs) latents args (.ok r') ∧
      (termsOf (obs.map (·.1)) (dict (obs ++ latents)) (argEnv S.args args) S.body).mapM id = some ts ∧
      r = addF (sumF ts) r' := by
  rw [joint_log_prob_named_partial h hT _ args hl hn hk hnm] at hr
  rcases hm : (terms (dict (obs ++ latents)) (argEnv S.args args) S.body).mapM id with _ | us
  · rw [Source.joint, hm] at hr; simp at hr
  · rw [Source.joint, hm] at hr
    simp only [Except.ok.injEq] at hr
    obtain ⟨t1, t2, e1, e2, e3⟩ := terms_split (obs.map (·.1)) _ S.body _ us hm
    refine ⟨sumF t2, t1, ?_, e1, by rw [hr, e3]⟩
    rw [intervene_log_prob_partial h hT hL hn hnm obs latents args hl ?_, Source.jointWithout, e2]
    have hnd : ((obs ++ latents).map (·.1)).Nodup := hk.symm.nodup hn
    have := hk.filter (fun n => decide (n ∉ obs.map (·.1)))
    refine List.Perm.trans (List.Perm.of_eq ?_) this
    rw [List.map_append] at hnd
    rw [List.map_append, List.filter_append]
    rw [List.filter_eq_nil_iff.2 (by intro a ha; simpa using ha), List.nil_append, List.filter_eq_self.2]
    intro a ha
    rw [List.nodup_append] at hnd
    simp only [decide_eq_true_eq]
    exact fun hc => hnd.2.2 a hc a ha rfl

end Verif.LogProb.Joint
