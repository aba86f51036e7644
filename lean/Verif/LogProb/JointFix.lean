import Verif.LogProb.JointDoThms
import Verif.LogProb.JointLawProps

/-! C83: `joint_sample` of `intervene` and `conditional` (helper lemmas): the program in which the planted random variables
are assignments. -/
namespace Verif.LogProb.Joint

open Verif.Propagate Verif.Inverse Verif.Plate MeasureTheory
open scoped ENNReal

variable {Ω : Type} {obs : String → Option (Atom F)} {extra : List Nat} {S : Source}

/-- The program in which the planted random variables are assignments. -/
def fixStmt (obs : String → Option (Atom F)) : Stmt → Stmt
  | .draw D => match D.name.bind obs with
    | some a => .det (.other fun vs => vs) [a] [lastVar D.value D.links]
    | none => .draw D
  | st => st

/-! ### The terms -/

theorem fix_terms (hp : Plants extra obs) (all : List Stmt) (hn : (all.flatMap Stmt.defs).Nodup)
    (he : ∀ e ∈ extra, e ∉ all.flatMap Stmt.defs)
    (hl : ∀ st ∈ all, ∀ x ∈ st.uses, ∀ D ∈ draws all, x ∉ D.inner)
    (hf : ∀ st ∈ all, ∀ x ∈ st.uses, x ∉ extra) (hnm : ∀ D ∈ draws all, D.name ≠ none)
    (given : List String) (hg : ∀ n, n ∈ given ↔ obs n ≠ none) (lat : String → Option F) (base : Env ICell)
    (h1 : ∀ n a, obs n = some a → ∃ v, lat n = some v ∧ Propagate.read iOps base a = some (v, some 0))
    (body : List Stmt) : ∀ pre, all = pre ++ body → ∀ env' env : Env ICell, (∀ e ∈ extra, env' e = base e) →
    (∀ x, ¬ (Hidden obs all x ∨ x ∈ extra) → env' x = env x) →
    terms lat env' (body.map (fixStmt obs)) = termsWithout given lat env body := by
  induction body with
  | nil => intro pre _ env' env _ _; rfl
  | cons st rest ih =>
    intro pre hall env' env hb ha
    have ih := ih (pre ++ [st]) (by rw [hall]; simp)
    have hst : st ∈ all := by rw [hall]; simp
    have hxd : ∀ x ∈ st.defs, x ∉ extra := fun x hx hc => he x hc (defs_disjoint hst x hx)
    have hu : ∀ x ∈ st.uses, env' x = env x := by
      refine fun x hx => ha x ?_
      rintro (⟨D, hD, -, hi⟩ | hi)
      · exact hl st hst x hx D hD hi
      · exact hf st hst x hx hi
    have hnd : st.defs.Nodup := defs_mem hn st hst
    have keep := ih (st.run lat env') (st.run lat env)
      (fun e hee => by rw [Stmt.run_frame _ _ _ _ fun hc => hxd e hc hee, hb e hee])
      (fun x hx => run_congr lat env' env st hu x (ha x hx))
    cases st with
    | tag n a => exact keep
    | det op ins outs => exact keep
    | draw D =>
      obtain ⟨n, hDn⟩ := Option.ne_none_iff_exists'.1 (hnm D (draws_mem.2 hst))
      rcases ho : obs n with _ | a
      · have hng : ¬ ∃ m ∈ given, D.name = some m := by
          rintro ⟨m, hm, hmn⟩
          rw [hDn, Option.some.injEq] at hmn
          subst hmn
          exact (hg n).1 hm ho
        have hob : D.name.bind obs = none := by simp [hDn, ho]
        have e1 : fixStmt obs (.draw D) = .draw D := by simp only [fixStmt, hob]
        rw [List.map_cons, e1]
        simp only [terms, termsWithout, if_neg hng, keep]
        rw [term_congr lat env' env D hu]
      · have hgg : ∃ m ∈ given, D.name = some m := ⟨n, (hg n).2 (by simp [ho]), hDn⟩
        have hob : D.name.bind obs = some a := by simp [hDn, ho]
        obtain ⟨v, hv1, hv2⟩ := h1 n a ho
        have e1 : fixStmt obs (.draw D) = .det (.other fun vs => vs) [a] [lastVar D.value D.links] := by
          simp only [fixStmt, hob]
        have hlast : ∀ e ∈ extra, e ≠ lastVar D.value D.links := by
          rintro e hee rfl
          exact hxd _ (lastVar_mem _ _) hee
        have hread : Propagate.read iOps env' a = some (v, some 0) := by
          rw [← hv2]
          rcases hp n a ho with ⟨c, rfl⟩ | ⟨e, hee, rfl⟩
          · rfl
          · exact hb e hee
        rw [List.map_cons, e1]
        have hrun : (Stmt.det (.other fun vs => vs) [a] [lastVar D.value D.links]).run lat env'
            = put env' (lastVar D.value D.links) (some (v, some 0)) := by
          simp only [Stmt.run, List.map_cons, List.map_nil, hread]
          rfl
        simp only [terms, termsWithout, if_pos hgg, List.nil_append, hrun]
        refine ih _ _ (fun e hee => ?_) fun x hx => ?_
        · simp only [put, if_neg (hlast e hee), hb e hee]
        · have hgiv : D.given lat = some (v, some 0) := by simp [Draw.given, hDn, hv1]
          by_cases hxl : x = lastVar D.value D.links
          · subst hxl
            simp only [put, if_true, Stmt.run, hgiv]
            exact (putChain_last _ _ _ _ _ hnd).symm
          · have hxn : x ∉ (Stmt.draw D).defs := by
              intro hc
              rcases inner_or_last D.links D.value x hc with h | h
              · exact hx (.inl ⟨D, draws_mem.2 hst, by simp [Planted, hob], h⟩)
              · exact hxl h
            rw [Stmt.run_frame _ _ _ _ hxn]
            simp only [put, if_neg hxl]
            exact ha x hx

/-! ### The samples -/

/-- The keys of the random variables come from the key of the program: they are not random values, and what they are
computed from includes a key. -/
def Source.KeysFromKeys (S : Source) : Prop :=
  ∃ K : ℕ → Prop, (∀ D ∈ draws S.body, ∃ k, D.HasKey k ∧ K k) ∧ (∀ D ∈ draws S.body, ¬ K (lastVar D.value D.links)) ∧
    ∀ op ins outs, Stmt.det op ins outs ∈ S.body → (∃ x ∈ outs, K x) → ∃ x, .var x ∈ ins ∧ K x

/-- What a variable stands for has the value of the variable. -/
def Same (σ : ℕ → Atom F) (valT val : ℕ → ℝ) : Prop := ∀ x, aval valT (σ x) = some (val x)

theorem Same.replace {σ valT val} (h : Same σ valT val) (as : List (Atom F)) :
    (as.map (replace σ)).map (aval valT) = as.map (aval val) := by
  rw [List.map_map]
  refine List.map_congr_left fun a _ => ?_
  cases a with
  | lit c => rfl
  | var x => exact h x
  | drop x => exact h x

theorem aval_set_ne (val : ℕ → ℝ) (x : ℕ) (v : ℝ) (a : Atom F) (h : a.node ≠ some x) : aval (setR val x v) a = aval val a := by
  cases a with
  | lit c => rfl
  | var y =>
    have : y ≠ x := fun e => h (by simp [Atom.node, e])
    simp [aval, setR, this]
  | drop y =>
    have : y ≠ x := fun e => h (by simp [Atom.node, e])
    simp [aval, setR, this]

theorem Same.set {σ valT val} (h : Same σ valT val) (hσ : Stands extra σ) (x : ℕ) (hx : σ x = .var x) (hxe : x ∉ extra) (v : ℝ) :
    Same σ (setR valT x v) (setR val x v) := by
  intro y
  by_cases hyx : y = x
  · subst hyx
    rw [hx]
    simp [aval, setR]
  · rw [aval_set_ne _ _ _ _ (hσ.node hxe hyx), h y]
    simp [setR, hyx]

theorem Same.setAll (xs : List ℕ) : ∀ {σ valT val}, Same σ valT val → Stands extra σ → (∀ x ∈ xs, σ x = .var x ∧ x ∉ extra) →
    ∀ vs : List F, Same σ (setAll valT xs vs) (setAll val xs vs) := by
  induction xs with
  | nil => intro σ valT val h _ _ vs; cases vs <;> exact h
  | cons x xs ih =>
    intro σ valT val h hσ hx vs
    cases vs with
    | nil => exact h
    | cons v vs =>
      exact ih (h.set hσ x (hx x List.mem_cons_self).1 (hx x List.mem_cons_self).2 _) hσ
        (fun y hy => hx y (List.mem_cons_of_mem _ hy)) vs

theorem Same.fold (xs : List ℕ) : ∀ {σ valT val}, Same σ valT val → ∀ cs : List F, (∀ c ∈ cs, c ≠ none) →
    Same (bindAll σ xs cs) valT (Joint.setAll val xs cs) := by
  induction xs with
  | nil => intro σ valT val h cs _; cases cs <;> exact h
  | cons x xs ih =>
    intro σ valT val h cs hcs
    cases cs with
    | nil => exact h
    | cons c cs =>
      refine ih (fun y => ?_) cs fun d hd => hcs d (List.mem_cons_of_mem _ hd)
      rcases c with _ | r
      · exact absurd rfl (hcs none List.mem_cons_self)
      · simp only [bind1, setR]
        split
        · rfl
        · exact h y

theorem Same.pushes {σ valT val} (h : Same σ valT val) (ls : List (Link × ℕ)) :
    Joint.pushes valT (ls.map fun l => (l.1.replace σ, l.2)) = Joint.pushes val ls := by
  induction ls with
  | nil => rfl
  | cons p ls ih =>
    obtain ⟨l, y⟩ := p
    have h1 : ∀ a, aval valT (Joint.replace σ a) = aval val a := by
      intro a
      have := h.replace [a]
      simpa using this
    funext x
    simp only [List.map_cons, Joint.pushes, ih]
    congr 1
    cases l with
    | un p => rfl
    | left p a => simp only [Link.replace, Link.map, h1]
    | right p a => simp only [Link.replace, Link.map, h1]

theorem fix_samples (samp : Draw → List F → (Key → Ω) → ℝ) (keyOf : ℕ → Key) (ω : Key → Ω) (hp : Plants extra obs)
    (hnum : ∀ n c, obs n = some (.lit c) → c ≠ none)
    (hsamp : ∀ (D : Draw) σ, samp (D.replace σ) = samp D)
    (all : List Stmt) (hn : (all.flatMap Stmt.defs).Nodup) (he : ∀ e ∈ extra, e ∉ all.flatMap Stmt.defs)
    (hT : ∀ st ∈ all, ∀ n a, st ≠ .tag n a)
    (htot : ∀ st ∈ all, st.Total) (K : ℕ → Prop)
    (hK1 : ∀ D ∈ draws all, ∃ k, D.HasKey k ∧ K k) (hK2 : ∀ D ∈ draws all, ¬ K (lastVar D.value D.links))
    (hK3 : ∀ op ins outs, Stmt.det op ins outs ∈ all → (∃ x ∈ outs, K x) → ∃ x, .var x ∈ ins ∧ K x)
    (body : List Stmt) : ∀ pre, all = pre ++ body → ∀ σ valT val, Stands extra σ → (∀ x ∈ body.flatMap Stmt.defs, σ x = .var x) →
    (∀ k, K k → σ k = .var k) → (∀ e ∈ extra, valT e = val e) → Same σ valT val →
    jointSample samp keyOf ω (plantBody obs σ body).1 valT = jointSample samp keyOf ω (body.map (fixStmt obs)) val := by
  induction body with
  | nil => intro pre _ σ valT val _ _ _ _ _; rfl
  | cons st rest ih =>
    intro pre hall σ valT val hσ hv hk hb hsame
    have ih := ih (pre ++ [st]) (by rw [hall]; simp)
    have hst : st ∈ all := by rw [hall]; simp
    have hxd : ∀ x ∈ st.defs, σ x = .var x ∧ x ∉ extra := by
      intro x hx
      refine ⟨hv x ?_, fun hc => he x hc (defs_disjoint hst x hx)⟩
      rw [List.flatMap_cons]; exact List.mem_append_left _ hx
    have hv' : ∀ x ∈ rest.flatMap Stmt.defs, σ x = .var x := fun x hx => hv x (by
      rw [List.flatMap_cons]; exact List.mem_append_right _ hx)
    have hdisj : ∀ x ∈ rest.flatMap Stmt.defs, x ∉ st.defs := by
      rw [hall, List.flatMap_append, List.nodup_append, List.flatMap_cons, List.nodup_append] at hn
      exact fun x hx hc => hn.2.1.2.2 x hc x hx rfl
    cases st with
    | tag n a => exact absurd rfl (hT _ hst n a)
    | det op ins outs =>
      have hr := hsame.replace ins
      simp only [plantBody, List.map_cons, fixStmt]
      split
      · rename_i cs hcs
        rw [mapM_constant _ _ hcs] at hr
        have hcs' : cs = ins.map (aval val) := by
          rw [← hr, List.map_map]
          exact (List.map_id' cs).symm
        simp only [jointSample]
        rw [← hcs']
        have hout : ∀ x ∈ outs, ¬ K x := by
          intro x hx hc
          obtain ⟨z, hz, hzK⟩ := hK3 op ins outs hst ⟨x, hx, hc⟩
          have := mapM_constant _ _ hcs
          have hm : Atom.var z ∈ ins.map (replace σ) := List.mem_map.2 ⟨_, hz, by simp [replace, hk z hzK]⟩
          rw [this] at hm
          obtain ⟨c, -, hc⟩ := List.mem_map.1 hm
          simp at hc
        refine ih _ _ _ (Stands.bindAll outs _ hσ) (fun x hx => ?_) (fun k hkk => ?_) (fun e hee => ?_) ?_
        · rw [bindAll_frame _ _ _ _ (show x ∉ outs from hdisj x hx), hv' x hx]
        · rw [bindAll_frame _ _ _ _ fun hc => hout k hc hkk, hk k hkk]
        · rw [setAll_other outs _ _ _ (fun hc => (hxd e hc).2 hee), hb e hee]
        · refine hsame.fold outs _ ?_
          rw [hcs']
          exact htot _ hst val
      · simp only [jointSample, hr]
        refine ih σ _ _ hσ hv' hk (fun e hee => ?_) (hsame.setAll outs hσ hxd _)
        rw [setAll_other outs _ _ _ (fun hc => (hxd e hc).2 hee), setAll_other outs _ _ _ (fun hc => (hxd e hc).2 hee), hb e hee]
    | draw D =>
      have hlast : ∀ e ∈ extra, e ≠ lastVar D.value D.links := by
        rintro e hee rfl
        exact (hxd _ (lastVar_mem _ _)).2 hee
      rcases ho : D.name.bind obs with _ | a
      · simp only [plantBody, ho, List.map_cons, fixStmt, jointSample]
        have e1 : (D.replace σ).params valT = D.params val := by
          simp only [Draw.params, Draw.replace, ← List.map_drop]
          exact hsame.replace _
        have e2 : Joint.pushes valT (D.replace σ).links = Joint.pushes val D.links := hsame.pushes D.links
        have e3 : (D.replace σ).keyVar = D.keyVar := by
          obtain ⟨k, hk1, hk2⟩ := hK1 D (draws_mem.2 hst)
          have : (D.replace σ).HasKey k := by
            simp only [Draw.HasKey, Draw.replace, List.getElem?_map]
            rw [show D.operands[D.numConsts]? = some (.var k) from hk1]
            simp [replace, hk k hk2]
          rw [this.keyVar, hk1.keyVar]
        have e4 : lastVar (D.replace σ).value (D.replace σ).links = lastVar D.value D.links := lastVar_replace σ D.links D.value
        rw [e1, e2, e3, e4, hsamp]
        congr 1
        have hl := hxd _ (lastVar_mem D.value D.links)
        refine ih σ _ _ hσ hv' hk (fun e hee => ?_) (hsame.set hσ _ hl.1 hl.2 _)
        simp only [setR, if_neg (hlast e hee), hb e hee]
      · obtain ⟨n, hDn, hoa⟩ := Option.bind_eq_some_iff.1 ho
        simp only [plantBody, ho, List.map_cons, fixStmt, jointSample, List.nil_append]
        have e4 : lastVar (D.replace σ).value (D.replace σ).links = lastVar D.value D.links := lastVar_replace σ D.links D.value
        rw [e4]
        generalize Joint.pushes valT (D.replace σ).links _ = w
        refine ih _ _ _ (hσ.bind1 _ (hp n a hoa)) (fun x hx => ?_) (fun k hkk => ?_) (fun e hee => ?_) ?_
        · simp only [bind1]
          rw [if_neg, hv' x hx]
          rintro rfl
          exact hdisj _ hx (lastVar_mem _ _)
        · simp only [bind1]
          rw [if_neg, hk k hkk]
          rintro rfl
          exact hK2 D (draws_mem.2 hst) hkk
        · simp only [Op.eval, List.map_nil, setAll, setR, if_neg (hlast e hee), hb e hee]
        · intro x
          simp only [bind1, Op.eval, List.map_nil, setAll]
          split
          · rename_i hx
            subst hx
            rcases hp n a hoa with ⟨c, rfl⟩ | ⟨e, hee, rfl⟩
            · rcases c with _ | r
              · exact absurd rfl (hnum n none hoa)
              · simp [aval, setR]
            · simp [aval, setR, hlast e hee, hb e hee]
          · rename_i hx
            rw [aval_set_ne _ _ _ _ (hσ.node (hxd _ (lastVar_mem _ _)).2 hx), hsame x]
            simp [setR, hx]

end Verif.LogProb.Joint
