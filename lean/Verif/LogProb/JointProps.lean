import Verif.LogProb.JointSolve

/-! C79: `joint_log_prob` returns the sum of the log densities of the random variables at the given values. -/
namespace Verif.LogProb.Joint

open Verif.Propagate Verif.Inverse

/-! ### The order of the leaves -/

theorem sortByKey_perm {α : Type} (l : List (String × α)) : (sortByKey l).Perm l := List.mergeSort_perm _ _

theorem sortByKey_sorted {α : Type} (l : List (String × α)) : ((sortByKey l).map (·.1)).Pairwise (· ≤ ·) := by
  have := List.pairwise_mergeSort (le := fun a b : String × α => decide (a.1 ≤ b.1))
    (fun a b c h1 h2 => by
      simp only [decide_eq_true_eq] at h1 h2 ⊢
      exact String.le_trans h1 h2)
    (fun a b => by simpa using String.le_total a.1 b.1) l
  rw [List.pairwise_map]
  exact this.imp (fun h => by simpa using h)

/-- Dictionaries with the same keys have their leaves in the same order. -/
theorem sortByKey_keys {α β : Type} (l : List (String × α)) (m : List (String × β))
    (h : (l.map (·.1)).Perm (m.map (·.1))) : (sortByKey l).map (·.1) = (sortByKey m).map (·.1) := by
  refine List.Perm.eq_of_pairwise (le := (· ≤ ·)) (fun a b _ _ h1 h2 => String.le_antisymm h1 h2) (sortByKey_sorted l) (sortByKey_sorted m) ?_
  exact ((sortByKey_perm l).map _).trans (h.trans ((sortByKey_perm m).map _).symm)

theorem lookup_of_mem {l : List (String × F)} (hn : (l.map (·.1)).Nodup) {n : String} {v : F} (h : (n, v) ∈ l) :
    dict l n = some v := by
  unfold dict
  induction l with
  | nil => simp at h
  | cons p l ih =>
    obtain ⟨k, w⟩ := p
    simp only [List.map_cons, List.nodup_cons] at hn
    rcases List.mem_cons.1 h with h' | h'
    · obtain ⟨rfl, rfl⟩ := Prod.mk.inj h'
      simp [List.lookup]
    · have hne : n ≠ k := by
        rintro rfl
        exact hn.1 (List.mem_map.2 ⟨(n, v), h', rfl⟩)
      simp only [List.lookup, beq_false_of_ne hne]
      exact ih hn.2 h'

/-! ### The system of equations of a program -/

variable (S : Source)

/-- The jaxpr with all equations, whether the results depend on them or not. -/
def Source.whole (first : List (Atom F)) : LProg :=
  ⟨.var S.key :: S.args.map .var, S.results first, S.body.flatMap Stmt.eqns⟩

/-- The targets of the equations. -/
def Source.targets (e : Nat) : List Nat := (((S.body.flatMap Stmt.eqnsT)[e]?).map (·.2)).getD []

/-- The variables whose values are given. -/
def Source.Root (x : Nat) : Prop := x ∈ S.args ∨ ∃ n, (n, Atom.var x) ∈ S.body.flatMap Stmt.sown

theorem prog_eqn (first) (e : Nat) (q) : (S.whole first).jaxpr.eqns[e]? = some q ↔
    ∃ qT, (S.body.flatMap Stmt.eqnsT)[e]? = some qT ∧ q = peqn qT.1 := by
  have : (S.whole first).jaxpr.eqns = (S.body.flatMap Stmt.eqnsT).map (fun qT => peqn qT.1) := by
    simp only [LProg.jaxpr, Source.whole, ← flatMap_fst, List.map_map]
    rfl
  rw [this, List.getElem?_map, Option.map_eq_some_iff]
  constructor
  · rintro ⟨a, h1, h2⟩; exact ⟨a, h1, h2.symm⟩
  · rintro ⟨a, h1, h2⟩; exact ⟨a, h1, h2.symm⟩

theorem prog_nbr (first) (x e : Nat) : Nbr (S.whole first).jaxpr x e ↔
    ∃ qT, (S.body.flatMap Stmt.eqnsT)[e]? = some qT ∧ some x ∈ (qT.1.2.1 ++ qT.1.2.2).map Atom.node := by
  simp only [Nbr, prog_eqn]
  constructor
  · rintro ⟨q, ⟨qT, h1, rfl⟩, h2⟩; exact ⟨qT, h1, h2⟩
  · rintro ⟨qT, h1, h2⟩; exact ⟨_, ⟨qT, h1, rfl⟩, h2⟩

theorem linkT_targets (t ls) : (linkT t ls).flatMap (·.2) ++ [lastVar t ls] = t :: ls.map (fun l : Link × Nat => l.2) := by
  induction ls generalizing t with
  | nil => rfl
  | cons l ls ih =>
    obtain ⟨l, y⟩ := l
    simp only [linkT, List.flatMap_cons, lastVar, List.map_cons, List.cons_append, List.nil_append]
    rw [ih y]

theorem eqnsT_defs (st : Stmt) : (st.eqnsT.flatMap (·.2)).Sublist st.defs := by
  cases st with
  | det op ins outs => simp [Stmt.eqnsT, Stmt.defs]
  | draw D =>
    simp only [Stmt.eqnsT, Stmt.defs, List.flatMap_cons, List.nil_append]
    rw [← linkT_targets]
    exact List.sublist_append_left _ _
  | tag n a => simp [Stmt.eqnsT, Stmt.defs]

theorem targets_defs (body : List Stmt) : ((body.flatMap Stmt.eqnsT).flatMap (·.2)).Sublist (body.flatMap Stmt.defs) := by
  induction body with
  | nil => simp
  | cons st body ih =>
    simp only [List.flatMap_cons, List.flatMap_append]
    exact (eqnsT_defs st).append ih

theorem index_unique {α : Type} (l : List (α × List Nat)) (hn : (l.flatMap (·.2)).Nodup) (e e' : Nat) (p p') (x : Nat)
    (h1 : l[e]? = some p) (h2 : l[e']? = some p') (hx : x ∈ p.2) (hx' : x ∈ p'.2) : e = e' := by
  induction l generalizing e e' with
  | nil => simp at h1
  | cons a l ih =>
    simp only [List.flatMap_cons] at hn
    rw [List.nodup_append] at hn
    have hmem : ∀ {k : Nat} {r}, l[k]? = some r → x ∈ r.2 → x ∈ l.flatMap (·.2) := fun hk hr =>
      List.mem_flatMap.2 ⟨_, List.mem_of_getElem? hk, hr⟩
    cases e with
    | zero =>
      simp only [List.getElem?_cons_zero, Option.some.injEq] at h1; subst h1
      cases e' with
      | zero => rfl
      | succ e' => exact absurd rfl (hn.2.2 x hx x (hmem (by simpa using h2) hx'))
    | succ e =>
      cases e' with
      | zero =>
        simp only [List.getElem?_cons_zero, Option.some.injEq] at h2; subst h2
        exact absurd rfl (hn.2.2 x hx' x (hmem (by simpa using h1) hx))
      | succ e' => rw [ih hn.2.1 e e' (by simpa using h1) (by simpa using h2)]

/-- A target is not the value of a random variable. -/
theorem target_not_last (body : List Stmt) (hn : (body.flatMap Stmt.defs).Nodup) (htag : ∀ st ∈ body, ∀ n a, st ≠ .tag n a)
    (x : Nat) (hx : x ∈ (body.flatMap Stmt.eqnsT).flatMap (·.2)) (n : String) :
    (n, Atom.var x) ∉ body.flatMap Stmt.sown := by
  induction body with
  | nil => simp
  | cons st body ih =>
    simp only [List.flatMap_cons] at hn
    rw [List.nodup_append] at hn
    obtain ⟨hn1, hn2, hn3⟩ := hn
    have hlast : ∀ (st : Stmt), (∀ n a, st ≠ .tag n a) → (n, Atom.var x) ∈ st.sown → x ∈ st.defs ∧
        (st.defs.Nodup → x ∉ st.eqnsT.flatMap (·.2)) := by
      intro st ht hm
      cases st with
      | det op ins outs => simp [Stmt.sown] at hm
      | tag n a => exact absurd rfl (ht n a)
      | draw D =>
        rcases hD : D.name with _ | m
        · simp [Stmt.sown, hD] at hm
        · simp [Stmt.sown, hD] at hm
          obtain ⟨-, rfl⟩ := hm
          simp only [Stmt.defs, Stmt.eqnsT, List.flatMap_cons, List.nil_append, ← linkT_targets]
          refine ⟨by simp, ?_⟩
          intro hnd hc
          rw [List.nodup_append] at hnd
          exact hnd.2.2 _ hc _ (by simp) rfl
    have hlast' : (n, Atom.var x) ∈ body.flatMap Stmt.sown → x ∈ body.flatMap Stmt.defs := by
      intro hm
      obtain ⟨st', h1, h2⟩ := List.mem_flatMap.1 hm
      exact List.mem_flatMap.2 ⟨st', h1, (hlast st' (htag st' (by simp [h1])) h2).1⟩
    simp only [List.flatMap_cons, List.flatMap_append, List.mem_append] at hx ⊢
    rintro (hc | hc)
    · obtain ⟨h1, h2⟩ := hlast st (htag st (by simp)) hc
      rcases hx with hx | hx
      · exact h2 hn1 hx
      · exact hn3 x h1 x ((targets_defs body).subset hx) rfl
    · rcases hx with hx | hx
      · exact hn3 x ((eqnsT_defs st).subset hx) x (hlast' hc) rfl
      · exact ih hn2 (fun s h => htag s (by simp [h])) hx hc

theorem chainEq_last (G : Env ICell) (t ls c) (h : ChainEq G t ls c) : G (lastVar t ls) = c := by
  induction ls generalizing t with
  | nil => exact h
  | cons l ls ih => obtain ⟨l, y⟩ := l; exact ih y h.2

/-- What is known after the run is reached by the propagation. -/
theorem reach_chain {J : Jaxpr ICell F (Option F)} {T : Nat → List Nat} {root : Nat → Prop} (env : Env ICell)
    (henv : ∀ x, env x ≠ none → Reach J T root x) (t ls c)
    (hlast : c ≠ none → root (lastVar t ls))
    (hq : ∀ qT ∈ linkT t ls, ∃ e, T e = qT.2 ∧ ∀ z, Nbr J z e ↔ some z ∈ (qT.1.2.1 ++ qT.1.2.2).map Atom.node)
    (hn : (t :: ls.map (fun l : Link × Nat => l.2)).Nodup)
    (hu : ∀ x ∈ (ls.flatMap (fun l => l.1.operand)).filterMap Atom.node, x ∉ t :: ls.map (fun l : Link × Nat => l.2)) :
    ∀ x ∈ t :: ls.map (fun l : Link × Nat => l.2), ∀ e0, putChain env t ls c e0 x ≠ none → Reach J T root x := by
  induction ls generalizing t with
  | nil =>
    intro x hx e0 hk
    simp only [List.map_nil, List.mem_singleton] at hx
    subst hx
    rw [putChain_head] at hk
    exact .root _ (hlast hk)
  | cons l ls ih =>
    obtain ⟨l, y⟩ := l
    simp only [List.map_cons, List.nodup_cons] at hn
    simp only [List.flatMap_cons, List.filterMap_append, List.mem_append] at hu
    have ih' := ih y hlast (fun qT h => hq qT (List.mem_cons_of_mem _ h)) (List.nodup_cons.2 hn.2)
      (fun x hx hc => hu x (.inr hx) (List.mem_cons_of_mem _ (by simpa using hc)))
    intro x hx0 e0 hk
    rcases List.mem_cons.1 hx0 with rfl | hx
    · rw [putChain_head, chainCell] at hk
      have hty : y ≠ x := by rintro rfl; exact hn.1 (by simp)
      have hcy : chainCell env ls c ≠ none := by
        intro hc; apply hk; rw [hc]; cases l <;> rfl
      have hy : Reach J T root y := ih' y (by simp) e0 (by rw [putChain_head]; exact hcy)
      have hop : ∀ a ∈ l.operand, ∀ z, a.node = some z → Reach J T root z := by
        intro a ha z hz
        refine henv z ?_
        intro hc
        apply hk
        have hr : Propagate.read iOps env a = none := by
          cases a with
          | lit v => simp [Atom.node] at hz
          | var w => simp only [Atom.node, Option.some.injEq] at hz; subst hz; exact hc
          | drop w => simp only [Atom.node, Option.some.injEq] at hz; subst hz; exact hc
        cases l with
        | un p => simp [Link.operand] at ha
        | left p b =>
          simp only [Link.operand, List.mem_singleton] at ha; subst ha
          rcases chainCell env ls c with _ | v <;> simp [Link.back, hr]
        | right p b =>
          simp only [Link.operand, List.mem_singleton] at ha; subst ha
          rcases chainCell env ls c with _ | v <;> simp [Link.back, hr]
      obtain ⟨e, he, hnb⟩ := hq (l.eqn x y, [x]) (by simp [linkT])
      refine .step e x y (by rw [he]; simp) ((hnb y).2 ?_) (by rw [he]; simpa using hty) ?_
      · cases l <;> simp [Link.eqn, Atom.node]
      · intro z hz hzT
        rw [he] at hzT
        rw [hnb] at hz
        simp only [List.mem_singleton] at hzT
        have : z = x ∨ z = y ∨ ∃ a ∈ l.operand, a.node = some z := by
          cases l with
          | un p => simp [Link.eqn, Atom.node] at hz; tauto
          | left p b => simp [Link.eqn, Atom.node, Link.operand] at hz ⊢; rcases hz with h | h | h <;> simp [h]
          | right p b => simp [Link.eqn, Atom.node, Link.operand] at hz ⊢; rcases hz with h | h | h <;> simp [h]
        rcases this with h | rfl | ⟨a, ha, hz'⟩
        · exact absurd h hzT
        · exact hy
        · exact hop a ha z hz'
    · have hxt : x ≠ t := by rintro rfl; exact hn.1 hx
      rw [putChain, put_ne _ _ hxt] at hk
      exact ih' x hx e0 hk

theorem reach_run {J : Jaxpr ICell F (Option F)} {T : Nat → List Nat} {root : Nat → Prop} (lat) (body : List Stmt)
    (env : Env ICell) (henv : ∀ x, env x ≠ none → Reach J T root x) (hs : ∀ st ∈ body, st.Sized) (hsc : Scoped body)
    (hn : (body.flatMap Stmt.defs).Nodup)
    (hroot : ∀ D, Stmt.draw D ∈ body → D.given lat ≠ none → root (lastVar D.value D.links))
    (hq : ∀ qT ∈ body.flatMap Stmt.eqnsT, ∃ e, T e = qT.2 ∧ ∀ z, Nbr J z e ↔ some z ∈ (qT.1.2.1 ++ qT.1.2.2).map Atom.node) :
    ∀ x, runAll lat env body x ≠ none → Reach J T root x := by
  induction body generalizing env with
  | nil => exact henv
  | cons st body ih =>
    simp only [List.flatMap_cons] at hn
    rw [List.nodup_append] at hn
    refine ih _ ?_ (fun s h => hs s (List.mem_cons_of_mem _ h)) hsc.2 hn.2.1 (fun D h => hroot D (List.mem_cons_of_mem _ h)) (fun qT h => hq qT (by
      simp only [List.flatMap_cons, List.mem_append]; exact .inr h))
    have hq' : ∀ qT ∈ st.eqnsT, ∃ e, T e = qT.2 ∧ ∀ z, Nbr J z e ↔ some z ∈ (qT.1.2.1 ++ qT.1.2.2).map Atom.node := fun qT h => hq qT (by
      simp only [List.flatMap_cons, List.mem_append]; exact .inl h)
    have hu : ∀ x ∈ st.uses, x ∉ st.defs := fun x hx hc => hsc.1 x hx (List.mem_append_left _ hc)
    intro x hk
    by_cases hx : x ∈ st.defs
    · cases st with
      | det op ins outs =>
        simp only [Stmt.run] at hk
        rcases hm : (ins.map (Propagate.read iOps env)).mapM id with _ | vs
        · rw [hm] at hk; exact henv x hk
        · obtain ⟨e, he, hnb⟩ := hq' _ (List.mem_singleton.2 rfl)
          obtain ⟨y, hy⟩ := (hs _ (by simp) : (Stmt.det op ins outs).Sized).1
          have hd : ∀ z, some z ∈ ins.map Atom.node → z ∉ outs := by
            intro z hz
            obtain ⟨a, h1, h2⟩ := List.mem_map.1 hz
            exact hu z (List.mem_filterMap.2 ⟨a, h1, h2⟩)
          have hr : ∀ z, some z ∈ ins.map Atom.node → Reach J T root z := fun z hz =>
            henv z ((mapM_read env ins).1 (by rw [hm]; rfl) z hz)
          refine .step e x y (by rw [he]; exact hx) ((hnb y).2 ?_) (by rw [he]; exact hd y hy) ?_
          · simp only [List.map_append, List.mem_append]; exact .inl hy
          · intro z hz hzT
            rw [hnb] at hz
            rw [he] at hzT
            simp only [List.map_append, List.mem_append] at hz
            rcases hz with hz | hz
            · exact hr z hz
            · simp only [List.map_map, List.mem_map, Function.comp, Atom.node, Option.some.injEq, exists_eq_right] at hz
              exact absurd hz hzT
      | draw D =>
        refine reach_chain env henv D.value D.links (D.given lat) (hroot D (by simp)) (fun qT h => hq' qT (List.mem_cons_of_mem _ h)) hn.1 ?_ x hx env hk
        intro z hz
        refine hu z ?_
        simp only [Stmt.uses, List.filterMap_append, List.mem_append]
        exact .inr hz
      | tag n a => simp [Stmt.defs] at hx
    · rw [st.run_frame _ _ _ hx] at hk
      exact henv x hk

theorem scoped_mem {body : List Stmt} (h : Scoped body) : ∀ st ∈ body, ∀ x ∈ st.uses, x ∉ st.defs := by
  induction body with
  | nil => simp
  | cons st body ih =>
    intro st' hst x hx hc
    rcases List.mem_cons.1 hst with rfl | hst
    · exact h.1 x hx (List.mem_append_left _ hc)
    · exact ih h.2 st' hst x hx hc

theorem defs_mem {body : List Stmt} (h : (body.flatMap Stmt.defs).Nodup) : ∀ st ∈ body, st.defs.Nodup := by
  intro st hst
  exact (List.nodup_flatMap.1 h).1 st hst

variable {S}

/-- What the specification knows in the end. -/
noncomputable abbrev Source.final (S : Source) (lat : String → Option F) (args : List F) : Env ICell :=
  runAll lat (argEnv S.args args) S.body

theorem WF.body (h : S.WF) : (S.body.flatMap Stmt.defs).Nodup ∧ S.args.Nodup ∧ (∀ x ∈ S.args, x ∉ S.body.flatMap Stmt.defs) ∧
    S.key ∉ S.args ∧ S.key ∉ S.body.flatMap Stmt.defs := by
  have := h.once
  rw [List.cons_append, List.nodup_cons, List.nodup_append, List.mem_append, not_or] at this
  exact ⟨this.2.2.1, this.2.1, fun x hx hc => this.2.2.2 x hx x hc rfl, this.1.1, this.1.2⟩

theorem final_args (h : S.WF) (lat) (args : List F) (hl : args.length = S.args.length) :
    S.args.map (S.final lat args) = args.map fun v => some (v, some 0) := by
  obtain ⟨-, h2, h3, -⟩ := WF.body h
  rw [← putAll_get (fun _ => none) S.args (args.map fun v => some (v, some 0)) h2 (by simpa using hl)]
  apply List.map_congr_left
  intro x hx
  rw [Source.final, runAll_frame _ _ _ _ (h3 x hx)]
  rfl

/-- The equations of a program with the values of its named random variables form a system whose solution is the
environment of the specification. -/
theorem system (h : S.WF) (hT : S.NoTags) (first) (lat : String → Option F) (args : List F) (hl : args.length = S.args.length)
    (hlat : ∀ n ∈ S.names, lat n ≠ none) :
    System (S.whole first).jaxpr S.targets S.Root (S.final lat args) := by
  obtain ⟨hb1, hb2, hb3, hb4, hb5⟩ := WF.body h
  have hnone : ∀ x ∈ S.body.flatMap Stmt.defs, argEnv S.args args x = none := by
    intro x hx
    rw [argEnv, putAll_frame]
    exact fun hc => hb3 x hc hx
  have heqs := runAll_eqs lat S.body (argEnv S.args args) h.sized h.order hb1 hnone
  have hgood : ∀ e qT, (S.body.flatMap Stmt.eqnsT)[e]? = some qT → Good (S.final lat args) qT.1 qT.2 ∧ S.targets e = qT.2 := by
    intro e qT he
    refine ⟨?_, by simp [Source.targets, he]⟩
    obtain ⟨st, h1, h2⟩ := List.mem_flatMap.1 (List.mem_of_getElem? he)
    exact st.good lat _ (h.sized st h1) (defs_mem hb1 st h1) (scoped_mem h.order st h1) (heqs st h1) qT h2
  have htgt : ∀ e x, x ∈ S.targets e → ∃ qT, (S.body.flatMap Stmt.eqnsT)[e]? = some qT ∧ x ∈ qT.2 := by
    intro e x hx
    rcases he : (S.body.flatMap Stmt.eqnsT)[e]? with _ | qT
    · simp [Source.targets, he] at hx
    · exact ⟨qT, rfl, by simpa [Source.targets, he] using hx⟩
  have hnd : ((S.body.flatMap Stmt.eqnsT).flatMap (·.2)).Nodup := (targets_defs S.body).nodup hb1
  refine ⟨?_, ?_, ?_, ?_, ?_, ?_, ?_, ?_⟩
  · intro e x hx
    obtain ⟨qT, h1, h2⟩ := htgt e x hx
    exact (prog_nbr S first x e).2 ⟨qT, h1, (hgood e qT h1).1.nbr x h2⟩
  · intro e e' x hx hx'
    obtain ⟨p, h1, h2⟩ := htgt e x hx
    obtain ⟨p', h3, h4⟩ := htgt e' x hx'
    exact index_unique _ hnd e e' p p' x h1 h3 h2 h4
  · intro e x hx hr
    obtain ⟨qT, h1, h2⟩ := htgt e x hx
    have hmem : x ∈ (S.body.flatMap Stmt.eqnsT).flatMap (·.2) := List.mem_flatMap.2 ⟨qT, List.mem_of_getElem? h1, h2⟩
    rcases hr with hr | ⟨n, hr⟩
    · exact hb3 x hr ((targets_defs S.body).subset hmem)
    · exact target_not_last S.body hb1 hT x hmem n hr
  · intro x hr
    rcases hr with hr | ⟨n, hr⟩
    · have := final_args h lat args hl
      have hx : S.final lat args x ∈ S.args.map (S.final lat args) := List.mem_map.2 ⟨x, hr, rfl⟩
      rw [this] at hx
      obtain ⟨v, -, hv⟩ := List.mem_map.1 hx
      rw [← hv]; simp
    · obtain ⟨st, h1, h2⟩ := List.mem_flatMap.1 hr
      cases st with
      | det op ins outs => simp [Stmt.sown] at h2
      | tag m a => exact absurd rfl (hT _ h1 m a)
      | draw D =>
        rcases hD : D.name with _ | m
        · simp [Stmt.sown, hD] at h2
        · simp [Stmt.sown, hD] at h2
          obtain ⟨rfl, rfl⟩ := h2
          have := chainEq_last _ _ _ _ (heqs _ h1)
          rw [Source.final, this]
          have hn := hlat n (List.mem_map.2 ⟨_, hr, rfl⟩)
          obtain ⟨v, hv⟩ := Option.ne_none_iff_exists'.1 hn
          simp [Draw.given, hD, hv]
  · intro e q he
    obtain ⟨qT, h1, rfl⟩ := (prog_eqn S first e q).1 he
    rw [(hgood e qT h1).2]
    exact (hgood e qT h1).1.solve
  · intro e q env he hnone hex
    obtain ⟨qT, h1, rfl⟩ := (prog_eqn S first e q).1 he
    rw [(hgood e qT h1).2] at hnone hex
    refine (hgood e qT h1).1.idle env hnone ?_
    obtain ⟨x, h2, h3⟩ := hex
    obtain ⟨qT', h4, h5⟩ := (prog_nbr S first x e).1 h2
    rw [h1] at h4; obtain rfl := Option.some.inj h4
    exact ⟨x, h5, h3⟩
  · refine reach_run lat S.body (argEnv S.args args) ?_ h.sized h.order hb1 ?_ ?_
    · intro x hx
      refine .root _ (.inl ?_)
      by_contra hc
      apply hx
      rw [argEnv, putAll_frame _ _ _ _ hc]
    · intro D hD hg
      rcases hm : D.name with _ | m
      · simp [Draw.given, hm] at hg
      · exact .inr ⟨m, List.mem_flatMap.2 ⟨_, hD, by simp [Stmt.sown, hm]⟩⟩
    · intro qT hq
      obtain ⟨e, he⟩ := List.mem_iff_getElem?.1 hq
      refine ⟨e, (hgood e qT he).2, ?_⟩
      intro z
      rw [prog_nbr]
      constructor
      · rintro ⟨qT', h1, h2⟩
        rw [he] at h1; obtain rfl := Option.some.inj h1; exact h2
      · exact fun h2 => ⟨qT, he, h2⟩
  · intro e _ hall x hx
    obtain ⟨qT, h1, h2⟩ := htgt e x hx
    refine (hgood e qT h1).1.all ?_ x h2
    intro y hy hyT
    exact hall y ((prog_nbr S first y e).2 ⟨qT, h1, hy⟩) (by rw [(hgood e qT h1).2]; exact hyT)

end Verif.LogProb.Joint
