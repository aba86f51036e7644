import Verif.LogProb.JointTrim
import Verif.LogProb.JointDensity

/-! C79: the jaxpr of a program is that of its statements that a named value depends on. -/
namespace Verif.LogProb.Joint

open Verif.Propagate Verif.Inverse

variable {S : Source}

/-- The variables that some equations define. -/
abbrev outsOf (qs : List (LOp × List (Atom F) × List (Atom F))) : List Nat := qs.flatMap fun q => vars q.2.2

theorem outsOf_links (t : Nat) (ls : List (Link × Nat)) : outsOf (linkEqns t ls) = ls.map (·.2) := by
  induction ls generalizing t with
  | nil => rfl
  | cons p ls ih =>
    obtain ⟨l, y⟩ := p
    have : vars (l.eqn t y).2.2 = [y] := by cases l <;> rfl
    simp only [linkEqns, outsOf, List.flatMap_cons, this, List.map_cons]
    rw [show (linkEqns y ls).flatMap (fun q => vars q.2.2) = ls.map (·.2) from ih y]
    rfl

theorem outsOf_eqns (st : Stmt) : outsOf st.eqns = st.defs := by
  cases st with
  | tag n a => rfl
  | det op ins outs => simpa [outsOf, Stmt.eqns, Stmt.defs] using vars_map_var outs
  | draw D =>
    have := outsOf_links D.value D.links
    simp only [outsOf] at this
    simp only [outsOf, Stmt.eqns, Stmt.defs, List.flatMap_cons, this]
    rfl

theorem outsOf_body (body : List Stmt) : outsOf (body.flatMap Stmt.eqns) = body.flatMap Stmt.defs := by
  induction body with
  | nil => rfl
  | cons st rest ih =>
    have h1 := outsOf_eqns st
    simp only [outsOf] at h1 ih
    simp only [outsOf, List.flatMap_cons, List.flatMap_append, h1, ih]

theorem escoped_links (E) (hE : EScoped E) (ls : List (Link × Nat)) : ∀ t, (t :: ls.map (·.2)).Nodup →
    (∀ x ∈ t :: ls.map (·.2), x ∉ outsOf E) →
    (∀ x ∈ vars (ls.flatMap fun l => l.1.operand), x ∉ ls.map (·.2) ∧ x ∉ outsOf E) → EScoped (linkEqns t ls ++ E) := by
  induction ls with
  | nil => intro t _ _ _; exact hE
  | cons p ls ih =>
    obtain ⟨l, y⟩ := p
    intro t hn hd ho
    have hv : ∀ x ∈ vars (ls.flatMap fun l => l.1.operand), x ∉ ls.map (·.2) ∧ x ∉ outsOf E := by
      intro x hx
      have := ho x (by
        rw [List.flatMap_cons]
        simp only [vars, List.filterMap_append, List.mem_append]
        exact .inr hx)
      refine ⟨fun hc => this.1 (List.mem_cons_of_mem _ hc), this.2⟩
    refine ⟨?_, ih y (List.nodup_cons.1 hn).2 (fun x hx => hd x (List.mem_cons_of_mem _ hx)) hv⟩
    intro x hx hc
    have hc' : x ∈ y :: ls.map (·.2) ∨ x ∈ outsOf E := by
      have h1 := outsOf_links t ((l, y) :: ls)
      simp only [outsOf] at h1
      change x ∈ ((linkEqns t ((l, y) :: ls)) ++ E).flatMap (fun q => vars q.2.2) at hc
      rw [List.flatMap_append, h1, List.mem_append] at hc
      simpa using hc
    have ht : t ∉ y :: ls.map (·.2) ∧ t ∉ outsOf E := ⟨(List.nodup_cons.1 hn).1, hd t List.mem_cons_self⟩
    have hop : ∀ x ∈ vars l.operand, x ∉ y :: ls.map (·.2) ∧ x ∉ outsOf E := by
      intro x hx
      exact ho x (by
        rw [List.flatMap_cons]
        simp only [vars, List.filterMap_append, List.mem_append]
        exact .inl hx)
    have : x = t ∨ x ∈ vars l.operand := by
      cases l with
      | un p =>
        left
        simpa [Link.eqn, vars, Atom.node] using hx
      | left p a =>
        change x ∈ vars [a, .var t] at hx
        simp only [vars, List.mem_filterMap, List.mem_cons, List.not_mem_nil, or_false] at hx
        obtain ⟨b, rfl | rfl, hb⟩ := hx
        · exact .inr (List.mem_filterMap.2 ⟨b, by simp [Link.operand], hb⟩)
        · exact .inl (by simpa [Atom.node] using hb.symm)
      | right p a =>
        change x ∈ vars [.var t, a] at hx
        simp only [vars, List.mem_filterMap, List.mem_cons, List.not_mem_nil, or_false] at hx
        obtain ⟨b, rfl | rfl, hb⟩ := hx
        · exact .inl (by simpa [Atom.node] using hb.symm)
        · exact .inr (List.mem_filterMap.2 ⟨b, by simp [Link.operand], hb⟩)
    rcases this with rfl | h2
    · exact hc'.elim ht.1 ht.2
    · exact hc'.elim (hop x h2).1 (hop x h2).2

theorem escoped_body (body : List Stmt) (h : Scoped body) (hn : (body.flatMap Stmt.defs).Nodup) :
    EScoped (body.flatMap Stmt.eqns) := by
  induction body with
  | nil => trivial
  | cons st rest ih =>
    rw [List.flatMap_cons, List.nodup_append] at hn
    have ih := ih h.2 hn.2.1
    have hr := outsOf_body rest
    rw [List.flatMap_cons]
    cases st with
    | tag n a => exact ih
    | det op ins outs =>
      refine ⟨fun x hx hc => h.1 x hx ?_, ih⟩
      have h1 := vars_map_var outs
      simp only [outsOf] at hr
      change x ∈ ((LOp.det op, ins, outs.map Atom.var) :: rest.flatMap Stmt.eqns).flatMap (fun q => vars q.2.2) at hc
      simp only [List.flatMap_cons, h1] at hc
      rwa [hr] at hc
    | draw D =>
      refine ⟨fun x hx hc => h.1 x ?_ ?_, ?_⟩
      · exact List.mem_filterMap.2 (by
          obtain ⟨a, h1, h2⟩ := List.mem_filterMap.1 hx
          exact ⟨a, List.mem_append_left _ h1, h2⟩)
      · have h1 := outsOf_eqns (.draw D)
        simp only [outsOf] at hr h1
        change x ∈ ((Stmt.draw D).eqns ++ rest.flatMap Stmt.eqns).flatMap (fun q => vars q.2.2) at hc
        rwa [List.flatMap_append, h1, hr] at hc
      · refine escoped_links _ ih D.links D.value hn.1 ?_ ?_
        · intro x hx hc
          rw [hr] at hc
          exact hn.2.2 x hx x hc rfl
        · intro x hx
          have := h.1 x (by
            obtain ⟨a, h1, h2⟩ := List.mem_filterMap.1 hx
            exact List.mem_filterMap.2 ⟨a, List.mem_append_right _ h1, h2⟩)
          simp only [Stmt.defs, List.mem_append, List.mem_cons, not_or] at this
          rw [hr]
          exact ⟨this.1.2, this.2⟩

/-! ### Which statements are kept -/

theorem live_link {R : Nat → Prop} (ls : List (Link × Nat)) : ∀ t, (∀ q ∈ linkEqns t ls, q ∈ S.body.flatMap Stmt.eqns) →
    ∀ x ∈ ls.map (·.2), Live S R x → Live S R t := by
  induction ls with
  | nil => intro t _ x hx; simp at hx
  | cons p ls ih =>
    obtain ⟨l, y⟩ := p
    intro t hq x hx hl
    have hy : Live S R y := by
      rcases List.mem_cons.1 hx with rfl | hx
      · exact hl
      · exact ih y (fun q h => hq q (List.mem_cons_of_mem _ h)) x hx hl
    refine .operand (l.eqn t y) (hq _ List.mem_cons_self) y ?_ hy t ?_
    · cases l <;> simp [Link.eqn, vars, Atom.node]
    · cases l <;> simp [Link.eqn, vars, Atom.node]

theorem live_value {R : Nat → Prop} {D : Draw} (hD : Stmt.draw D ∈ S.body) {x : Nat} (hx : x ∈ (Stmt.draw D).defs)
    (h : Live S R x) : Live S R D.value := by
  rcases List.mem_cons.1 hx with rfl | hx
  · exact h
  · refine live_link D.links D.value (fun q hq => ?_) x hx h
    exact List.mem_flatMap.2 ⟨_, hD, List.mem_cons_of_mem _ hq⟩

theorem lastVar_mem (t : Nat) (ls : List (Link × Nat)) : lastVar t ls ∈ t :: ls.map (·.2) := by
  induction ls generalizing t with
  | nil => exact List.mem_cons_self
  | cons p ls ih => exact List.mem_cons_of_mem _ (ih p.2)

open Classical in
/-- A statement is kept. -/
noncomputable def keeps (S : Source) (R : Nat → Prop) : Stmt → Bool
  | .tag _ _ => true
  | st => decide (∃ x ∈ st.defs, Live S R x)

theorem keeps_of {R : Nat → Prop} {st : Stmt} (h : ∃ x ∈ st.defs, Live S R x) : keeps S R st = true := by
  cases st <;> first | rfl | (simp only [keeps, decide_eq_true_eq]; exact h)

theorem draws_mem {D : Draw} {body : List Stmt} : D ∈ draws body ↔ Stmt.draw D ∈ body := by
  induction body with
  | nil => simp [draws]
  | cons st rest ih => cases st <;> simp [draws, ih]

section
variable (S : Source) (need : List Nat)

theorem trim_live {pre suf : List Stmt} (hb : S.body = pre ++ suf) :
    ∀ x ∈ (trim suf need).2, Live S (· ∈ need) x := by
  intro x hx
  have := prune_sound (S := S) (R := (· ∈ need)) (suf.flatMap Stmt.eqns)
    (fun q hq => by rw [hb, List.flatMap_append]; exact List.mem_append_right _ hq) need (fun x hx => .result x hx) x
  rw [prune_trim] at this
  exact this hx

theorem links_live {pre suf : List Stmt} {D : Draw} (hb : S.body = pre ++ .draw D :: suf) :
    ∀ x ∈ (trimLinks D.value D.links (trim suf need).2).2, Live S (· ∈ need) x := by
  intro x hx
  have := prune_sound (S := S) (R := (· ∈ need)) (linkEqns D.value D.links ++ suf.flatMap Stmt.eqns)
    (fun q hq => by
      rw [hb, List.flatMap_append, List.flatMap_cons]
      refine List.mem_append_right _ ?_
      rcases List.mem_append.1 hq with h | h
      · exact List.mem_append_left _ (List.mem_cons_of_mem _ h)
      · exact List.mem_append_right _ h) need (fun x hx => .result x hx) x
  rw [prune_append, prune_trim, prune_links] at this
  exact this hx

theorem live_trim (h : S.WF) {pre suf : List Stmt} {op ins outs} (hb : S.body = pre ++ .det op ins outs :: suf) {x : Nat}
    (hx : x ∈ outs) (hl : Live S (· ∈ need) x) : x ∈ (trim suf need).2 := by
  have := prune_complete need (fun _ h => h) (escoped_body S.body h.order (WF.body h).1) hl (pre.flatMap Stmt.eqns)
    (.det op, ins, outs.map .var) (suf.flatMap Stmt.eqns) (by rw [hb]; simp [Stmt.eqns])
    (by rw [vars_map_var]; exact hx)
  rwa [prune_trim] at this

theorem live_links (h : S.WF) {pre suf : List Stmt} {D : Draw} (hb : S.body = pre ++ .draw D :: suf)
    (hl : Live S (· ∈ need) D.value) : D.value ∈ (trimLinks D.value D.links (trim suf need).2).2 := by
  have := prune_complete need (fun _ h => h) (escoped_body S.body h.order (WF.body h).1) hl (pre.flatMap Stmt.eqns)
    (.rv D.numConsts D.logp, D.operands, [.var D.value]) (linkEqns D.value D.links ++ suf.flatMap Stmt.eqns)
    (by rw [hb]; simp [Stmt.eqns])
    (by simp [vars, Atom.node])
  rwa [prune_append, prune_trim, prune_links] at this

theorem trim_filter (h : S.WF) (hs : ∀ n x, (n, Atom.var x) ∈ S.body.flatMap Stmt.sown → x ∈ need)
    (hn : ∀ D ∈ draws S.body, Live S (· ∈ need) D.value → D.name ≠ none) (suf : List Stmt) :
    ∀ pre, S.body = pre ++ suf → (trim suf need).1 = suf.filter (keeps S (· ∈ need)) := by
  induction suf with
  | nil => intro pre _; rfl
  | cons st suf ih =>
    intro pre hb
    have ih := ih (pre ++ [st]) (by rw [hb]; simp)
    cases st with
    | tag n a => rw [List.filter_cons_of_pos (by rfl), trim, ih]
    | det op ins outs =>
      rw [trim]
      by_cases hk : ∃ x ∈ outs, Live S (· ∈ need) x
      · obtain ⟨x, h1, h2⟩ := hk
        rw [if_pos (List.any_eq_true.2 ⟨x, h1, by simpa using live_trim S need h hb h1 h2⟩),
          List.filter_cons_of_pos (keeps_of (st := .det op ins outs) ⟨x, h1, h2⟩), ih]
      · rw [if_neg, List.filter_cons_of_neg, ih]
        · simp only [keeps, decide_eq_true_eq]
          exact hk
        · intro hc
          obtain ⟨x, h1, h2⟩ := List.any_eq_true.1 hc
          exact hk ⟨x, h1, trim_live S need (pre := pre ++ [.det op ins outs]) (suf := suf) (by rw [hb]; simp) x (by simpa using h2)⟩
    | draw D =>
      have hD : Stmt.draw D ∈ S.body := by rw [hb]; simp
      rw [trim]
      rcases hname : D.name with _ | n
      · have hdead : ¬ Live S (· ∈ need) D.value := fun hl => hn D (draws_mem.2 hD) hl hname
        rw [if_neg (fun hc => hdead (links_live S need hb _ hc)), List.filter_cons_of_neg, ih]
        simp only [keeps, decide_eq_true_eq]
        rintro ⟨x, h1, h2⟩
        exact hdead (live_value hD h1 h2)
      · have h1 : lastVar D.value D.links ∈ need :=
          hs n _ (List.mem_flatMap.2 ⟨_, hD, by simp [Stmt.sown, hname]⟩)
        obtain ⟨h2, h3⟩ := trimLinks_all D.links D.value (trim suf need).2 (trim_mono suf need _ h1)
        rw [if_pos h3, h2, List.filter_cons_of_pos, ih]
        · rw [← hname]
        · exact keeps_of ⟨_, lastVar_mem _ _, .result _ h1⟩

theorem trim_unnamed (h : S.WF) {D : Draw} (hl : Live S (· ∈ need) D.value) (hname : D.name = none) (suf : List Stmt) :
    ∀ pre, S.body = pre ++ suf → D ∈ draws suf → ∃ E ∈ draws (trim suf need).1, E.name = none := by
  induction suf with
  | nil => intro pre _ hD; simp [draws] at hD
  | cons st suf ih =>
    intro pre hb hD
    have ih := ih (pre ++ [st]) (by rw [hb]; simp)
    cases st with
    | tag n a => exact ih hD
    | det op ins outs =>
      rw [trim]
      split
      · exact ih hD
      · exact ih hD
    | draw E =>
      rcases List.mem_cons.1 (show D ∈ E :: draws suf from hD) with rfl | hD
      · rw [trim, if_pos (live_links S need h hb hl)]
        exact ⟨_, List.mem_cons_self, hname⟩
      · obtain ⟨E', h1, h2⟩ := ih hD
        rw [trim]
        split
        · exact ⟨E', List.mem_cons_of_mem _ h1, h2⟩
        · exact ⟨E', h1, h2⟩

end

/-- With an unnamed random variable there is no result. -/
theorem terms_unnamed (lat) {D : Draw} (hname : D.name = none) (body : List Stmt) : D ∈ draws body → ∀ env : Env ICell,
    (terms lat env body).mapM id = none := by
  induction body with
  | nil => intro hD; simp [draws] at hD
  | cons st rest ih =>
    intro hD env
    cases st with
    | tag n a => exact ih hD _
    | det op ins outs => exact ih hD _
    | draw E =>
      simp only [terms, List.cons_append, List.nil_append, List.mapM_cons, id_eq, Option.bind_eq_bind, Option.pure_def]
      rcases List.mem_cons.1 (show D ∈ E :: draws rest from hD) with rfl | hD
      · have hg : D.given lat = none := by simp [Draw.given, hname]
        have hc : ∀ ls : List (Link × Nat), chainCell env ls none = none := by
          intro ls
          induction ls with
          | nil => rfl
          | cons p ls ih2 => rw [chainCell, ih2]; cases p.1 <;> rfl
        have : D.term lat env = none := by
          rw [Draw.term, hg, hc]
          split
          · rename_i h2; simp at h2
          · rfl
        rw [this]; rfl
      · rw [ih hD]
        cases E.term lat env <;> rfl

theorem joint_unnamed {D : Draw} (hD : D ∈ draws S.body) (hname : D.name = none) (lat args) :
    S.joint lat args = .error .cannot := by
  rw [Source.joint, terms_unnamed lat hname S.body hD]

theorem sown_var (hT : S.NoTags) {n : String} {a : Atom F} (h : (n, a) ∈ S.body.flatMap Stmt.sown) : ∃ x, a = .var x := by
  obtain ⟨st, h1, h2⟩ := List.mem_flatMap.1 h
  cases st with
  | det op ins outs => simp [Stmt.sown] at h2
  | tag m b => exact absurd rfl (hT _ h1 m b)
  | draw D =>
    simp only [Stmt.sown] at h2
    rcases hD : D.name with _ | m
    · simp [hD] at h2
    · simp only [hD, List.mem_cons, List.not_mem_nil, or_false, Prod.mk.injEq] at h2
      exact ⟨_, h2.2⟩

/-- The outputs of `trace` add nothing to what the named values depend on. -/
theorem live_first (h : S.WF) (hT : S.NoTags) (first : List (Atom F)) (hf : GivenOuts S first) {x : Nat}
    (hx : Live S (· ∈ (S.results first).filterMap Atom.node) x) : Live S S.Named x ∨ x ∈ S.args := by
  induction hx with
  | result x hx =>
    obtain ⟨a, h1, h2⟩ := List.mem_filterMap.1 hx
    rcases List.mem_append.1 h1 with h1 | h1
    · rcases hf a h1 with ⟨v, rfl⟩ | ⟨y, rfl, hy⟩
      · simp [Atom.node] at h2
      · simp only [Atom.node, Option.some.injEq] at h2
        subst h2
        rcases hy with hy | hy
        · exact .inr hy
        · exact .inl (.result _ hy)
    · obtain ⟨⟨n, b⟩, h3, rfl⟩ := List.mem_map.1 h1
      have h4 := (sortByKey_perm _).subset h3
      obtain ⟨y, rfl⟩ := sown_var hT h4
      simp only [Atom.node, Option.some.injEq] at h2
      subst h2
      exact .inl (.result _ ⟨n, h4⟩)
  | operand q hq y hy _ x hx ih =>
    rcases ih with ih | ih
    · exact .inl (.operand q hq y hy ih x hx)
    · have : y ∈ S.body.flatMap Stmt.defs := by
        rw [← outsOf_body]
        exact List.mem_flatMap.2 ⟨q, hq, hy⟩
      exact absurd this ((WF.body h).2.2.1 y ih)

theorem live_mono {R R' : Nat → Prop} (hR : ∀ x, R x → R' x) {x : Nat} (hx : Live S R x) : Live S R' x := by
  induction hx with
  | result x h => exact .result x (hR x h)
  | operand q hq y hy _ x hx ih => exact .operand q hq y hy ih x hx

theorem live_defs (h : S.WF) (hT : S.NoTags) (first : List (Atom F)) (hf : GivenOuts S first) {x : Nat}
    (hd : x ∈ S.body.flatMap Stmt.defs) :
    Live S (· ∈ (S.results first).filterMap Atom.node) x ↔ Live S S.Named x := by
  constructor
  · intro hx
    rcases live_first h hT first hf hx with h1 | h1
    · exact h1
    · exact absurd hd ((WF.body h).2.2.1 x h1)
  · exact live_mono fun x ⟨n, hn⟩ => sown_results S first n x hn

theorem alive_body : S.alive.body = S.body.filter (keeps S S.Named) := by
  simp only [Source.alive]
  congr 1

theorem alive_eq (h : S.WF) (hT : S.NoTags) (first : List (Atom F)) (hf : GivenOuts S first)
    (hn : ∀ D ∈ draws S.body, Live S S.Named D.value → D.name ≠ none) : S.trimmed first = S.alive := by
  have hd : ∀ D ∈ draws S.body, D.value ∈ S.body.flatMap Stmt.defs := fun D hD =>
    List.mem_flatMap.2 ⟨_, draws_mem.1 hD, List.mem_cons_self⟩
  have h1 := trim_filter S _ h (sown_results S first)
    (fun D hD hl => hn D hD ((live_defs h hT first hf (hd D hD)).1 hl)) S.body [] rfl
  have h2 : (S.trimmed first).body = S.alive.body := by
    rw [alive_body, Source.trimmed, h1]
    refine List.filter_congr fun st hst => ?_
    cases st with
    | tag n a => rfl
    | det op ins outs =>
      simp only [keeps, decide_eq_decide]
      refine exists_congr fun x => and_congr_right fun hx => ?_
      exact live_defs h hT first hf (List.mem_flatMap.2 ⟨_, hst, hx⟩)
    | draw D =>
      simp only [keeps, decide_eq_decide]
      refine exists_congr fun x => and_congr_right fun hx => ?_
      exact live_defs h hT first hf (List.mem_flatMap.2 ⟨_, hst, hx⟩)
  simp only [Source.trimmed, Source.alive] at h2 ⊢
  rw [h2]

/-- The statement-by-statement evaluation of what the jaxpr contains. -/
theorem trimmed_joint (h : S.WF) (hT : S.NoTags) (first : List (Atom F)) (hf : GivenOuts S first) (lat args) :
    (S.trimmed first).joint lat args = S.alive.joint lat args := by
  by_cases hn : ∀ D ∈ draws S.body, Live S S.Named D.value → D.name ≠ none
  · rw [alive_eq h hT first hf hn]
  · simp only [not_forall, not_not] at hn
    obtain ⟨D, hD, hl, hname⟩ := hn
    have hd : D.value ∈ S.body.flatMap Stmt.defs := List.mem_flatMap.2 ⟨_, draws_mem.1 hD, List.mem_cons_self⟩
    obtain ⟨E, h1, h2⟩ := trim_unnamed S _ h ((live_defs h hT first hf hd).2 hl) hname S.body [] rfl hD
    rw [joint_unnamed (S := S.trimmed first) h1 h2, joint_unnamed (S := S.alive) (D := D) ?_ hname]
    rw [draws_mem, alive_body, List.mem_filter]
    exact ⟨draws_mem.1 hD, keeps_of ⟨D.value, List.mem_cons_self, hl⟩⟩

/-- Both `joint_log_prob` and `trace_log_prob`. -/
theorem run_value (h : S.WF) (hT : S.NoTags) (first : List (Atom F)) (obs : List F) (latents : List (String × F)) (args : List F)
    (hl : args.length = S.args.length) (hn : S.names.Nodup) (hk : (latents.map (·.1)).Perm S.names)
    (hf : GivenOuts S first)
    (ho : first.map (Propagate.read iOps ((S.trimmed first).final (dict latents) args)) = obs.map fun v => some (v, some 0))
    (res : Except JErr F) : Run S first obs latents args res ↔ res = S.alive.joint (dict latents) args := by
  have hnames : (S.trimmed first).names = S.names := by rw [Source.names, trimmed_sown]; rfl
  have hroot : ∀ x, (S.trimmed first).Root x ↔ S.Root x := by
    intro x
    simp only [Source.Root, trimmed_sown]
    rfl
  have hv := whole_value (trimmed_wf h first) (trim_noTags S.body _ hT) first obs latents args hl (by rw [hnames]; exact hn)
    (by rw [hnames]; exact hk)
    (by
      intro a ha
      rcases hf a ha with h1 | ⟨x, h1, h2⟩
      · exact .inl h1
      · exact .inr ⟨x, h1, (hroot x).2 h2⟩) ho res
  rw [← trimmed_joint h hT first hf, ← hv, ← prog_trimmed]
  have hlen : (obs ++ latents.map (·.2)).length = (S.prog first).outvars.length := by
    have h1 := congrArg List.length ho
    have h2 := hk.length_eq
    simp only [List.length_map, Source.names] at h1 h2
    simp only [Source.prog, Source.results, List.length_append, List.length_map, (sortByKey_perm _).length_eq]
    omega
  simp only [Run, hn, not_true_eq_false, if_false, hlen, hl, ne_eq, or_self]
  refine exists_congr fun r => and_congr_right fun _ => ?_
  cases r <;> rfl

end Verif.LogProb.Joint
