import Verif.LogProb.JointMain

/-! C79: the jaxpr of a program has only the equations that the results depend on. -/
namespace Verif.LogProb.Joint

open Verif.Propagate Verif.Inverse

/-! ### Pruning -/

theorem prune_mono {α : Type} (qs : List (α × List (Atom F) × List (Atom F))) (need : List Nat) : ∀ x ∈ need, x ∈ (prune qs need).2 := by
  induction qs with
  | nil => exact fun x hx => hx
  | cons q qs ih =>
    intro x hx
    rw [prune]
    split
    · exact List.mem_append_right _ (ih x hx)
    · exact ih x hx

theorem prune_append {α : Type} (as bs : List (α × List (Atom F) × List (Atom F))) (need : List Nat) : prune (as ++ bs) need =
    ((prune as (prune bs need).2).1 ++ (prune bs need).1, (prune as (prune bs need).2).2) := by
  induction as with
  | nil => rfl
  | cons q as ih =>
    simp only [List.cons_append, prune, ih]
    split <;> rfl

/-- Equations use their operands after these are defined. -/
def EScoped : List (LOp × List (Atom F) × List (Atom F)) → Prop
  | [] => True
  | q :: qs => (∀ x ∈ vars q.2.1, x ∉ (q :: qs).flatMap fun q => vars q.2.2) ∧ EScoped qs

/-- Everything that is kept is live. -/
theorem prune_sound {S : Source} {R : Nat → Prop} (qs) (hq : ∀ q ∈ qs, q ∈ S.body.flatMap Stmt.eqns) (need : List Nat)
    (hn : ∀ x ∈ need, Live S R x) : ∀ x ∈ (prune qs need).2, Live S R x := by
  induction qs with
  | nil => exact hn
  | cons q qs ih =>
    have ih := ih fun q h => hq q (List.mem_cons_of_mem _ h)
    intro x hx
    rw [prune] at hx
    split at hx
    · rename_i hc
      obtain ⟨y, h1, h2⟩ := List.any_eq_true.1 hc
      rcases List.mem_append.1 hx with h | h
      · exact .operand q (hq q List.mem_cons_self) y h1 (ih y (by simpa using h2)) x h
      · exact ih x h
    · exact ih x hx

theorem escoped_append (as bs) (h : EScoped (as ++ bs)) : EScoped bs := by
  induction as with
  | nil => exact h
  | cons q as ih => exact ih h.2

/-- Everything that is live is kept. -/
theorem prune_complete {S : Source} {R : Nat → Prop} (need : List Nat) (hn : ∀ x, R x → x ∈ need)
    (hs : EScoped (S.body.flatMap Stmt.eqns)) {x : Nat} (hx : Live S R x) :
    ∀ pre q post, S.body.flatMap Stmt.eqns = pre ++ q :: post → x ∈ vars q.2.2 → x ∈ (prune post need).2 := by
  induction hx with
  | result x h => intro pre q post _ _; exact prune_mono _ _ _ (hn x h)
  | operand q' hq' y hy h x hx ih =>
    intro pre q post he hxq
    have hpost : q' ∈ post := by
      obtain ⟨a, b, hab⟩ := List.append_of_mem hq'
      rw [hab] at hs
      have h1 := (escoped_append a _ hs).1 x hx
      by_contra hc
      have hsub : q ∈ q' :: b := by
        rcases List.append_eq_append_iff.1 (hab.symm.trans he) with ⟨c, hc1, hc2⟩ | ⟨c, hc1, hc2⟩
        · have : q ∈ c ++ q :: post := by simp
          rw [← hc2] at this
          exact this
        · cases c with
          | nil => simp only [List.nil_append] at hc2; rw [← hc2]; exact List.mem_cons_self
          | cons r c =>
            simp only [List.cons_append, List.cons.injEq] at hc2
            exact absurd (by rw [hc2.2]; simp) hc
      exact h1 (List.mem_flatMap.2 ⟨q, hsub, hxq⟩)
    obtain ⟨a, b, rfl⟩ := List.append_of_mem hpost
    have hyb := ih (pre ++ q :: a) q' b (by rw [he]; simp) hy
    rw [prune_append]
    refine prune_mono _ _ _ ?_
    have hc : ((List.filterMap Atom.node q'.2.2).any fun x => (prune b need).2.contains x) = true :=
      List.any_eq_true.2 ⟨y, hy, by simpa using hyb⟩
    rw [prune, if_pos hc]
    exact List.mem_append_left _ hx

/-! ### Pruning statements -/

/-- The links that are needed. -/
def trimLinks : Nat → List (Link × Nat) → List Nat → List (Link × Nat) × List Nat
  | _, [], need => ([], need)
  | t, (l, y) :: ls, need =>
    if y ∈ (trimLinks y ls need).2 then
      ((l, y) :: (trimLinks y ls need).1, vars (l.eqn t y).2.1 ++ (trimLinks y ls need).2)
    else ([], (trimLinks y ls need).2)

/-- The statements that are needed. -/
def trim : List Stmt → List Nat → List Stmt × List Nat
  | [], need => ([], need)
  | .det op ins outs :: rest, need =>
    if outs.any fun x => (trim rest need).2.contains x then
      (.det op ins outs :: (trim rest need).1, vars ins ++ (trim rest need).2)
    else trim rest need
  | .draw D :: rest, need =>
    if D.value ∈ (trimLinks D.value D.links (trim rest need).2).2 then
      (.draw { D with links := (trimLinks D.value D.links (trim rest need).2).1 } :: (trim rest need).1,
        vars D.operands ++ (trimLinks D.value D.links (trim rest need).2).2)
    else ((trim rest need).1, (trimLinks D.value D.links (trim rest need).2).2)
  | .tag n a :: rest, need => (.tag n a :: (trim rest need).1, (trim rest need).2)

theorem vars_map_var (xs : List Nat) : vars (xs.map Atom.var) = xs := by
  induction xs with
  | nil => rfl
  | cons x xs ih => simpa [vars, Atom.node] using ih

theorem trimLinks_mono (ls : List (Link × Nat)) : ∀ t need, ∀ x ∈ need, x ∈ (trimLinks t ls need).2 := by
  induction ls with
  | nil => exact fun t need x hx => hx
  | cons p ls ih =>
    obtain ⟨l, y⟩ := p
    intro t need x hx
    rw [trimLinks]
    split
    · exact List.mem_append_right _ (ih y need x hx)
    · exact ih y need x hx

theorem trimLinks_nil (ls : List (Link × Nat)) : ∀ t need, t ∉ (trimLinks t ls need).2 → (trimLinks t ls need).1 = [] := by
  cases ls with
  | nil => intro t need _; rfl
  | cons p ls =>
    obtain ⟨l, y⟩ := p
    intro t need h
    rw [trimLinks] at h ⊢
    split at h
    · refine absurd (List.mem_append_left _ ?_) h
      cases l <;> simp [Link.eqn, vars, Atom.node]
    · rename_i hc
      rw [if_neg hc]

theorem prune_links (ls : List (Link × Nat)) : ∀ t need, prune (linkEqns t ls) need =
    (linkEqns t (trimLinks t ls need).1, (trimLinks t ls need).2) := by
  induction ls with
  | nil => intro t need; rfl
  | cons p ls ih =>
    obtain ⟨l, y⟩ := p
    intro t need
    have ho : (l.eqn t y).2.2.filterMap Atom.node = [y] := by cases l <;> rfl
    simp only [linkEqns, prune, ho, ih, trimLinks]
    by_cases hy : y ∈ (trimLinks y ls need).2
    · simp only [hy, if_true]
      simp [hy, linkEqns, vars]
    · simp only [hy, if_false]
      simp [hy, linkEqns, trimLinks_nil ls y need hy]

theorem prune_trim (body : List Stmt) (need : List Nat) :
    prune (body.flatMap Stmt.eqns) need = ((trim body need).1.flatMap Stmt.eqns, (trim body need).2) := by
  induction body with
  | nil => rfl
  | cons st rest ih =>
    rw [List.flatMap_cons, prune_append, ih]
    cases st with
    | tag n a => rfl
    | det op ins outs =>
      have := vars_map_var outs
      simp only [vars] at this
      simp only [Stmt.eqns, prune, this, trim]
      split <;> simp [Stmt.eqns, vars]
    | draw D =>
      simp only [Stmt.eqns, prune, prune_links, trim]
      have ho : ([Atom.var D.value] : List (Atom F)).filterMap Atom.node = [D.value] := rfl
      simp only [ho]
      by_cases hv : D.value ∈ (trimLinks D.value D.links (trim rest need).2).2
      · simp only [hv, if_true]
        simp [hv, Stmt.eqns, vars]
      · simp only [hv, if_false]
        simp [hv, trimLinks_nil _ _ _ hv, linkEqns]

theorem trim_mono (body : List Stmt) (need : List Nat) : ∀ x ∈ need, x ∈ (trim body need).2 := by
  intro x hx
  have := prune_mono (body.flatMap Stmt.eqns) need x hx
  rwa [prune_trim] at this

theorem trimLinks_all (ls : List (Link × Nat)) : ∀ t need, lastVar t ls ∈ need →
    (trimLinks t ls need).1 = ls ∧ t ∈ (trimLinks t ls need).2 := by
  induction ls with
  | nil => intro t need h; exact ⟨rfl, h⟩
  | cons p ls ih =>
    obtain ⟨l, y⟩ := p
    intro t need h
    obtain ⟨h1, h2⟩ := ih y need h
    rw [trimLinks, if_pos h2, h1]
    refine ⟨rfl, List.mem_append_left _ ?_⟩
    cases l <;> simp [Link.eqn, vars, Atom.node]

/-! ### The trimmed program -/

theorem trimLinks_prefix (ls : List (Link × Nat)) : ∀ t need, (trimLinks t ls need).1 <+: ls := by
  induction ls with
  | nil => intro t need; exact List.prefix_rfl
  | cons p ls ih =>
    obtain ⟨l, y⟩ := p
    intro t need
    rw [trimLinks]
    split
    · exact List.cons_prefix_cons.2 ⟨rfl, ih y need⟩
    · exact List.nil_prefix

theorem trim_defs (body : List Stmt) (need : List Nat) :
    ((trim body need).1.flatMap Stmt.defs).Sublist (body.flatMap Stmt.defs) := by
  induction body with
  | nil => exact List.Sublist.refl _
  | cons st rest ih =>
    rw [List.flatMap_cons]
    cases st with
    | tag n a => exact ih
    | det op ins outs =>
      rw [trim]
      split
      · rw [List.flatMap_cons]
        exact ih.append_left _
      · exact ih.trans (List.sublist_append_right _ _)
    | draw D =>
      rw [trim]
      split
      · rw [List.flatMap_cons]
        refine List.Sublist.append ?_ ih
        exact ((trimLinks_prefix D.links _ _).sublist.map _).cons_cons _
      · exact ih.trans (List.sublist_append_right _ _)

theorem trim_scoped (body : List Stmt) (need : List Nat) (h : Scoped body) : Scoped (trim body need).1 := by
  induction body with
  | nil => trivial
  | cons st rest ih =>
    have ih := ih h.2
    have hd := (trim_defs rest need).subset
    cases st with
    | tag n a =>
      refine ⟨fun x hx hc => h.1 x hx ?_, ih⟩
      simp only [Stmt.defs, List.nil_append] at hc ⊢
      exact hd hc
    | det op ins outs =>
      rw [trim]
      split
      · refine ⟨fun x hx hc => h.1 x hx ?_, ih⟩
        rcases List.mem_append.1 hc with hc | hc
        · exact List.mem_append_left _ hc
        · exact List.mem_append_right _ (hd hc)
      · exact ih
    | draw D =>
      rw [trim]
      split
      · have hp := trimLinks_prefix D.links D.value (trim rest need).2
        refine ⟨fun x hx hc => h.1 x ?_ ?_, ih⟩
        · simp only [Stmt.uses, List.mem_filterMap, List.mem_append, List.mem_flatMap] at hx ⊢
          obtain ⟨a, ha | ⟨l, hl, ha⟩, hn⟩ := hx
          · exact ⟨a, .inl ha, hn⟩
          · exact ⟨a, .inr ⟨l, hp.subset hl, ha⟩, hn⟩
        · rcases List.mem_append.1 hc with hc | hc
          · refine List.mem_append_left _ ?_
            simp only [Stmt.defs, List.mem_cons, List.mem_map] at hc ⊢
            rcases hc with hc | ⟨l, hl, rfl⟩
            · exact .inl hc
            · exact .inr ⟨l, hp.subset hl, rfl⟩
          · exact List.mem_append_right _ (hd hc)
      · exact ih

theorem trim_sized (body : List Stmt) (need : List Nat) (h : ∀ st ∈ body, st.Sized) : ∀ st ∈ (trim body need).1, st.Sized := by
  induction body with
  | nil => exact h
  | cons st rest ih =>
    have ih := ih fun s hs => h s (List.mem_cons_of_mem _ hs)
    cases st with
    | tag n a =>
      intro st hst
      rcases List.mem_cons.1 hst with rfl | hst
      · trivial
      · exact ih st hst
    | det op ins outs =>
      rw [trim]
      split
      · intro st hst
        rcases List.mem_cons.1 hst with rfl | hst
        · exact h _ List.mem_cons_self
        · exact ih st hst
      · exact ih
    | draw D =>
      rw [trim]
      split
      · intro st hst
        rcases List.mem_cons.1 hst with rfl | hst
        · trivial
        · exact ih st hst
      · exact ih

theorem trim_noTags (body : List Stmt) (need : List Nat) (h : ∀ st ∈ body, ∀ n a, st ≠ .tag n a) :
    ∀ st ∈ (trim body need).1, ∀ n a, st ≠ .tag n a := by
  induction body with
  | nil => exact h
  | cons st rest ih =>
    have ih := ih fun s hs => h s (List.mem_cons_of_mem _ hs)
    cases st with
    | tag n a => exact absurd rfl (h _ List.mem_cons_self n a)
    | det op ins outs =>
      rw [trim]
      split
      · intro st hst
        rcases List.mem_cons.1 hst with rfl | hst
        · simp
        · exact ih st hst
      · exact ih
    | draw D =>
      rw [trim]
      split
      · intro st hst
        rcases List.mem_cons.1 hst with rfl | hst
        · simp
        · exact ih st hst
      · exact ih

theorem trim_sown (body : List Stmt) (need : List Nat) (h : ∀ n x, (n, Atom.var x) ∈ body.flatMap Stmt.sown → x ∈ need) :
    (trim body need).1.flatMap Stmt.sown = body.flatMap Stmt.sown := by
  induction body with
  | nil => rfl
  | cons st rest ih =>
    have ih := ih fun n x hx => h n x (by rw [List.flatMap_cons]; exact List.mem_append_right _ hx)
    cases st with
    | tag n a => rw [trim, List.flatMap_cons, ih, List.flatMap_cons]
    | det op ins outs =>
      rw [trim]
      split <;> simp [List.flatMap_cons, Stmt.sown, ih]
    | draw D =>
      rw [trim]
      rcases hD : D.name with _ | n
      · split <;> simp [List.flatMap_cons, Stmt.sown, ih, hD]
      · have h1 : lastVar D.value D.links ∈ need := h n _ (by simp [List.flatMap_cons, Stmt.sown, hD])
        obtain ⟨h2, h3⟩ := trimLinks_all D.links D.value (trim rest need).2 (trim_mono rest need _ h1)
        rw [if_pos h3, h2, List.flatMap_cons, ih, List.flatMap_cons]
        simp [Stmt.sown, hD]

variable {S : Source}

/-- The program without what the results do not depend on. -/
def Source.trimmed (S : Source) (first : List (Atom F)) : Source :=
  { S with body := (trim S.body ((S.results first).filterMap Atom.node)).1 }

theorem sown_results (S : Source) (first : List (Atom F)) (n : String) (x : Nat)
    (h : (n, Atom.var x) ∈ S.body.flatMap Stmt.sown) : x ∈ (S.results first).filterMap Atom.node := by
  refine List.mem_filterMap.2 ⟨.var x, ?_, rfl⟩
  refine List.mem_append_right _ (List.mem_map.2 ⟨(n, .var x), ?_, rfl⟩)
  exact (sortByKey_perm _).symm.subset h

theorem trimmed_sown (first) : (S.trimmed first).body.flatMap Stmt.sown = S.body.flatMap Stmt.sown :=
  trim_sown S.body _ (sown_results S first)

theorem trimmed_wf (h : S.WF) (first) : (S.trimmed first).WF where
  once := by
    refine List.Sublist.nodup ?_ h.once
    exact (List.Sublist.refl _).append (trim_defs S.body _)
  order := trim_scoped S.body _ h.order
  sized := trim_sized S.body _ h.sized

theorem prog_trimmed (first) : S.prog first = (S.trimmed first).whole first := by
  rw [Source.prog, Source.whole, prune_trim]
  simp only [Source.results, trimmed_sown]
  rfl

end Verif.LogProb.Joint
