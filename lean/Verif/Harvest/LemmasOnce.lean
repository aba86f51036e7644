/- Uniqueness of strict names; executed sows. -/
import Verif.Harvest.LemmasReap

namespace Verif.Harvest

theorem occurrences_append (S : Settings) (n : String) (l r : List Site) :
    occurrences S n (l ++ r) = occurrences S n l ++ occurrences S n r := by
  simp [occurrences]

theorem declares_eq_getLast? (S : Settings) (n : String) (ss : List Site) :
    declares S n ss = (occurrences S n ss).getLast? := by
  induction ss with
  | nil => rfl
  | cons s ss ih =>
    rw [declares, ih]
    simp only [occurrences, List.filterMap_cons]
    cases hs : s.declares S n with
    | none => simp
    | some m =>
      simp only [List.getLast?_cons]
      cases hl : (List.filterMap (fun s => s.declares S n) ss).getLast? <;> simp

/-- The ways in which `n` may be declared by an accepted program started with metadata `m0`. -/
def OccOk (m0 : Meta) (n : String) (occ : List Mode) : Prop :=
  occ = [] ∨
  ((∀ mode ∈ occ, mode.isClobber = true) ∧ ∀ prev, m0.get n = some prev → prev.isClobber = true) ∨
  ∃ mode, occ = [mode] ∧ m0.get n = none

theorem occurrences_singleton (S : Settings) (n : String) (s : Site) :
    occurrences S n [s] = (s.declares S n).toList := by
  simp only [occurrences, List.filterMap_cons, List.filterMap_nil]
  cases s.declares S n <;> rfl

theorem OccOk.of_resow {m0 m1 inner : Meta} {n : String} {S : Settings} {ss : List Site}
    (h : m0.resow inner = .ok m1) (hi : ∀ n, inner.get n = declares S n ss)
    (ho : OccOk [] n (occurrences S n ss)) : OccOk m0 n (occurrences S n ss) := by
  obtain ⟨-, h2, -⟩ := Meta.resow_ok h
  rcases ho with ho | ⟨ho, -⟩ | ⟨mode, ho, -⟩
  · exact Or.inl ho
  · by_cases he : occurrences S n ss = []
    · exact Or.inl he
    · refine Or.inr (Or.inl ⟨ho, ?_⟩)
      intro prev hp
      obtain ⟨x, hx⟩ : ∃ x, (occurrences S n ss).getLast? = some x :=
        ⟨_, List.getLast?_eq_some_getLast he⟩
      exact (h2 n x prev (by rw [hi, declares_eq_getLast?, hx]) hp).2
  · cases hp : m0.get n with
    | none => exact Or.inr (Or.inr ⟨mode, ho, hp⟩)
    | some prev =>
      have := h2 n mode prev (by rw [hi, declares_eq_getLast?, ho]; rfl) hp
      refine Or.inr (Or.inl ⟨by rw [ho]; simpa using this.1, ?_⟩)
      intro prev' hp'
      rw [hp] at hp'
      simp only [Option.some.injEq] at hp'
      rw [← hp']; exact this.2

theorem OccOk.of_handle {m0 m1 : Meta} {n k : String} {mode : Mode}
    (h : m0.handle k mode = .ok m1) : OccOk m0 n (if k = n then [mode] else []) := by
  obtain ⟨-, h2⟩ := Meta.handle_ok h
  by_cases hk : k = n
  · subst hk
    simp only [if_true]
    cases hp : m0.get k with
    | none => exact Or.inr (Or.inr ⟨mode, rfl, hp⟩)
    | some prev =>
      have := h2 prev hp
      refine Or.inr (Or.inl ⟨by simpa using this.1, ?_⟩)
      intro prev' hp'
      rw [hp] at hp'
      simp only [Option.some.injEq] at hp'
      rw [← hp']; exact this.2
  · simp only [hk, if_false]; exact Or.inl rfl

theorem metaOf_occ {V A B : Type} {S : Settings} (p : Prog V A B) :
    ∀ {m0 m1 : Meta}, metaOf S p m0 = .ok m1 → ∀ n, OccOk m0 n (occurrences S n (sites p)) := by
  induction p with
  | pure f => intro m0 m1 h n; exact Or.inl rfl
  | seq p q ihp ihq =>
    intro m0 m1 h n
    simp only [metaOf] at h
    rcases hp : metaOf S p m0 with e | m <;> rw [hp] at h
    · simp at h
    · simp only [except_bind_ok] at h
      have hg := (metaOf_get S p hp).1 n
      have h1 := ihp hp n
      have h2 := ihq h n
      rw [sites, occurrences_append]
      rw [declares_eq_getLast?] at hg
      generalize occurrences S n (sites p) = op at hg h1 ⊢
      generalize occurrences S n (sites q) = oq at h2 ⊢
      rcases h2 with rfl | ⟨h2, h3⟩ | ⟨mode, rfl, h3⟩
      · simpa using h1
      · rcases h1 with rfl | ⟨h1, h4⟩ | ⟨mode, rfl, h4⟩
        · refine Or.inr (Or.inl ⟨by simpa using h2, ?_⟩)
          intro prev hp'
          exact h3 prev (by rw [hg]; simpa using hp')
        · refine Or.inr (Or.inl ⟨?_, h4⟩)
          intro mode hm
          rcases List.mem_append.1 hm with hm | hm
          · exact h1 mode hm
          · exact h2 mode hm
        · have : mode.isClobber = true := h3 mode (by rw [hg]; rfl)
          refine Or.inr (Or.inl ⟨?_, by rw [h4]; simp⟩)
          intro mode' hm
          rcases List.mem_append.1 hm with hm | hm
          · simp at hm; rw [hm]; exact this
          · exact h2 mode' hm
      · rw [h3] at hg
        have hg' := hg.symm
        rw [Option.or_eq_none_iff] at hg'
        have : op = [] := by simpa using hg'.1
        subst this
        exact Or.inr (Or.inr ⟨mode, rfl, hg'.2⟩)
  | sow tag name mode pre pred post =>
    intro m0 m1 h n
    simp only [metaOf] at h
    split at h
    · simp at h
    · by_cases hdisp : S.dispatch tag name = .handle
      · rw [hdisp] at h
        have hact := dispatch_handle.1 hdisp
        have := OccOk.of_handle (n := n) h
        rw [sites, occurrences_singleton]
        by_cases hk : name = n
        · subst hk; simpa [Site.declares, hact] using this
        · simpa [Site.declares, hk] using this
      · have hna := dispatch_ne_handle.1 hdisp
        exact Or.inl (by simp [occurrences, sites, Site.declares, hna])
  | nest scope pre body post ih =>
    intro m0 m1 h n
    simp only [metaOf] at h
    rcases hp : metaOf S body [] with e | m <;> rw [hp] at h
    · simp at h
    · simp only [except_bind_ok] at h
      have hgm := metaOf_nil_get hp
      by_cases hempty : m.isEmpty = true
      · have : anySite S (sites body) = false := by
          rw [anySite_false_iff]; intro n; rw [← hgm]; exact (Meta.isEmpty_iff m).1 hempty n
        exact Or.inl (by simp [occurrences, sites, Site.declares, this])
      · simp only [hempty, Bool.false_eq_true, if_false] at h
        by_cases hdisp : S.dispatch S.tag scope = .handle
        · rw [hdisp] at h
          have := OccOk.of_handle (n := n) h
          by_cases hdec : scope = n ∧ S.active S.tag scope = true ∧ anySite S (sites body) = true
          · simp only [hdec.1, if_true] at this
            rw [sites, occurrences_singleton]
            obtain ⟨rfl, h1, h2⟩ := hdec
            simpa [Site.declares, h1, h2] using this
          · exact Or.inl (by simp [occurrences, sites, Site.declares, hdec])
        · have hna := dispatch_ne_handle.1 hdisp
          exact Or.inl (by simp [occurrences, sites, Site.declares, hna])
  | inline pre body post ih => intro m0 m1 h n; simp only [metaOf] at h; exact ih h n
  | call _ pre body post ih =>
    intro m0 m1 h n
    simp only [metaOf] at h
    rcases hp : metaOf S body [] with e | m <;> rw [hp] at h
    · simp at h
    · exact OccOk.of_resow h (ss := sites body) (metaOf_nil_get hp) (ih hp n)
  | cond k sel pre br post ih =>
    intro m0 m1 h n
    simp only [metaOf] at h
    rcases hp : metaOf S (br 0) [] with e | m <;> rw [hp] at h
    · simp at h
    · simp only [except_bind_ok] at h
      rcases hq : (List.finRange (k + 1)).mapM (fun i => metaOf S (br i) []) with e | ms <;>
        rw [hq] at h
      · simp at h
      · simp only [except_bind_ok] at h
        rcases hc : metaCond m ms with e | u <;> rw [hc] at h
        · simp at h
        · exact OccOk.of_resow h (ss := sites (br 0)) (metaOf_nil_get hp) (ih 0 hp n)
  | scan rev pre body post ih =>
    intro m0 m1 h n
    simp only [metaOf] at h
    rcases hp : metaOf S body [] with e | m <;> rw [hp] at h
    · simp at h
    · simp only [except_bind_ok] at h
      rcases hc : metaScan m with e | u <;> rw [hc] at h
      · simp at h
      · exact OccOk.of_resow h (ss := sites body) (metaOf_nil_get hp) (ih hp n)
  | whileL pre test body post iht ihb =>
    intro m0 m1 h n
    simp only [metaOf] at h
    rcases hp : metaOf S body [] with e | m <;> rw [hp] at h
    · simp at h
    · simp only [except_bind_ok] at h
      rcases hc : metaWhile m with e | u <;> rw [hc] at h
      · simp at h
      · exact OccOk.of_resow h (ss := sites body) (metaOf_nil_get hp) (ihb hp n)

/-! ### Executed sows -/

theorem executed_append {V : Type} (S : Settings) (n : String) (l r : Log V) :
    executed S n (l ++ r) = executed S n l ++ executed S n r := by
  induction l with
  | nil => simp [executed]
  | cons e es ih => simp [executed, ih]

theorem executedIters_eq_map {V : Type} (S : Settings) (n : String) (ls : List (Log V)) :
    executedIters S n ls = ls.map (executed S n) := by
  induction ls with
  | nil => simp [executedIters]
  | cons e es ih => simp [executedIters, ih]

theorem noZeroTrip_append {V : Type} (S : Settings) (n : String) (l r : Log V) :
    noZeroTrip S n (l ++ r) ↔ noZeroTrip S n l ∧ noZeroTrip S n r := by
  induction l with
  | nil => simp [noZeroTrip]
  | cons e es ih => simp [noZeroTrip, ih, and_assoc]

theorem noZeroTripIters_iff {V : Type} (S : Settings) (n : String) (ls : List (Log V)) :
    noZeroTripIters S n ls ↔ ∀ l ∈ ls, noZeroTrip S n l := by
  induction ls with
  | nil => simp [noZeroTripIters]
  | cons e es ih => simp [noZeroTripIters, ih]

theorem getLast?_append' {α : Type} (l r : List α) :
    (l ++ r).getLast? = r.getLast?.or l.getLast? := by
  simp [List.getLast?_append]

theorem lastSome_eq_flatten {α : Type} (ls : List (List α)) :
    lastSome (ls.map List.getLast?) = ls.flatten.getLast? := by
  induction ls with
  | nil => rfl
  | cons l ls ih => simp [lastSome, ih, getLast?_append']

theorem OnlyMode.declares {V A B : Type} {S : Settings} {n : String} {k : Mode} {p : Prog V A B}
    (h : OnlyMode S n k p) : declares S n (sites p) = none ∨ declares S n (sites p) = some k := by
  induction p with
  | pure f => exact Or.inl rfl
  | seq p q ihp ihq =>
    rw [sites, declares_append]
    rcases ihq h.2 with h2 | h2 <;> rw [h2]
    · simpa using ihp h.1
    · simp
  | sow tag name mode pre pred post =>
    simp only [sites, Harvest.declares, Site.declares, Option.none_or]
    split
    · rename_i hh; right; rw [h hh.1 hh.2]
    · exact Or.inl rfl
  | nest scope pre body post ih =>
    simp only [sites, Harvest.declares, Site.declares, Option.none_or]
    split
    · rename_i hh; right; rw [h hh.1 hh.2.1]
    · exact Or.inl rfl
  | inline pre body post ih | call _ pre body post ih | scan rev pre body post ih => exact ih h
  | cond k sel pre br post ih => exact ih 0 (h 0)
  | whileL pre test body post iht ihb => exact ihb h

theorem quiet_executed {V A B : Type} {S : Settings} (fuel : Nat) (p : Prog V A B) (h : Quiet S p) :
    ∀ a r, trace fuel p a = .ok r → ∀ n, executed S n r.2 = [] := by
  induction p with
  | pure f =>
    intro a r hr n
    simp only [trace] at hr
    rcases hf : f a with e | b <;> rw [hf] at hr <;> simp at hr
    subst hr; simp [executed]
  | seq p q ihp ihq =>
    intro a r hr n
    simp only [trace] at hr
    rcases h1 : trace fuel p a with e | r1 <;> rw [h1] at hr
    · simp at hr
    · simp only [except_bind_ok] at hr
      rcases h2 : trace fuel q r1.1 with e | r2 <;> rw [h2] at hr
      · simp at hr
      · simp only [except_bind_ok, except_pure, Except.ok.injEq] at hr
        subst hr
        simp [executed_append, ihp h.1 _ _ h1, ihq h.2 _ _ h2]
  | sow tag name mode pre pred post =>
    intro a r hr n
    simp only [trace, Except.ok.injEq] at hr
    subst hr
    simp only [Quiet, AllSows] at h
    simp [executed, Ev.executed, h]
  | nest scope pre body post ih =>
    intro a r hr n
    simp only [trace] at hr
    rcases h1 : trace fuel body (pre a) with e | r1 <;> rw [h1] at hr <;> simp at hr
    subst hr
    have := (anySite_false_iff S _).2 (quiet_declares body h.2)
    simp [executed, Ev.executed, Ev.collect, this]
  | inline pre body post ih | call _ pre body post ih =>
    intro a r hr n
    simp only [trace] at hr
    rcases h1 : trace fuel body (pre a) with e | r1 <;> rw [h1] at hr <;> simp at hr
    subst hr
    exact ih h _ _ h1 n
  | cond k sel pre br post ih =>
    intro a r hr n
    simp only [trace] at hr
    rcases h1 : trace fuel (br (sel a)) (pre a) with e | r1 <;> rw [h1] at hr <;> simp at hr
    subst hr
    exact ih _ (h _) _ _ h1 n
  | scan rev pre body post ih =>
    intro a r hr n
    simp only [trace] at hr
    rcases h1 : scanDir rev (fun kx => (trace fuel body kx).map (fun r => (r.1.1, (r.1.2, r.2))))
      (pre a).1 (pre a).2 with e | u <;> rw [h1] at hr <;> simp at hr
    subst hr
    have := (scanDir_forall rev _ (fun y => executed S n y.2 = []) (by
      intro kx r hr
      rcases h2 : trace fuel body kx with e | s <;> rw [h2] at hr <;> simp at hr
      subst hr
      exact ih h _ _ h2 n) _ _ _ h1).1
    simp only [executed, Ev.executed, List.append_nil, executedIters_eq_map, List.map_map]
    have h3 : u.2.map (executed S n ∘ (·.2)) = u.2.map (fun _ => []) :=
      List.map_congr_left (fun y hy => this y hy)
    rw [h3]
    cases rev <;> simp [execOrder]
  | whileL pre test body post iht ihb =>
    intro a r hr n
    simp only [trace] at hr
    rcases h1 : loopT (fun k => trace fuel test k) (fun k => trace fuel body k) fuel (pre a) with e | u <;>
      rw [h1] at hr <;> simp at hr
    subst hr
    have := (loopT_forall _ _ (fun l => executed S n l = []) (fun l => executed S n l = [])
      (by intro l r hl hr; simp [executed_append, hl, hr])
      (fun k r hk => iht (h.1 rfl) k r hk n) (fun k r hk => ihb h.2 k r hk n) _ _ _ h1)
    simp only [executed, Ev.executed, List.append_nil, executedIters_eq_map, this.2, List.nil_append]
    have h3 : u.2.1.map (executed S n) = u.2.1.map (fun _ => []) :=
      List.map_congr_left (fun y hy => this.1 y hy)
    rw [h3]
    simp

/-- Tests of while loops sow nothing that is harvested. -/
def QuietTests {V : Type} (S : Settings) : {A B : Type} → Prog V A B → Prop
  | _, _, .pure _ => True
  | _, _, .seq p q => QuietTests S p ∧ QuietTests S q
  | _, _, .sow .. => True
  | _, _, .nest _ _ body _ => QuietTests S body
  | _, _, .inline _ body _ => QuietTests S body
  | _, _, .call _ _ body _ => QuietTests S body
  | _, _, .cond _ _ _ br _ => ∀ i, QuietTests S (br i)
  | _, _, .scan _ _ body _ => QuietTests S body
  | _, _, .whileL _ test body _ => QuietTests S body ∧ Quiet S test

theorem Regular.quietTests {V A B : Type} {S : Settings} (p : Prog V A B) :
    ∀ {c}, Regular S c p → QuietTests S p := by
  induction p with
  | pure f => intro c h; trivial
  | seq p q ihp ihq => intro c h; exact ⟨ihp h.1, ihq h.2⟩
  | sow => intro c h; trivial
  | nest scope pre body post ih => intro c h; exact ih h.1
  | inline pre body post ih | call _ pre body post ih => intro c h; exact ih h
  | cond k sel pre br post ih => intro c h i; exact ih i (h i)
  | scan rev pre body post ih => intro c h; exact ih h.1
  | whileL pre test body post iht ihb => intro c h; exact ⟨ihb h.1, h.2⟩

/-- What holds of the log of an accepted program for a name that is only sown with mode `k`. -/
structure LogOk {V : Type} (S : Settings) (n : String) (k : Mode) (ss : List Site) (l : Log V) : Prop where
  undeclared : declares S n ss = none → executed S n l = [] ∧ collect S n l = none
  once : k = .strict → (declares S n ss).isSome → (executed S n l).length = 1
  last : k ≠ .append → (k = .clobber → noZeroTrip S n l) → collect S n l = (executed S n l).getLast?
  never : k = .clobber → (declares S n ss).isSome → executed S n l = [] → collect S n l = some .zeros

theorem flatten_map_nil {α β : Type} (l : List α) : (l.map (fun _ => ([] : List β))).flatten = [] := by
  induction l with
  | nil => rfl
  | cons x xs ih => simp [ih]

theorem execOrder_map {α β : Type} (rev : Bool) (f : α → β) (l : List α) :
    execOrder rev (l.map f) = (execOrder rev l).map f := by
  cases rev <;> simp [execOrder]

theorem mem_execOrder {α : Type} (rev : Bool) (l : List α) (a : α) : a ∈ execOrder rev l ↔ a ∈ l := by
  cases rev <;> simp [execOrder]

theorem execOrder_ne_nil {α : Type} (rev : Bool) (l : List α) : execOrder rev l = [] ↔ l = [] := by
  cases rev <;> simp [execOrder]

/-- The collected value over the iterations of a loop. -/
theorem LogOk.iters_last {V : Type} {S : Settings} {n : String} {k : Mode} {ss : List Site}
    {its : List (Log V)} (h : ∀ l ∈ its, LogOk S n k ss l) (hk : k ≠ .append)
    (hz : k = .clobber → ∀ l ∈ its, noZeroTrip S n l) (rev : Bool) :
    lastSome (execOrder rev (its.map (collect S n))) =
      (execOrder rev (its.map (executed S n))).flatten.getLast? := by
  rw [← lastSome_eq_flatten, ← execOrder_map rev (f := List.getLast?), List.map_map]
  have : its.map (collect S n) = its.map (List.getLast? ∘ executed S n) :=
    List.map_congr_left (fun l hl => (h l hl).last hk (fun hc => hz hc l hl))
  rw [this]

theorem LogOk.iters_never {V : Type} {S : Settings} {n : String} {ss : List Site}
    {its : List (Log V)} (h : ∀ l ∈ its, LogOk S n .clobber ss l) (hd : (declares S n ss).isSome)
    (rev : Bool) (he : (execOrder rev (its.map (executed S n))).flatten = []) :
    ((lastSome (execOrder rev (its.map (collect S n)))).getD .zeros) = .zeros := by
  have h1 : its.map (collect S n) = its.map (fun _ => some (Val.zeros : Val V)) := by
    apply List.map_congr_left
    intro l hl
    apply (h l hl).never rfl hd
    rw [List.flatten_eq_nil_iff] at he
    exact he _ ((mem_execOrder rev _ _).2 (List.mem_map.2 ⟨l, hl, rfl⟩))
  rw [h1, execOrder_map]
  generalize execOrder rev its = l
  induction l with
  | nil => rfl
  | cons x xs ih =>
    simp only [List.map_cons, lastSome]
    generalize lastSome (xs.map fun _ => some (Val.zeros : Val V)) = o at ih ⊢
    cases o <;> simp_all

theorem trace_logOk {V A B : Type} {S : Settings} (fuel : Nat) (n : String) (k : Mode) (p : Prog V A B) :
    OnlyMode S n k p → QuietTests S p → ∀ {m0 m1 : Meta}, metaOf S p m0 = .ok m1 →
    ∀ a r, trace fuel p a = .ok r → LogOk S n k (sites p) r.2 := by
  induction p with
  | pure f =>
    intro ho hq m0 m1 hm a r hr
    simp only [trace] at hr
    rcases hf : f a with e | b <;> rw [hf] at hr <;> simp at hr
    subst hr
    constructor <;> simp [sites, declares, executed, collect]
  | seq p q ihp ihq =>
    intro ho hq m0 m1 hm a r hr
    simp only [trace] at hr
    rcases h1 : trace fuel p a with e | r1 <;> rw [h1] at hr
    · simp at hr
    · simp only [except_bind_ok] at hr
      rcases h2 : trace fuel q r1.1 with e | r2 <;> rw [h2] at hr
      · simp at hr
      · simp only [except_bind_ok, except_pure, Except.ok.injEq] at hr
        subst hr
        have hocc := metaOf_occ (S := S) (.seq p q) hm n
        simp only [metaOf] at hm
        rcases hmp : metaOf S p m0 with e | m <;> rw [hmp] at hm
        · simp at hm
        simp only [except_bind_ok] at hm
        have e1 := ihp ho.1 hq.1 hmp _ _ h1
        have e2 := ihq ho.2 hq.2 hm _ _ h2
        constructor
        · intro hd
          rw [sites, declares_append, Option.or_eq_none_iff] at hd
          have a1 := e1.undeclared hd.2
          have a2 := e2.undeclared hd.1
          simp [executed_append, collect_append, a1, a2]
        · intro hs hd
          subst hs
          rw [executed_append]
          rw [sites, declares_append] at hd
          cases hdp : declares S n (sites p) with
          | none =>
            have hdq : (declares S n (sites q)).isSome := by simpa [hdp] using hd
            simp [(e1.undeclared hdp).1, e2.once rfl hdq]
          | some x =>
            cases hdq : declares S n (sites q) with
            | none => simp [(e2.undeclared hdq).1, e1.once rfl (by simp [hdp])]
            | some y =>
              exfalso
              have hx : x = .strict := by
                rcases ho.1.declares with h | h <;> rw [hdp] at h <;> simp at h; exact h
              have hy : y = .strict := by
                rcases ho.2.declares with h | h <;> rw [hdq] at h <;> simp at h; exact h
              rw [declares_eq_getLast?] at hdp hdq
              have m1 : Mode.strict ∈ occurrences S n (sites p) := by
                rw [← hx]; exact List.mem_of_getLast? hdp
              have m2 : Mode.strict ∈ occurrences S n (sites q) := by
                rw [← hy]; exact List.mem_of_getLast? hdq
              rw [sites, occurrences_append] at hocc
              rcases hocc with ho' | ⟨ho', -⟩ | ⟨mode, ho', -⟩
              · simp only [List.append_eq_nil_iff] at ho'; rw [ho'.1] at m1; simp at m1
              · have := ho' _ (List.mem_append_left _ m1); simp [Mode.isClobber] at this
              · have := congrArg List.length ho'
                have l1 := List.length_pos_of_mem m1
                have l2 := List.length_pos_of_mem m2
                simp at this; omega
        · intro hk hz
          rw [collect_append, executed_append, getLast?_append']
          rw [e1.last hk (fun h => ((noZeroTrip_append ..).1 (hz h)).1),
            e2.last hk (fun h => ((noZeroTrip_append ..).1 (hz h)).2)]
        · intro hk hd he
          rw [executed_append, List.append_eq_nil_iff] at he
          rw [collect_append]
          cases hdq : declares S n (sites q) with
          | none =>
            have hdp : (declares S n (sites p)).isSome := by
              rw [sites, declares_append, hdq] at hd; simpa using hd
            rw [(e2.undeclared hdq).2, e1.never hk hdp he.1]; rfl
          | some y => rw [e2.never hk (by simp [hdq]) he.2]; rfl
  | sow tag name mode pre pred post =>
    intro ho hq m0 m1 hm a r hr
    simp only [trace, Except.ok.injEq] at hr
    subst hr
    simp only [OnlyMode] at ho
    by_cases hd : name = n ∧ S.active tag name = true
    · have hmode := ho hd.1 hd.2
      obtain ⟨rfl, hact⟩ := hd
      subst hmode
      constructor
      · simp [sites, declares, Site.declares, hact]
      · intro hs _; simp [executed, Ev.executed, hact, hs]
      · intro _ _
        simp only [collect, Ev.collect, executed, Ev.executed, hact, true_and, Option.none_or,
          List.append_nil]
        split <;> simp
      · intro hk _ he
        subst hk
        simp [executed, Ev.executed, hact] at he
    · have hd' : ∀ P : Prop, ¬ (name = n ∧ S.active tag name = true ∧ P) := fun P h => hd ⟨h.1, h.2.1⟩
      constructor
      · intro _; simp [executed, Ev.executed, collect, Ev.collect, hd']
      · intro _ h; simp [sites, declares, Site.declares, hd] at h
      · intro _ _; simp [executed, Ev.executed, collect, Ev.collect, hd']
      · intro _ h; simp [sites, declares, Site.declares, hd] at h
  | nest scope pre body post ih =>
    intro ho hq m0 m1 hm a r hr
    simp only [trace] at hr
    rcases h1 : trace fuel body (pre a) with e | r1 <;> rw [h1] at hr <;> simp at hr
    subst hr
    simp only [OnlyMode] at ho
    by_cases hd : scope = n ∧ S.active S.tag scope = true ∧ anySite S (sites body) = true
    · have hk := ho hd.1 hd.2.1
      obtain ⟨rfl, h1, h2⟩ := hd
      constructor
      · simp [sites, declares, Site.declares, h1, h2]
      · intro hs _; simp [executed, Ev.executed, Ev.collect, h1, h2]
      · intro _ _; simp [executed, Ev.executed, collect, Ev.collect, h1, h2]
      · intro h; rw [hk] at h; simp at h
    · constructor
      · intro _; simp [executed, Ev.executed, collect, Ev.collect, hd]
      · intro _ h; simp [sites, declares, Site.declares, hd] at h
      · intro _ _; simp [executed, Ev.executed, collect, Ev.collect, hd]
      · intro _ h; simp [sites, declares, Site.declares, hd] at h
  | inline pre body post ih =>
    intro ho hq m0 m1 hm a r hr
    simp only [trace] at hr
    simp only [metaOf] at hm
    rcases h1 : trace fuel body (pre a) with e | r1 <;> rw [h1] at hr <;> simp at hr
    subst hr
    exact ih ho hq hm _ _ h1
  | call _ pre body post ih =>
    intro ho hq m0 m1 hm a r hr
    simp only [trace] at hr
    simp only [metaOf] at hm
    rcases hp : metaOf S body [] with e | m <;> rw [hp] at hm
    · simp at hm
    rcases h1 : trace fuel body (pre a) with e | r1 <;> rw [h1] at hr <;> simp at hr
    subst hr
    exact ih ho hq hp _ _ h1
  | cond j sel pre br post ih =>
    intro ho hq m0 m1 hm a r hr
    simp only [metaOf] at hm
    rcases hp : metaOf S (br 0) [] with e | m <;> rw [hp] at hm
    · simp at hm
    simp only [except_bind_ok] at hm
    rcases hmq : (List.finRange (j + 1)).mapM (fun i => metaOf S (br i) []) with e | ms <;>
      rw [hmq] at hm
    · simp at hm
    simp only [except_bind_ok] at hm
    rcases hc : metaCond m ms with e | u <;> rw [hc] at hm
    · simp at hm
    obtain ⟨mi, hmi, hbr⟩ := metaBranch_of_metaOf_cond hmq hc (sel a)
    have hbr' := (metaBranch_ok (metaOf_nil_keys hmi) hbr n).1
    rw [metaOf_nil_get hmi, metaOf_nil_get hp] at hbr'
    simp only [trace] at hr
    rcases h1 : trace fuel (br (sel a)) (pre a) with e | r1 <;> rw [h1] at hr <;> simp at hr
    subst hr
    have e1 := ih _ (ho _) (hq _) hmi _ _ h1
    constructor
    · intro hd
      apply e1.undeclared
      rw [← Option.not_isSome_iff_eq_none] at hd ⊢
      exact fun h => hd (hbr'.1 h)
    · intro hs hd; exact e1.once hs (hbr'.2 hd)
    · exact e1.last
    · intro hk hd; exact e1.never hk (hbr'.2 hd)
  | scan rev pre body post ih =>
    intro ho hq m0 m1 hm a r hr
    simp only [metaOf] at hm
    rcases hp : metaOf S body [] with e | m <;> rw [hp] at hm
    · simp at hm
    simp only [except_bind_ok] at hm
    rcases hms : metaScan m with e | u <;> rw [hms] at hm
    · simp at hm
    have hnstrict := metaScan_ok hms n
    rw [metaOf_nil_get hp] at hnstrict
    simp only [trace] at hr
    rcases h1 : scanDir rev (fun kx => (trace fuel body kx).map (fun r => (r.1.1, (r.1.2, r.2))))
      (pre a).1 (pre a).2 with e | u <;> rw [h1] at hr <;> simp at hr
    subst hr
    have hall := (scanDir_forall rev _ (fun y => LogOk S n k (sites body) y.2) (by
      intro kx r hr
      rcases h2 : trace fuel body kx with e | s <;> rw [h2] at hr <;> simp at hr
      subst hr
      exact ih ho hq hp _ _ h2) _ _ _ h1).1
    have hits : ∀ l ∈ u.2.map (·.2), LogOk S n k (sites body) l := by
      intro l hl
      obtain ⟨y, hy, rfl⟩ := List.mem_map.1 hl
      exact hall y hy
    generalize u.2.map (·.2) = its at hits ⊢
    simp only [sites]
    have hdecl := OnlyMode.declares (p := body) ho
    have hund : declares S n (sites body) = none →
        executed S n [Ev.scan rev (sites body) its] = [] := by
      intro hd
      simp only [executed, Ev.executed, executedIters_eq_map, List.append_nil]
      rw [List.map_congr_left (g := fun _ => []) (fun l hl => ((hits l hl).undeclared hd).1),
        execOrder_map]
      exact flatten_map_nil _
    constructor
    · intro hd
      exact ⟨hund hd, by simp [collect, Ev.collect, hd]⟩
    · intro hs hd
      exfalso
      subst hs
      rcases hdecl with h | h
      · rw [h] at hd; simp at hd
      · exact hnstrict h
    · intro hk hz
      simp only [collect, Ev.collect, Option.none_or]
      rcases hdecl with hd | hd
      · rw [hund hd, hd]; rfl
      · have hz' : k = .clobber → ∀ l ∈ its, noZeroTrip S n l := by
          intro hc
          have := hz hc
          simp only [noZeroTrip, Ev.noZeroTrip, and_true] at this
          exact (noZeroTripIters_iff ..).1 this.2
        have hlast := LogOk.iters_last hits hk hz' rev
        simp only [executed, Ev.executed, List.append_nil, executedIters_eq_map, collectIters_eq_map]
        rw [hd]
        cases k with
        | strict => exact absurd hd hnstrict
        | append => exact absurd rfl hk
        | invalid => exact absurd hd (metaOf_valid body hp n)
        | condClobber => simp only; rw [hlast]
        | clobber =>
          simp only
          rw [hlast]
          -- at least one iteration, and it sows the name
          have hne : its ≠ [] := by
            have := hz rfl
            simp only [noZeroTrip, Ev.noZeroTrip, and_true] at this
            exact this.1 (by simp [hd])
          have hsome : ∀ l ∈ its, executed S n l ≠ [] := by
            intro l hl he
            have e1 := (hits l hl).never rfl (by simp [hd]) he
            have e2 := (hits l hl).last (by simp) (fun hc => hz' hc l hl)
            rw [e1, he] at e2
            simp at e2
          cases hg : (execOrder rev (its.map (executed S n))).flatten.getLast? with
          | some v => rfl
          | none =>
            exfalso
            rw [List.getLast?_eq_none_iff, List.flatten_eq_nil_iff] at hg
            obtain ⟨l, hl⟩ := List.exists_mem_of_ne_nil its hne
            exact hsome l hl (hg _ ((mem_execOrder ..).2 (List.mem_map.2 ⟨l, hl, rfl⟩)))
    · intro hk hd he
      subst hk
      rcases hdecl with hd' | hd'
      · rw [hd'] at hd; simp at hd
      simp only [executed, Ev.executed, executedIters_eq_map, List.append_nil] at he
      simp only [collect, Ev.collect, hd', collectIters_eq_map, Option.none_or]
      rw [LogOk.iters_never hits hd rev he]
  | whileL pre test body post iht ihb =>
    intro ho hq m0 m1 hm a r hr
    simp only [metaOf] at hm
    rcases hp : metaOf S body [] with e | m <;> rw [hp] at hm
    · simp at hm
    simp only [except_bind_ok] at hm
    rcases hms : metaWhile m with e | u <;> rw [hms] at hm
    · simp at hm
    have hclob := metaWhile_ok hms n
    rw [metaOf_nil_get hp] at hclob
    simp only [trace] at hr
    rcases h1 : loopT (fun k => trace fuel test k) (fun k => trace fuel body k) fuel (pre a) with e | u <;>
      rw [h1] at hr <;> simp at hr
    subst hr
    obtain ⟨hits, htests⟩ := loopT_forall _ _ (fun l => LogOk S n k (sites body) l)
      (fun l => executed S n l = [] ∧ collect S n l = none)
      (by intro l r hl hr; simp [executed_append, collect_append, hl, hr])
      (fun k r hk => ⟨quiet_executed fuel test hq.2 k r hk n, quiet_collect fuel test hq.2 k r hk n⟩)
      (fun k r hk => ihb ho hq.1 hp k r hk) _ _ _ h1
    obtain ⟨k1, its, ts⟩ := u
    simp only at hits htests ⊢
    simp only [sites]
    have hdecl := OnlyMode.declares (p := body) ho
    have hund : declares S n (sites body) = none →
        executed S n [Ev.loop (sites body) its ts] = [] := by
      intro hd
      simp only [executed, Ev.executed, executedIters_eq_map, List.append_nil, htests.1, List.nil_append]
      rw [List.map_congr_left (g := fun _ => []) (fun l hl => ((hits l hl).undeclared hd).1)]
      exact flatten_map_nil _
    constructor
    · intro hd
      exact ⟨hund hd, by simp [collect, Ev.collect, hd, htests.2]⟩
    · intro hs hd
      exfalso
      subst hs
      rcases hdecl with h | h
      · rw [h] at hd; simp at hd
      · have := hclob _ h; simp [Mode.isClobber] at this
    · intro hk hz
      simp only [collect, Ev.collect, Option.none_or, htests.2]
      rcases hdecl with hd | hd
      · rw [hund hd, hd]; rfl
      · have hz' : k = .clobber → ∀ l ∈ its, noZeroTrip S n l := by
          intro hc
          have := hz hc
          simp only [noZeroTrip, Ev.noZeroTrip, and_true] at this
          exact (noZeroTripIters_iff ..).1 this.2
        have hlast := LogOk.iters_last hits hk hz' false
        simp only [execOrder, Bool.false_eq_true, if_false] at hlast
        simp only [executed, Ev.executed, List.append_nil, executedIters_eq_map, collectIters_eq_map,
          htests.1, List.nil_append]
        rw [hd]
        cases k with
        | strict => have := hclob _ hd; simp [Mode.isClobber] at this
        | append => exact absurd rfl hk
        | invalid => exact absurd hd (metaOf_valid body hp n)
        | condClobber => simp only; rw [hlast]
        | clobber =>
          simp only
          rw [hlast]
          have hne : its ≠ [] := by
            have := hz rfl
            simp only [noZeroTrip, Ev.noZeroTrip, and_true] at this
            exact this.1 (by simp [hd])
          have hsome : ∀ l ∈ its, executed S n l ≠ [] := by
            intro l hl he
            have e1 := (hits l hl).never rfl (by simp [hd]) he
            have e2 := (hits l hl).last (by simp) (fun hc => hz' hc l hl)
            rw [e1, he] at e2
            simp at e2
          cases hg : (its.map (executed S n)).flatten.getLast? with
          | some v => rfl
          | none =>
            exfalso
            rw [List.getLast?_eq_none_iff, List.flatten_eq_nil_iff] at hg
            obtain ⟨l, hl⟩ := List.exists_mem_of_ne_nil its hne
            exact hsome l hl (hg _ (List.mem_map.2 ⟨l, hl, rfl⟩))
    · intro hk hd he
      subst hk
      rcases hdecl with hd' | hd'
      · rw [hd'] at hd; simp at hd
      simp only [executed, Ev.executed, executedIters_eq_map, List.append_nil, htests.1,
        List.nil_append] at he
      simp only [collect, Ev.collect, hd', collectIters_eq_map, Option.none_or, htests.2]
      have := LogOk.iters_never hits hd false (by simpa [execOrder] using he)
      simp only [execOrder, Bool.false_eq_true, if_false] at this
      rw [this]

end Verif.Harvest
