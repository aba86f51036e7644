import Verif.Harvest.PropsPlantStrict

/-
C61: exactly which functions `plant` accepts.  A context is the part of a function that is traced together: the function
itself, and each body of a call, branch, loop or nested scope.
-/

namespace Verif.Harvest

/-- The sows that take part in the harvest and are not inside a call (other than of a custom-derivative function), a
branch, a loop or a nested scope: their names and modes, in program order. -/
def ownSows {V : Type} (S : Settings) : {A B : Type} → Prog V A B → List (String × Mode)
  | _, _, .seq p q => ownSows S p ++ ownSows S q
  | _, _, .sow tag name mode _ _ _ => if S.active tag name = true then [(name, mode)] else []
  | _, _, .inline _ body _ => ownSows S body
  | _, _, .call .customJvp _ body _ => ownSows S body
  | _, _, _ => []

/-- Once a name has been planted at a sow that is not a clobber, it is not sown again. -/
def Once {V : Type} (P : Dict V) (l : List (String × Mode)) : Prop :=
  l.Pairwise (fun a b => (P a.1).isSome → a.2.isClobber = false → b.1 ≠ a.1)

/-- `Φ` holds for the plants and the sows of every context inside of the function. -/
def Inside {V : Type} (S : Settings) (Φ : Dict V → List (String × Mode) → Prop) : {A B : Type} → Prog V A B → Dict V → Prop
  | _, _, .seq p q, P => Inside S Φ p P ∧ Inside S Φ q P
  | _, _, .inline _ body _, P => Inside S Φ body P
  | _, _, .call .customJvp _ body _, P => Inside S Φ body P
  | _, _, .call _ _ body _, P => Φ P (ownSows S body) ∧ Inside S Φ body P
  | _, _, .nest scope _ body _, P => Φ (subPlants P scope) (ownSows S body) ∧ Inside S Φ body (subPlants P scope)
  | _, _, .cond _ _ _ br _, P => ∀ i, Φ P (ownSows S (br i)) ∧ Inside S Φ (br i) P
  | _, _, .scan _ _ body _, P =>
    Φ (scanPlants (metaD S body) P) (ownSows S body) ∧ Inside S Φ body (scanPlants (metaD S body) P)
  | _, _, .whileL _ _ body _, P => Φ P (ownSows S body) ∧ Inside S Φ body P
  | _, _, _, _ => True

/-- The modes are known and every branch and loop, at any depth, may be harvested (C15): the branches and bodies can be
reaped on their own, the branches have the same names, nothing in a scan is strict and everything in a while loop is a
clobber. -/
def FlowOk {V : Type} (S : Settings) : {A B : Type} → Prog V A B → Prop
  | _, _, .pure _ => True
  | _, _, .seq p q => FlowOk S p ∧ FlowOk S q
  | _, _, .sow _ _ mode _ _ _ => mode ≠ .invalid
  | _, _, .nest _ _ body _ => FlowOk S body
  | _, _, .inline _ body _ => FlowOk S body
  | _, _, .call _ _ body _ => FlowOk S body
  | _, _, .cond _ _ _ br _ => (∀ i, FlowOk S (br i)) ∧ ∃ m : Fin _ → Meta, (∀ i, metaOf S (br i) [] = .ok (m i)) ∧
      ∀ i, metaBranch (m 0) (m i) = .ok ()
  | _, _, .scan _ _ body _ => FlowOk S body ∧ ∃ m, metaOf S body [] = .ok m ∧ ∀ e ∈ m, e.2 ≠ .strict
  | _, _, .whileL _ _ body _ => FlowOk S body ∧ ∃ m, metaOf S body [] = .ok m ∧ ∀ e ∈ m, e.2.isClobber = true

theorem once_append {V : Type} (P : Dict V) (l r : List (String × Mode)) : Once P (l ++ r) ↔
    Once P l ∧ Once P r ∧ ∀ a ∈ l, ∀ b ∈ r, (P a.1).isSome → a.2.isClobber = false → b.1 ≠ a.1 := by
  simp only [Once, List.pairwise_append]

theorem mapM_ok_iff {α β ε : Type} (f : α → Except ε β) : ∀ l : List α,
    (∃ r, l.mapM f = .ok r) ↔ ∀ a ∈ l, ∃ b, f a = .ok b
  | [] => by simp [pure, Except.pure]
  | a :: l => by
    rw [List.mapM_cons]
    have ih := mapM_ok_iff f l
    rcases hf : f a with e | b
    · simp [hf]
    · rcases hl : l.mapM f with e | bs
      · rw [hl] at ih
        simp only [reduceCtorEq, exists_false, false_iff] at ih
        simp only [except_bind_ok, except_bind_error, reduceCtorEq, exists_false, List.mem_cons, forall_eq_or_imp,
          false_iff, not_and]
        exact fun _ => ih
      · rw [hl] at ih
        simp only [except_bind_ok, pure, Except.pure, Except.ok.injEq, exists_eq', List.mem_cons, forall_eq_or_imp, hf,
          true_and, true_iff]
        exact ih.1 ⟨_, rfl⟩

theorem mapM_ok_eq {α β ε : Type} (f : α → Except ε β) (g : α → β) : ∀ l : List α, (∀ a ∈ l, f a = .ok (g a)) →
    l.mapM f = .ok (l.map g)
  | [], _ => rfl
  | a :: l, h => by
    rw [List.mapM_cons, h a (by simp), mapM_ok_eq f g l (fun b hb => h b (by simp [hb]))]
    rfl

theorem metaCond_ok_iff (first : Meta) : ∀ ms : List Meta, metaCond first ms = .ok () ↔
    ∀ m ∈ ms, metaBranch first m = .ok ()
  | [] => by simp [metaCond]
  | m :: ms => by
    have ih := metaCond_ok_iff first ms
    simp only [metaCond, List.mem_cons, forall_eq_or_imp]
    rcases h : metaBranch first m with e | u
    · simp
    · simp only [except_bind_ok, ih]
      simp

/-- The state of the context: the names that have been planted at a sow that is not a clobber. -/
theorem plantCheck_exact {V A B : Type} (S : Settings) (p : Prog V A B) : ∀ (P : Dict V) (st : List String),
    ((∃ st', plantCheck S p P st = .ok st') ↔ FlowOk S p ∧ Inside S Once p P ∧ Once P (ownSows S p) ∧
      ∀ n ∈ st, ∀ e ∈ ownSows S p, e.1 ≠ n) ∧
    ∀ st', plantCheck S p P st = .ok st' → ∀ n, n ∈ st' ↔
      n ∈ st ∨ ((P n).isSome ∧ ∃ e ∈ ownSows S p, e.1 = n ∧ e.2.isClobber = false) := by
  induction p with
  | pure f =>
    intro P st
    simp [plantCheck, FlowOk, Inside, ownSows, Once]
  | seq p q ihp ihq =>
    intro P st
    simp only [plantCheck, FlowOk, Inside, ownSows, once_append, List.mem_append]
    obtain ⟨a1, a2⟩ := ihp P st
    rcases h1 : plantCheck S p P st with e | st1
    · rw [h1] at a1
      simp only [reduceCtorEq, exists_false, false_iff] at a1
      refine ⟨?_, by simp⟩
      simp only [except_bind_error, reduceCtorEq, exists_false, false_iff]
      rintro ⟨⟨x, -⟩, ⟨y, -⟩, ⟨z, -⟩, w⟩
      exact a1 ⟨x, y, z, fun n hn e he => w n hn e (.inl he)⟩
    · rw [h1] at a1
      have a1' := a1.1 ⟨_, rfl⟩
      have a2' := a2 st1 h1
      obtain ⟨b1, b2⟩ := ihq P st1
      simp only [except_bind_ok]
      constructor
      · rw [b1]
        constructor
        · rintro ⟨x, y, z, w⟩
          refine ⟨⟨a1'.1, x⟩, ⟨a1'.2.1, y⟩, ⟨a1'.2.2.1, z, fun a ha b hb hs hc => ?_⟩, fun n hn e he => ?_⟩
          · exact w a.1 ((a2' a.1).2 (.inr ⟨hs, a, ha, rfl, hc⟩)) b hb
          · rcases he with he | he
            · exact a1'.2.2.2 n hn e he
            · exact w n ((a2' n).2 (.inl hn)) e he
        · rintro ⟨⟨-, x⟩, ⟨-, y⟩, ⟨-, z, v⟩, w⟩
          refine ⟨x, y, z, fun n hn e he => ?_⟩
          rcases (a2' n).1 hn with h | ⟨hs, a, ha, rfl, hc⟩
          · exact w n h e (.inr he)
          · exact v a ha e he hs hc
      · intro st' h n
        rw [b2 st' h n, a2' n]
        constructor
        · rintro ((h | ⟨hs, e, he, h⟩) | ⟨hs, e, he, h⟩)
          · exact .inl h
          · exact .inr ⟨hs, e, .inl he, h⟩
          · exact .inr ⟨hs, e, .inr he, h⟩
        · rintro (h | ⟨hs, e, he | he, h⟩)
          · exact .inl (.inl h)
          · exact .inl (.inr ⟨hs, e, he, h⟩)
          · exact .inr ⟨hs, e, he, h⟩
  | sow tag name mode pre pred post =>
    intro P st
    simp only [plantCheck, FlowOk, Inside, ownSows]
    by_cases hm : mode = .invalid
    · simp [hm]
    rw [if_neg hm]
    by_cases ha : S.active tag name = true
    · rw [dispatch_handle.2 ha]
      simp only [ha, if_true]
      by_cases hst : name ∈ st
      · simp only [List.contains_iff_mem, hst, if_true, reduceCtorEq, exists_false, false_iff, false_implies,
          implies_true, and_true]
        rintro ⟨-, -, -, w⟩
        exact w name hst (name, mode) (by simp) rfl
      · simp only [List.contains_iff_mem, hst, if_false]
        by_cases hP : (P name).isSome = true
        · by_cases hc : mode.isClobber = true
          · simp only [hP, hc, Bool.not_true, Bool.and_false, Bool.false_eq_true, if_false, Except.ok.injEq, exists_eq',
              ne_eq, hm, not_false_eq_true, Once, List.pairwise_cons, List.not_mem_nil, false_implies, implies_true,
              List.Pairwise.nil, and_self, List.mem_singleton, forall_eq, true_and, true_iff]
            refine ⟨fun n hn h => hst (h ▸ hn), ?_⟩
            rintro st' rfl n
            constructor
            · exact .inl
            · rintro (h | ⟨-, e, rfl, -, h⟩)
              · exact h
              · simp [hc] at h
          · have hc' : mode.isClobber = false := by simpa using hc
            simp only [hP, hc', Bool.not_false, Bool.and_self, if_true, Except.ok.injEq, exists_eq',
              ne_eq, hm, not_false_eq_true, Once, List.pairwise_cons, List.not_mem_nil, false_implies, implies_true,
              List.Pairwise.nil, and_self, List.mem_singleton, forall_eq, true_and, true_iff]
            refine ⟨fun n hn h => hst (h ▸ hn), ?_⟩
            rintro st' rfl n
            constructor
            · intro h
              rcases List.mem_cons.1 h with rfl | h
              · exact .inr ⟨hP, _, rfl, rfl, hc'⟩
              · exact .inl h
            · rintro (h | ⟨-, e, rfl, rfl, h⟩) <;> simp [*]
        · have hP' : (P name).isSome = false := by simpa using hP
          simp only [hP', Bool.false_and, Bool.false_eq_true, if_false, Except.ok.injEq, exists_eq',
              ne_eq, hm, not_false_eq_true, Once, List.pairwise_cons, List.not_mem_nil, false_implies, implies_true,
              List.Pairwise.nil, and_self, List.mem_singleton, forall_eq, true_and, true_iff]
          refine ⟨fun n hn h => hst (h ▸ hn), ?_⟩
          rintro st' rfl n
          constructor
          · exact .inl
          · rintro (h | ⟨h, e, rfl, rfl, -⟩)
            · exact h
            · simp [hP'] at h
    · have hd : S.dispatch tag name ≠ .handle := fun h => ha (dispatch_handle.1 h)
      simp only [ha, Bool.false_eq_true, if_false]
      rcases hx : S.dispatch tag name with _ | _ | _
      · simp [hm, Once]
      · simp [hm, Once]
      · exact absurd hx hd
  | nest scope pre body post ih =>
    intro P st
    simp only [plantCheck, FlowOk, Inside, ownSows]
    have h := (ih (subPlants P scope) []).1
    rcases h1 : plantCheck S body (subPlants P scope) [] with e | s1 <;> rw [h1] at h
    · simp only [reduceCtorEq, exists_false, false_iff] at h
      simp only [except_bind_error, reduceCtorEq, exists_false, false_iff, false_implies, implies_true, and_true]
      rintro ⟨x, ⟨y, z⟩, -⟩
      exact h ⟨x, z, y, by simp⟩
    · have h' := h.1 ⟨_, rfl⟩
      simp only [except_bind_ok, pure, Except.pure, Except.ok.injEq, exists_eq']
      refine ⟨iff_of_true trivial ⟨h'.1, ⟨h'.2.2.1, h'.2.1⟩, by simp [Once], by simp⟩, ?_⟩
      rintro st' rfl n
      simp
  | inline pre body post ih =>
    intro P st
    simp only [plantCheck, FlowOk, Inside, ownSows]
    exact ih P st
  | call kind pre body post ih =>
    intro P st
    cases kind
    case customJvp =>
      simp only [plantCheck, FlowOk, Inside, ownSows]
      exact ih P st
    all_goals
      simp only [plantCheck, FlowOk, Inside, ownSows]
      have h := (ih P []).1
      rcases h1 : plantCheck S body P [] with e | s1 <;> rw [h1] at h
      · simp only [reduceCtorEq, exists_false, false_iff] at h
        simp only [except_bind_error, reduceCtorEq, exists_false, false_iff, false_implies, implies_true, and_true]
        rintro ⟨x, ⟨y, z⟩, -⟩
        exact h ⟨x, z, y, by simp⟩
      · have h' := h.1 ⟨_, rfl⟩
        simp only [except_bind_ok, pure, Except.pure, Except.ok.injEq, exists_eq']
        refine ⟨iff_of_true trivial ⟨h'.1, ⟨h'.2.2.1, h'.2.1⟩, by simp [Once], by simp⟩, ?_⟩
        rintro st' rfl n
        simp
  | cond m sel pre br post ih =>
    intro P st
    simp only [plantCheck, FlowOk, Inside, ownSows]
    have key : (∃ st', (do
        let first ← metaOf S (br 0) []
        let metas ← (List.finRange (m + 1)).mapM (fun i => metaOf S (br i) [])
        metaCond first metas
        let _ ← (List.finRange (m + 1)).mapM (fun i => plantCheck S (br i) P [])
        return st : Except Err (List String)) = .ok st') ↔
        ((∀ i, ∃ s, plantCheck S (br i) P [] = .ok s) ∧ ∃ mm : Fin (m + 1) → Meta,
          (∀ i, metaOf S (br i) [] = .ok (mm i)) ∧ ∀ i, metaBranch (mm 0) (mm i) = .ok ()) := by
      have hl := mapM_ok_iff (fun i => plantCheck S (br i) P []) (List.finRange (m + 1))
      simp only [List.mem_finRange, forall_const] at hl
      by_cases hm : ∀ i, ∃ a, metaOf S (br i) [] = .ok a
      · obtain ⟨mm, hmm⟩ : ∃ mm : Fin (m + 1) → Meta, ∀ i, metaOf S (br i) [] = .ok (mm i) :=
          ⟨fun i => (hm i).choose, fun i => (hm i).choose_spec⟩
        have hmap := mapM_ok_eq (fun i => metaOf S (br i) []) mm (List.finRange (m + 1)) (fun i _ => hmm i)
        rw [hmap, hmm 0]
        simp only [except_bind_ok]
        have hu : ∀ mm' : Fin (m + 1) → Meta, (∀ i, metaOf S (br i) [] = .ok (mm' i)) → mm' = mm := by
          intro mm' h
          funext i
          have := (h i).symm.trans (hmm i)
          simpa using this
        have hmc := metaCond_ok_iff (mm 0) ((List.finRange (m + 1)).map mm)
        simp only [List.mem_map, List.mem_finRange, true_and, forall_exists_index, forall_apply_eq_imp_iff] at hmc
        have hex : (∃ mm' : Fin (m + 1) → Meta, (∀ i, metaOf S (br i) [] = .ok (mm' i)) ∧
            ∀ i, metaBranch (mm' 0) (mm' i) = .ok ()) ↔ ∀ i, metaBranch (mm 0) (mm i) = .ok () := by
          constructor
          · rintro ⟨mm', h1, h2⟩
            rw [hu mm' h1] at h2
            exact h2
          · exact fun h => ⟨mm, hmm, h⟩
        rw [hex, ← hl, ← hmc]
        rcases metaCond (mm 0) ((List.finRange (m + 1)).map mm) with e | u
        · simp
        · rcases (List.finRange (m + 1)).mapM (fun i => plantCheck S (br i) P []) with e | u
          · simp
          · simp [pure, Except.pure]
      · constructor
        · rintro ⟨st', h⟩
          exfalso
          apply hm
          intro i
          rcases h1 : metaOf S (br 0) [] with e | first <;> rw [h1] at h
          · simp at h
          rcases h2 : (List.finRange (m + 1)).mapM (fun i => metaOf S (br i) []) with e | ms <;> rw [h2] at h
          · simp at h
          exact (mapM_ok_iff (fun i => metaOf S (br i) []) (List.finRange (m + 1))).1 ⟨ms, h2⟩ i (by simp)
        · rintro ⟨-, mm, h, -⟩
          exact absurd (fun i => ⟨_, h i⟩) hm
    constructor
    · rw [key]
      have hi : ∀ i, (∃ s, plantCheck S (br i) P [] = .ok s) ↔
          FlowOk S (br i) ∧ Inside S Once (br i) P ∧ Once P (ownSows S (br i)) := by
        intro i
        rw [(ih i P []).1]
        simp
      constructor
      · rintro ⟨h1, h2⟩
        exact ⟨⟨fun i => ((hi i).1 (h1 i)).1, h2⟩, fun i => ⟨((hi i).1 (h1 i)).2.2, ((hi i).1 (h1 i)).2.1⟩, by simp [Once],
          by simp⟩
      · rintro ⟨⟨h1, h2⟩, h3, -⟩
        exact ⟨fun i => (hi i).2 ⟨h1 i, (h3 i).2, (h3 i).1⟩, h2⟩
    · intro st' h n
      have : st' = st := by
        rcases h1 : metaOf S (br 0) [] with e | first <;> rw [h1] at h
        · simp at h
        simp only [except_bind_ok] at h
        rcases h2 : (List.finRange (m + 1)).mapM (fun i => metaOf S (br i) []) with e | ms <;> rw [h2] at h
        · simp at h
        simp only [except_bind_ok] at h
        rcases h3 : metaCond first ms with e | _ <;> rw [h3] at h
        · simp at h
        simp only [except_bind_ok] at h
        rcases h4 : (List.finRange (m + 1)).mapM (fun i => plantCheck S (br i) P []) with e | _ <;> rw [h4] at h
        · simp at h
        simp only [except_bind_ok, pure, Except.pure, Except.ok.injEq] at h
        exact h.symm
      simp [this]
  | scan rev pre body post ih =>
    intro P st
    simp only [plantCheck, FlowOk, Inside, ownSows]
    rcases h1 : metaOf S body [] with e | inner
    · simp
    have hmd : metaD S body = inner := by simp [metaD, h1]
    rw [hmd]
    simp only [except_bind_ok, Except.ok.injEq, exists_eq_left']
    generalize hf : List.find? _ inner = o
    rcases o with _ | e
    · rw [List.find?_eq_none] at hf
      have hs : ∀ e ∈ inner, e.2 ≠ .strict := by simpa using hf
      have h := (ih (scanPlants inner P) []).1
      rcases h2 : plantCheck S body (scanPlants inner P) [] with e | s1 <;> rw [h2] at h
      · simp only [reduceCtorEq, exists_false, false_iff] at h
        simp only [except_bind_error, reduceCtorEq, exists_false, false_iff, false_implies, implies_true, and_true]
        rintro ⟨⟨x, -⟩, ⟨y, z⟩, -⟩
        exact h ⟨x, z, y, by simp⟩
      · have h' := h.1 ⟨_, rfl⟩
        simp only [except_bind_ok, pure, Except.pure, Except.ok.injEq, exists_eq']
        refine ⟨iff_of_true trivial ⟨⟨h'.1, hs⟩, ⟨h'.2.2.1, h'.2.1⟩, by simp [Once], by simp⟩, ?_⟩
        rintro st' rfl n
        simp
    · have hs := List.find?_some hf
      have hm := List.mem_of_find?_eq_some hf
      simp only [reduceCtorEq, exists_false, false_iff, false_implies, implies_true, and_true]
      rintro ⟨⟨-, x⟩, -⟩
      exact x e hm (by simpa using hs)
  | whileL pre test body post ihc ih =>
    intro P st
    simp only [plantCheck, FlowOk, Inside, ownSows]
    rcases h1 : metaOf S body [] with e | inner
    · simp
    simp only [except_bind_ok, Except.ok.injEq, exists_eq_left']
    rcases hf : inner.find? (fun e => !e.2.isClobber) with _ | e
    · have hw : metaWhile inner = .ok () := by simp only [metaWhile, hf]
      rw [List.find?_eq_none] at hf
      have hs : ∀ e ∈ inner, e.2.isClobber = true := by simpa using hf
      have h := (ih P []).1
      simp only [hw, except_bind_ok]
      rcases h2 : plantCheck S body P [] with e | s1 <;> rw [h2] at h
      · simp only [reduceCtorEq, exists_false, false_iff] at h
        simp only [except_bind_error, reduceCtorEq, exists_false, false_iff, false_implies, implies_true, and_true]
        rintro ⟨⟨x, -⟩, ⟨y, z⟩, -⟩
        exact h ⟨x, z, y, by simp⟩
      · have h' := h.1 ⟨_, rfl⟩
        simp only [except_bind_ok, pure, Except.pure, Except.ok.injEq, exists_eq']
        refine ⟨iff_of_true trivial ⟨⟨h'.1, hs⟩, ⟨h'.2.2.1, h'.2.1⟩, by simp [Once], by simp⟩, ?_⟩
        rintro st' rfl n
        simp
    · have hw : metaWhile inner = .error (.nonClobberInWhile e.1) := by simp only [metaWhile, hf]
      have hs := List.find?_some hf
      have hm := List.mem_of_find?_eq_some hf
      simp only [hw, except_bind_error, reduceCtorEq, exists_false, false_iff, false_implies, implies_true, and_true]
      rintro ⟨⟨-, x⟩, -⟩
      have := x e hm
      simp [this] at hs

/-- C61, exact: `plant` accepts a function exactly if its control flow can be harvested and, in each context (the
function itself, each body of a call, branch, loop or nested scope), a name that is planted at a strict or append sow is
not sown again. -/
theorem plant_accepts_iff {V A B : Type} (S : Settings) (f : Prog V A B) (P : Dict V) :
    (∃ g, plant S f P = .ok g) ↔ FlowOk S f ∧ Once P (ownSows S f) ∧ Inside S Once f P := by
  have h := (plantCheck_exact S f P []).1
  have : (∃ g, plant S f P = .ok g) ↔ ∃ st', plantCheck S f P [] = .ok st' := by
    simp only [plant]
    rcases plantCheck S f P [] with e | st <;> simp
  rw [this, h]
  constructor
  · rintro ⟨a, b, c, -⟩; exact ⟨a, c, b⟩
  · rintro ⟨a, c, b⟩; exact ⟨a, b, c, by simp⟩

/-- C61 inside a branch: there a strict or append name that is sown twice is rejected even if the sows are in different
calls, because the branches are reaped on their own. -/
theorem plant_branch_twice_rejected {V A X Y C : Type} (S : Settings) (n : String) (k : Mode) (hk : k.isClobber = false)
    (j : Nat) (sel : A → Fin (j + 1)) (pre : A → X) (br : Fin (j + 1) → Prog V X Y) (post : A → Y → C) (P : Dict V)
    (i : Fin (j + 1)) (ho : OnlyMode S n k (br i)) (ss : List Site) (hp : Path (br i) ss)
    (h2 : 2 ≤ (occurrences S n ss).length) : ∃ e, plant S (.cond j sel pre br post) P = .error e := by
  rcases h : plant S (.cond j sel pre br post) P with e | g
  · exact ⟨e, rfl⟩
  · exfalso
    have := ((plant_accepts_iff S (.cond j sel pre br post) P).1 ⟨g, h⟩).1
    simp only [FlowOk] at this
    obtain ⟨-, m, hm, -⟩ := this
    obtain ⟨e, he, -⟩ := strict_twice_rejected S n k hk (br i) ho ss hp h2
    simp only [callAndReap, hm i] at he
    simp at he

/-- The function of `plant_strict_twice_in_call` is accepted because its two sows are in different contexts. -/
example : ∃ g, plant (V := Nat) ⟨"t", [], none, false⟩
    (.seq (.sow (A := Val Nat) "t" "x" .strict id (fun _ => true) (fun _ v => v))
      (.call .pjit id (.sow (C := Val Nat) "t" "x" .strict id (fun _ => true) (fun _ v => v)) (fun _ v => v)))
    (fun _ => some (.leaf 1)) = .ok g := by
  rw [plant_accepts_iff]
  refine ⟨⟨by simp [FlowOk], by simp [FlowOk]⟩, ?_, trivial, ?_, trivial⟩
  · have : ownSows (V := Nat) ⟨"t", [], none, false⟩
        (.seq (.sow (A := Val Nat) "t" "x" .strict id (fun _ => true) (fun _ v => v))
        (.call .pjit id (.sow (C := Val Nat) "t" "x" .strict id (fun _ => true) (fun _ v => v)) (fun _ v => v))) =
        [("x", .strict)] := by rfl
    rw [this]; simp [Once]
  · have : ownSows (V := Nat) ⟨"t", [], none, false⟩
        (.sow (A := Val Nat) (C := Val Nat) "t" "x" .strict id (fun _ => true) (fun _ v => v)) = [("x", .strict)] := by rfl
    rw [this]; simp [Once]

/-- Two sows in one context are rejected, unless the name is not planted. -/
example : let f : Prog Nat (Val Nat) (Val Nat) :=
      .seq (.sow "t" "x" .strict id (fun _ => true) (fun _ v => v)) (.sow "t" "x" .clobber id (fun _ => true) (fun _ v => v))
    ¬ (∃ g, plant ⟨"t", [], none, false⟩ f (fun _ => some (.leaf 1)) = .ok g) ∧
    ∃ g, plant ⟨"t", [], none, false⟩ f (fun _ => none) = .ok g := by
  intro f
  have h : ownSows ⟨"t", [], none, false⟩ f = [("x", .strict), ("x", .clobber)] := rfl
  rw [plant_accepts_iff, plant_accepts_iff, h]
  refine ⟨fun ⟨_, h2, _⟩ => ?_, ⟨by simp [FlowOk], by simp [FlowOk]⟩, by simp [Once], trivial, trivial⟩
  simp [Once, Mode.isClobber] at h2

end Verif.Harvest
