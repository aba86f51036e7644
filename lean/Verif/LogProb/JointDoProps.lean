import Verif.LogProb.JointDo
import Verif.LogProb.JointLawProps

/-! C82: the staged program of `intervene` and `conditional`. -/
namespace Verif.LogProb.Joint

open Verif.Propagate Verif.Inverse

/-- What the variables stand for: themselves, constants, or further arguments. -/
def Stands (extra : List Nat) (σ : Nat → Atom F) : Prop :=
  ∀ x, σ x = .var x ∨ (∃ c, σ x = .lit c) ∨ ∃ e ∈ extra, σ x = .var e

theorem Stands.bind1 {extra σ} (h : Stands extra σ) (x : Nat) {a : Atom F} (ha : (∃ c, a = .lit c) ∨ ∃ e ∈ extra, a = .var e) :
    Stands extra (bind1 σ x a) := by
  intro y
  simp only [Joint.bind1]
  split
  · exact .inr ha
  · exact h y

theorem Stands.bindAll {extra : List Nat} (xs : List Nat) : ∀ {σ : Nat → Atom F} (cs : List F), Stands extra σ →
    Stands extra (bindAll σ xs cs) := by
  induction xs with
  | nil => intro σ cs h; cases cs <;> exact h
  | cons x xs ih =>
    intro σ cs h
    cases cs with
    | nil => exact h
    | cons c cs => exact ih cs (h.bind1 x (.inl ⟨c, rfl⟩))

theorem bindAll_frame (xs : List Nat) : ∀ (σ : Nat → Atom F) (cs : List F) (y : Nat), y ∉ xs → bindAll σ xs cs y = σ y := by
  induction xs with
  | nil => intro σ cs y _; cases cs <;> rfl
  | cons x xs ih =>
    intro σ cs y hy
    rw [List.mem_cons, not_or] at hy
    cases cs with
    | nil => rfl
    | cons c cs => simp only [bindAll, ih _ _ _ hy.2, Joint.bind1, if_neg hy.1]

theorem replace_node {extra σ} (h : Stands extra σ) {a : Atom F} {z : Nat} (hz : (replace σ a).node = some z) :
    a.node = some z ∨ z ∈ extra := by
  have key : ∀ x, (σ x).node = some z → x = z ∨ z ∈ extra := by
    intro x hx
    rcases h x with e | ⟨c, e⟩ | ⟨e, he, e'⟩
    · rw [e] at hx; exact .inl (by simpa [Atom.node] using hx)
    · rw [e] at hx; simp [Atom.node] at hx
    · rw [e'] at hx; right; simp [Atom.node] at hx; exact hx ▸ he
  cases a with
  | lit c => simp [replace, Atom.node] at hz
  | var x => exact (key x hz).imp (fun e => by simp [Atom.node, e]) id
  | drop x => exact (key x hz).imp (fun e => by simp [Atom.node, e]) id

theorem vars_replace {extra σ} (h : Stands extra σ) (as : List (Atom F)) {z : Nat} (hz : z ∈ vars (as.map (replace σ))) :
    z ∈ vars as ∨ z ∈ extra := by
  obtain ⟨b, h1, h2⟩ := List.mem_filterMap.1 hz
  obtain ⟨a, ha, rfl⟩ := List.mem_map.1 h1
  exact (replace_node h h2).imp (fun e => List.mem_filterMap.2 ⟨a, ha, e⟩) id

/-- More precisely, a variable of a replaced operand comes from a variable that stands for it. -/
theorem vars_replace_from {σ : Nat → Atom F} (as : List (Atom F)) {z : Nat} (hz : z ∈ vars (as.map (replace σ))) :
    ∃ x ∈ vars as, (σ x).node = some z := by
  obtain ⟨b, h1, h2⟩ := List.mem_filterMap.1 hz
  obtain ⟨a, ha, rfl⟩ := List.mem_map.1 h1
  cases a with
  | lit c => simp [replace, Atom.node] at h2
  | var x => exact ⟨x, List.mem_filterMap.2 ⟨_, ha, rfl⟩, h2⟩
  | drop x => exact ⟨x, List.mem_filterMap.2 ⟨_, ha, rfl⟩, h2⟩

theorem operand_replace (σ : Nat → Atom F) (l : Link) : (l.replace σ).operand = l.operand.map (replace σ) := by
  cases l <;> rfl

theorem lastVar_replace (σ : Nat → Atom F) (ls : List (Link × Nat)) : ∀ t,
    lastVar t (ls.map fun l => (l.1.replace σ, l.2)) = lastVar t ls := by
  induction ls with
  | nil => intro t; rfl
  | cons p ls ih => intro t; exact ih p.2

theorem uses_replace (σ : Nat → Atom F) (D : Draw) (nm : Option String) :
    (Stmt.draw { D.replace σ with name := nm }).uses = vars ((D.operands ++ D.links.flatMap fun l => l.1.operand).map (replace σ)) := by
  simp only [Stmt.uses, Draw.replace, vars, List.map_append, List.map_flatMap, List.flatMap_map, operand_replace]

theorem defs_replace (σ : Nat → Atom F) (D : Draw) (nm : Option String) :
    (Stmt.draw { D.replace σ with name := nm }).defs = (Stmt.draw D).defs := by
  simp [Stmt.defs, Draw.replace, Function.comp_def]

theorem uses_draw (D : Draw) : (Stmt.draw D).uses = vars (D.operands ++ D.links.flatMap fun l => l.1.operand) := rfl

theorem draw_same (σ : Nat → Atom F) (D : Draw) : D.replace σ = { D.replace σ with name := D.name } := rfl

/-! ### Well-formedness -/

variable {obs : String → Option (Atom F)} {extra : List Nat}

/-- The values planted are constants or further arguments. -/
def Plants (extra : List Nat) (obs : String → Option (Atom F)) : Prop :=
  ∀ n a, obs n = some a → (∃ c, a = .lit c) ∨ ∃ e ∈ extra, a = .var e

theorem Plants.bind {extra obs} (h : Plants extra obs) {nm : Option String} {a : Atom F} (ha : nm.bind obs = some a) :
    (∃ c, a = .lit c) ∨ ∃ e ∈ extra, a = .var e := by
  cases nm with
  | none => simp at ha
  | some n => exact h n a ha

theorem plant_defs (body : List Stmt) : ∀ σ, ((plantBody obs σ body).1.flatMap Stmt.defs).Sublist (body.flatMap Stmt.defs) := by
  induction body with
  | nil => intro σ; exact List.Sublist.refl _
  | cons st rest ih =>
    intro σ
    cases st with
    | det op ins outs =>
      simp only [plantBody]
      split
      · exact (ih _).trans (by simp [List.flatMap_cons])
      · simpa [List.flatMap_cons, Stmt.defs] using ih σ
    | draw D =>
      simp only [plantBody]
      split
      · rw [List.flatMap_cons, List.flatMap_cons, defs_replace]
        exact List.Sublist.append (List.Sublist.refl _) (ih _)
      · rw [List.flatMap_cons, List.flatMap_cons, draw_same, defs_replace]
        exact List.Sublist.append (List.Sublist.refl _) (ih _)
    | tag n a =>
      simp only [plantBody]
      split
      · exact ih σ
      · exact ih σ

theorem plant_scoped (hp : Plants extra obs) (body : List Stmt) : ∀ σ, Stands extra σ → Scoped body →
    (∀ e ∈ extra, e ∉ body.flatMap Stmt.defs) → Scoped (plantBody obs σ body).1 := by
  induction body with
  | nil => intro σ _ _ _; trivial
  | cons st rest ih =>
    intro σ hσ hs he
    have he' : ∀ e ∈ extra, e ∉ rest.flatMap Stmt.defs := fun e h hc => he e h (by
      rw [List.flatMap_cons]; exact List.mem_append_right _ hc)
    have hst : ∀ e ∈ extra, e ∉ st.defs := fun e h hc => he e h (by
      rw [List.flatMap_cons]; exact List.mem_append_left _ hc)
    have main : ∀ (σ') (as : List (Atom F)), (∀ x ∈ vars as, x ∈ st.uses) → ∀ z ∈ vars (as.map (replace σ)),
        z ∉ st.defs ++ (plantBody obs σ' rest).1.flatMap Stmt.defs := by
      intro σ' as ha z hz hc
      rcases vars_replace hσ as hz with h | h
      · have := hs.1 z (ha z h)
        rw [List.mem_append, not_or] at this
        rcases List.mem_append.1 hc with hc | hc
        · exact this.1 hc
        · exact this.2 ((plant_defs rest σ').subset hc)
      · rcases List.mem_append.1 hc with hc | hc
        · exact hst z h hc
        · exact he' z h ((plant_defs rest σ').subset hc)
    cases st with
    | det op ins outs =>
      simp only [plantBody]
      split
      · exact ih _ (Stands.bindAll outs _ hσ) hs.2 he'
      · exact ⟨main σ ins fun x hx => hx, ih σ hσ hs.2 he'⟩
    | draw D =>
      simp only [plantBody]
      split
      · rename_i a ha
        refine ⟨?_, ih _ (hσ.bind1 _ (hp.bind ha)) hs.2 he'⟩
        rw [uses_replace, defs_replace]
        exact main _ _ fun x hx => hx
      · refine ⟨?_, ih _ hσ hs.2 he'⟩
        rw [draw_same, uses_replace, defs_replace]
        exact main _ _ fun x hx => hx
    | tag n a =>
      simp only [plantBody]
      split
      · exact ih σ hσ hs.2 he'
      · refine ⟨?_, ih σ hσ hs.2 he'⟩
        intro z hz
        exact main σ [a] (fun x hx => hx) z hz

theorem constant_none {a : Atom F} (h : constant a = none) : ∃ x, some x = a.node := by
  cases a with
  | lit c => simp [constant] at h
  | var x => exact ⟨x, rfl⟩
  | drop x => exact ⟨x, rfl⟩

theorem mapM_none {α β : Type} (f : α → Option β) (as : List α) (h : as.mapM f = none) : ∃ a ∈ as, f a = none := by
  induction as with
  | nil => simp at h
  | cons a as ih =>
    rw [List.mapM_cons] at h
    rcases ha : f a with _ | b
    · exact ⟨a, List.mem_cons_self, ha⟩
    · rcases hm : as.mapM f with _ | bs
      · obtain ⟨c, hc, he⟩ := ih hm
        exact ⟨c, List.mem_cons_of_mem _ hc, he⟩
      · simp [ha, hm] at h

theorem plant_sized (body : List Stmt) : ∀ σ, (∀ st ∈ body, st.Sized) → ∀ st ∈ (plantBody obs σ body).1, st.Sized := by
  induction body with
  | nil => intro σ _ st hst; simp [plantBody] at hst
  | cons s rest ih =>
    intro σ h st hst
    have hr : ∀ st ∈ rest, st.Sized := fun st hs => h st (List.mem_cons_of_mem _ hs)
    cases s with
    | det op ins outs =>
      simp only [plantBody] at hst
      split at hst
      · exact ih _ hr st hst
      · rename_i hm
        rcases List.mem_cons.1 hst with rfl | hst
        · have h0 := h _ List.mem_cons_self
          refine ⟨?_, ?_⟩
          · obtain ⟨a, ha, hc⟩ := mapM_none _ _ hm
            obtain ⟨x, hx⟩ := constant_none hc
            exact ⟨x, List.mem_map.2 ⟨a, ha, hx.symm⟩⟩
          · simpa using h0.2
        · exact ih _ hr st hst
    | draw D =>
      simp only [plantBody] at hst
      split at hst
      · rcases List.mem_cons.1 hst with rfl | hst
        · trivial
        · exact ih _ hr st hst
      · rcases List.mem_cons.1 hst with rfl | hst
        · trivial
        · exact ih _ hr st hst
    | tag n a =>
      simp only [plantBody] at hst
      split at hst
      · exact ih _ hr st hst
      · rcases List.mem_cons.1 hst with rfl | hst
        · trivial
        · exact ih _ hr st hst

theorem plant_noTags (body : List Stmt) : ∀ σ, (∀ st ∈ body, ∀ n a, st ≠ .tag n a) →
    ∀ st ∈ (plantBody obs σ body).1, ∀ n a, st ≠ .tag n a := by
  induction body with
  | nil => intro σ _ st hst; simp [plantBody] at hst
  | cons s rest ih =>
    intro σ h st hst
    have hr : ∀ st ∈ rest, ∀ n a, st ≠ .tag n a := fun st hs => h st (List.mem_cons_of_mem _ hs)
    cases s with
    | det op ins outs =>
      simp only [plantBody] at hst
      split at hst
      · exact ih _ hr st hst
      · rcases List.mem_cons.1 hst with rfl | hst
        · simp
        · exact ih _ hr st hst
    | draw D =>
      simp only [plantBody] at hst
      split at hst
      · rcases List.mem_cons.1 hst with rfl | hst
        · simp
        · exact ih _ hr st hst
      · rcases List.mem_cons.1 hst with rfl | hst
        · simp
        · exact ih _ hr st hst
    | tag n a => exact absurd rfl (h _ List.mem_cons_self n a)

/-- The names that are left. -/
theorem plant_names (body : List Stmt) : ∀ σ, (∀ st ∈ body, ∀ n a, st ≠ .tag n a) →
    ((plantBody obs σ body).1.flatMap Stmt.sown).map (·.1) =
      ((body.flatMap Stmt.sown).map (·.1)).filter fun n => (obs n).isNone := by
  induction body with
  | nil => intro σ _; rfl
  | cons s rest ih =>
    intro σ h
    have hr : ∀ st ∈ rest, ∀ n a, st ≠ .tag n a := fun st hs => h st (List.mem_cons_of_mem _ hs)
    cases s with
    | det op ins outs =>
      simp only [plantBody]
      split
      · simpa [List.flatMap_cons, Stmt.sown] using ih _ hr
      · simpa [List.flatMap_cons, Stmt.sown] using ih σ hr
    | draw D =>
      rcases hD : D.name with _ | n
      · simp only [plantBody, hD, Option.bind_none]
        simpa [List.flatMap_cons, Stmt.sown, Draw.replace, hD] using ih σ hr
      · rcases ho : obs n with _ | a
        · simp only [plantBody, hD, Option.bind_some, ho]
          simpa [List.flatMap_cons, Stmt.sown, Draw.replace, hD, ho] using ih σ hr
        · simp only [plantBody, hD, Option.bind_some, ho]
          simpa [List.flatMap_cons, Stmt.sown, Draw.replace, hD, ho] using ih _ hr
    | tag n a => exact absurd rfl (h _ List.mem_cons_self n a)

variable {S : Source}

theorem stands_var : Stands extra (Atom.var : Nat → Atom F) := fun _ => .inl rfl

theorem plant_wf (h : S.WF) (hp : Plants extra obs) (hx : extra.Nodup)
    (hf : ∀ e ∈ extra, e ∉ S.key :: S.args ++ S.body.flatMap Stmt.defs) : (S.plant extra obs).WF where
  once := by
    have h0 := h.once
    have hs : (plantBody obs .var S.body).1.flatMap Stmt.defs |>.Sublist (S.body.flatMap Stmt.defs) := plant_defs S.body _
    simp only [Source.plant, List.cons_append, List.nodup_cons, List.append_assoc, List.nodup_append, List.mem_append,
      List.mem_cons, not_or] at h0 hf ⊢
    obtain ⟨⟨k1, k2⟩, a1, d1, ad⟩ := h0
    refine ⟨⟨k1, fun hc => (hf _ hc).1 rfl, fun hc => k2 (hs.subset hc)⟩, a1, ⟨hx, d1.sublist hs, ?_⟩, ?_⟩
    · rintro a ha b hb rfl
      exact (hf a ha).2.2 (hs.subset hb)
    · rintro a ha b hb rfl
      rcases hb with hb | hb
      · exact (hf a hb).2.1 ha
      · exact ad a ha a (hs.subset hb) rfl
  order := plant_scoped hp S.body _ stands_var h.order fun e he hc => hf e he (by
    simp only [List.cons_append, List.mem_cons, List.mem_append]
    exact .inr (.inr hc))
  sized := plant_sized S.body _ h.sized

end Verif.LogProb.Joint
