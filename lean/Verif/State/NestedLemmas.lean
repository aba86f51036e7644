import Verif.State.Nested
import Verif.State.Props

namespace Verif.State

open Verif.Harvest

/-! ### Programs without the tag -/

theorem resow_nil {V : Type} (d d' : Reaps V) : d.resow [] d' = d := by
  funext k; simp [Reaps.resow, Meta.get]

theorem carryInit_nil {V : Type} : (carryInit [] : Reaps V) = fun _ => none := by
  funext k; simp [carryInit, Meta.get]

theorem carryStep_none {V : Type} (mode : String → Option Mode) (d : Reaps V) :
    carryStep mode (fun _ => none) d = fun _ => none := by
  funext k; simp [carryStep]

/-- Reaping a program that does not sow the tag changes neither its result nor the reaps. -/
theorem run_reapT_foreign {V A B : Type} {S : Settings} (fuel : Nat) (p : Prog V A B) (h : Foreign S p) :
    ∀ (R : Reaps V) a, run fuel (reapT S p) (a, R) = (run fuel p a).map (fun b => (b, R)) := by
  simp only [Foreign] at h
  induction p with
  | pure f => intro R a; rfl
  | seq p q ihp ihq =>
    intro R a
    simp only [reapT, run, ihp h.1]
    rcases run fuel p a with e | b
    · rfl
    · simp only [except_map_ok, except_bind_ok, ihq h.2]
  | sow tag name mode pre pred post =>
    intro R a
    have hd : S.dispatch tag name ≠ .handle := by
      rw [dispatch_ne_handle]; simp [Settings.active, h.1]
    simp only [reapT]
    cases hx : S.dispatch tag name <;> simp_all [run]
  | nest scope pre body post ih =>
    intro R a
    have hmd : metaD S body = [] := metaD_of_ok (metaOf_foreign body h.2 [])
    simp only [reapT, run, ih h.2, hmd, List.isEmpty_nil, if_true]
    rcases run fuel body (pre a) with e | b <;> rfl
  | inline pre body post ih =>
    intro R a
    simp only [reapT, run, ih h]
    rcases run fuel body (pre a) with e | b <;> rfl
  | call kind pre body post ih =>
    intro R a
    have hmd : metaD S body = [] := metaD_of_ok (metaOf_foreign body h [])
    simp only [reapT, run, ih h, hmd, resow_nil]
    rcases run fuel body (pre a) with e | b <;> rfl
  | cond j sel pre br post ih =>
    intro R a
    have hmd : metaD S (br 0) = [] := metaD_of_ok (metaOf_foreign _ (h 0) [])
    simp only [reapT, run, ih _ (h _), hmd, resow_nil]
    rcases run fuel (br (sel a)) (pre a) with e | b <;> rfl
  | scan rev pre body post ih =>
    intro R a
    have hmd : metaD S body = [] := metaD_of_ok (metaOf_foreign body h [])
    simp only [reapT, run, hmd, resow_nil, except_bind_ok, carryInit_nil, ih h]
    have key : ∀ k xs, scanDir rev (fun kx : (_ × Reaps V) × _ => (do
        let b ← ((run fuel body (kx.1.1, kx.2)).map (fun b => (b, (fun _ => none : Reaps V)))).map (fun y => (y, kx.1.2))
        .ok ((b.1.1.1, carryStep (fun _ => leakedMode []) b.2 b.1.2), b.1.1.2, b.1.2))) (k, fun _ => none) xs =
        (scanDir rev (fun kx => run fuel body kx) k xs).map
          (fun r => ((r.1, (fun _ => none : Reaps V)), r.2.map (fun y => (y, (fun _ => none : Reaps V))))) := by
      have aux : ∀ xs k, scanM (fun kx : (_ × Reaps V) × _ => (do
          let b ← ((run fuel body (kx.1.1, kx.2)).map (fun b => (b, (fun _ => none : Reaps V)))).map (fun y => (y, kx.1.2))
          .ok ((b.1.1.1, carryStep (fun _ => leakedMode []) b.2 b.1.2), b.1.1.2, b.1.2))) (k, fun _ => none) xs =
          (scanM (fun kx => run fuel body kx) k xs).map
            (fun r => ((r.1, (fun _ => none : Reaps V)), r.2.map (fun y => (y, (fun _ => none : Reaps V))))) := by
        intro xs
        induction xs with
        | nil => intro k; rfl
        | cons x xs ihx =>
          intro k
          simp only [scanM]
          rcases run fuel body (k, x) with e | ⟨k1, y⟩
          · rfl
          · simp only [except_map_ok, except_bind_ok, carryStep_none, ihx k1]
            rcases scanM (fun kx => run fuel body kx) k1 xs with e | r <;> rfl
      intro k xs
      simp only [scanDir]
      split
      · rw [aux]
        rcases scanM (fun kx => run fuel body kx) k xs.reverse with e | r
        · rfl
        · simp
      · exact aux xs k
    rw [key]
    rcases scanDir rev (fun kx => run fuel body kx) (pre a).1 (pre a).2 with e | r
    · rfl
    · simp [Function.comp_def]
  | whileL pre test body post iht ihb =>
    intro R a
    have hmd : metaD S body = [] := metaD_of_ok (metaOf_foreign body h.2 [])
    simp only [reapT, run, hmd, resow_nil, except_bind_ok, carryInit_nil]
    rw [loopM_conj (fun k => run fuel test k) (fun k => run fuel body k) (fun k => (k, (fun _ => none : Reaps V)))
      _ _ (fun _ => rfl) (fun k => ?_)]
    · rcases loopM _ _ fuel _ with e | r <;> rfl
    · simp only [ihb h.2]
      rcases run fuel body k with e | r
      · rfl
      · simp only [except_map_ok, except_bind_ok, carryStep_none]

/-- Planting any tag keeps a program free of another one. -/
theorem foreign_plantT_any {V A B : Type} {S S' : Settings} (p : Prog V A B) (h : Foreign S' p) :
    ∀ (Q : Dict V), Foreign S' (plantT S p Q) := by
  simp only [Foreign] at h ⊢
  induction p with
  | pure f => intro Q; trivial
  | seq p q ihp ihq => intro Q; exact ⟨ihp h.1 _, ihq h.2 _⟩
  | sow tag name mode pre pred post =>
    intro Q
    simp only [plantT]
    cases hx : S.dispatch tag name with
    | drop => trivial
    | forward => exact h
    | handle => simp only; split <;> first | trivial | exact h
  | nest scope pre body post ih => intro Q; exact ⟨trivial, ih h.2 _⟩
  | inline pre body post ih => intro Q; exact ih h _
  | call kind pre body post ih => intro Q; exact ih h _
  | cond j sel pre br post ih => intro Q; exact fun i => ih i (h i) _
  | scan rev pre body post ih => intro Q; exact ⟨trivial, trivial, ih h _, trivial⟩
  | whileL pre test body post iht ihb => intro Q; exact ⟨fun h => by simp at h, ihb h.2 _⟩

/-- Reaping any tag keeps a program free of another one. -/
theorem foreign_reapT_any {V A B : Type} {S S' : Settings} (p : Prog V A B) (h : Foreign S' p) :
    Foreign S' (reapT S p) := by
  simp only [Foreign] at h ⊢
  induction p with
  | pure f => trivial
  | seq p q ihp ihq => exact ⟨ihp h.1, ihq h.2⟩
  | sow tag name mode pre pred post =>
    simp only [reapT]
    cases hx : S.dispatch tag name with
    | drop => trivial
    | forward => exact h
    | handle => trivial
  | nest scope pre body post ih => exact ⟨trivial, ih h.2⟩
  | inline pre body post ih => exact ih h
  | call kind pre body post ih => exact ih h
  | cond j sel pre br post ih => exact fun i => ih i (h i)
  | scan rev pre body post ih => exact ⟨trivial, ih h, trivial⟩
  | whileL pre test body post iht ihb => exact ⟨fun h => by simp at h, trivial, ihb h.2, trivial⟩

theorem foreign_callAndReap_any {V A B : Type} {S S' : Settings} {f : Prog V A B} {g : Prog V A (B × Dict V)}
    (h : callAndReap S f = .ok g) (hf : Foreign S' f) : Foreign S' g := by
  obtain ⟨m, hm, rfl⟩ := callAndReap_ok h
  exact ⟨trivial, foreign_reapT_any f hf, trivial⟩

/-- An exclusive reap leaves no sow of any tag. -/
theorem foreign_reap_exclusive {V A B : Type} {S S' : Settings} (hx : S.exclusive = true) {f : Prog V A B}
    {g : Prog V A (Dict V)} (h : reap S f = .ok g) : Foreign S' g := by
  simp only [reap] at h
  rcases hc : callAndReap S f with e | t <;> rw [hc] at h <;> simp at h
  subst h
  obtain ⟨m, hm, rfl⟩ := callAndReap_ok hc
  refine ⟨⟨trivial, ?_, trivial⟩, trivial⟩
  exact AllSows.imp (fun a b c h => by rw [hx] at h; simp at h) (fun _ h => h) _ (reapT_left S f hm)

/-- For every nested scope of the program, all the names declared inside have a plant. -/
def NestPlanted {V : Type} (S : Settings) : {A B : Type} → Prog V A B → Dict V → Prop
  | _, _, .pure _, _ => True
  | _, _, .seq p q, P => NestPlanted S p P ∧ NestPlanted S q P
  | _, _, .sow .., _ => True
  | _, _, .nest scope _ body _, P =>
    (∀ n, (declares S n (sites body)).isSome → (inScope P scope n).isSome) ∧ NestPlanted S body (inScope P scope)
  | _, _, .inline _ body _, P => NestPlanted S body P
  | _, _, .call _ _ body _, P => NestPlanted S body P
  | _, _, .cond _ _ _ br _, P => ∀ i, NestPlanted S (br i) P
  | _, _, .scan _ _ body _, P => NestPlanted S body (scanPlants (metaD S body) P)
  | _, _, .whileL _ _ body _, P => NestPlanted S body P

theorem NestPlanted.of_noNest {V A B : Type} {S : Settings} (p : Prog V A B) (h : NoNest p) :
    ∀ P : Dict V, NestPlanted S p P := by
  simp only [NoNest] at h
  induction p with
  | pure f => intro P; trivial
  | seq p q ihp ihq => exact fun P => ⟨ihp h.1 P, ihq h.2 P⟩
  | sow => intro P; trivial
  | nest scope pre body post ih => exact absurd h.1 id
  | inline pre body post ih => exact ih h
  | call kind pre body post ih => exact ih h
  | cond j sel pre br post ih => exact fun P i => ih i (h i) P
  | scan rev pre body post ih => exact fun P => ih h _
  | whileL pre test body post iht ihb => exact ihb h.2

/-- Planting every declared name leaves no sow of the tag. -/
theorem foreign_plantT_all {V A B : Type} {S : Settings} (p : Prog V A B) : ∀ (m0 m1 : Meta) (P : Dict V),
    metaOf S p m0 = .ok m1 → (∀ n, (m1.get n).isSome → (m0.get n).isSome ∨ (P n).isSome) →
    (∀ n, (declares S n (sites p)).isSome → (P n).isSome) → S.blocklist = [] → S.allowlist = none →
    NestPlanted S p P → Foreign S (plantT S p P) := by
  simp only [Foreign]
  induction p with
  | pure f => intros; trivial
  | seq p q ihp ihq =>
    intro m0 m1 P h _ hP hb ha hn
    simp only [metaOf] at h
    rcases hp : metaOf S p m0 with e | m <;> rw [hp] at h
    · simp at h
    simp only [sites, declares_append] at hP
    have hP1 : ∀ n, (declares S n (sites p)).isSome → (P n).isSome := fun n hn => hP n (by
      cases hq : declares S n (sites q) <;> simp [hn])
    have hP2 : ∀ n, (declares S n (sites q)).isSome → (P n).isSome := fun n hn => hP n (by
      rw [Option.isSome_or, hn]; rfl)
    refine ⟨ihp m0 m P hp (fun n hn => ?_) hP1 hb ha hn.1, ihq m m1 P h (fun n hn => ?_) hP2 hb ha hn.2⟩
    · rw [(metaOf_get S p hp).1 n, Option.isSome_or, Bool.or_eq_true] at hn
      exact hn.elim (fun h => .inr (hP1 n h)) .inl
    · rw [(metaOf_get S q h).1 n, Option.isSome_or, Bool.or_eq_true] at hn
      exact hn.elim (fun h => .inr (hP2 n h)) .inl
  | sow tag name mode pre pred post =>
    intro m0 m1 P h _ hP hb ha hn
    simp only [metaOf] at h
    split at h
    · simp at h
    rename_i hinv
    simp only [plantT]
    by_cases ht : tag = S.tag
    · have hact : S.active tag name = true := by simp [Settings.active, ht, hb, ha]
      rw [dispatch_handle.2 hact]
      have : (P name).isSome := hP name (by simp [sites, declares, Site.declares, hact])
      simp only [this, if_true]
      trivial
    · cases hd : S.dispatch tag name with
      | drop => trivial
      | forward => exact ⟨ht, hinv⟩
      | handle =>
        rw [dispatch_handle] at hd
        simp [Settings.active, ht] at hd
  | nest scope pre body post ih =>
    intro m0 m1 P h _ hP hb ha hn
    simp only [metaOf] at h
    rcases hp : metaOf S body [] with e | m <;> rw [hp] at h
    · simp at h
    refine ⟨trivial, ?_⟩
    have := ih [] m (inScope P scope) hp (fun n hm => .inr (hn.1 n (by rwa [← metaOf_nil_get hp])))
      hn.1 hb ha hn.2
    rwa [← subPlants_eq] at this
  | inline pre body post ih => intro m0 m1 P h h1 hP hb ha hn; exact ih m0 m1 P h h1 hP hb ha hn
  | call kind pre body post ih =>
    intro m0 m1 P h _ hP hb ha hn
    simp only [metaOf] at h
    rcases hp : metaOf S body [] with e | m <;> rw [hp] at h
    · simp at h
    exact ih [] m P hp (fun n hm => .inr (hP n (by rwa [metaOf_nil_get hp] at hm))) hP hb ha hn
  | cond j sel pre br post ih =>
    intro m0 m1 P h _ hP hb ha hn i
    simp only [metaOf] at h
    rcases h0 : metaOf S (br 0) [] with e | first <;> rw [h0] at h
    · simp at h
    simp only [except_bind_ok] at h
    rcases hq : (List.finRange (j + 1)).mapM (fun i => metaOf S (br i) []) with e | ms <;> rw [hq] at h
    · simp at h
    simp only [except_bind_ok] at h
    rcases hc : metaCond first ms with e | ⟨⟩ <;> rw [hc] at h
    · simp at h
    obtain ⟨mi, hmi, hbi⟩ := metaBranch_of_metaOf_cond hq hc i
    have hk := metaBranch_ok (metaOf_nil_keys hmi) hbi
    have hPi : ∀ n, (declares S n (sites (br i))).isSome → (P n).isSome := by
      intro n hn
      apply hP n
      rw [← metaOf_nil_get hmi, (hk n).1, metaOf_nil_get h0] at hn
      exact hn
    exact ih i [] mi P hmi (fun n hm => .inr (hPi n (by rwa [metaOf_nil_get hmi] at hm))) hPi hb ha (hn i)
  | scan rev pre body post ih =>
    intro m0 m1 P h _ hP hb ha hn
    simp only [metaOf] at h
    rcases hp : metaOf S body [] with e | m <;> rw [hp] at h
    · simp at h
    have hmd := metaD_of_ok hp
    have hP' : ∀ n, (declares S n (sites body)).isSome → (scanPlants (metaD S body) P n).isSome := by
      intro n hn
      have h2 := hn
      rw [← metaOf_nil_get hp] at h2
      simp only [scanPlants, hmd, h2, if_true]
      exact hP n hn
    exact ⟨trivial, trivial, ih [] m _ hp (fun n hm => .inr (hP' n (by rwa [metaOf_nil_get hp] at hm))) hP' hb ha hn,
      trivial⟩
  | whileL pre test body post iht ihb =>
    intro m0 m1 P h _ hP hb ha hn
    simp only [metaOf] at h
    rcases hp : metaOf S body [] with e | m <;> rw [hp] at h
    · simp at h
    exact ⟨fun h => by simp at h, ihb [] m P hp (fun n hm => .inr (hP n (by rwa [metaOf_nil_get hp] at hm))) hP hb ha hn⟩

end Verif.State
