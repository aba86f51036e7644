/-
Property theorems C10 (nothing is left to harvest) and C11 (tags are isolated).
-/
import Verif.Harvest.PropsPlant

namespace Verif.Harvest

/-! ### Projections of loops -/

theorem scanM_proj {K K' X Y Y' : Type} (φ : K → K') (ψ : Y → Y') (f : K × X → Except RErr (K × Y))
    (g : K' × X → Except RErr (K' × Y'))
    (h : ∀ k x, (f (k, x)).map (fun r => (φ r.1, ψ r.2)) = g (φ k, x)) (xs : List X) (k : K) :
    (scanM f k xs).map (fun r => (φ r.1, r.2.map ψ)) = scanM g (φ k) xs := by
  induction xs generalizing k with
  | nil => rfl
  | cons x xs ih =>
    simp only [scanM, ← h]
    rcases f (k, x) with e | r
    · rfl
    · simp only [except_map_ok, except_bind_ok, ← ih]
      rcases scanM f r.1 xs with e | s <;> rfl

theorem scanDir_proj {K K' X Y Y' : Type} (φ : K → K') (ψ : Y → Y') (rev : Bool)
    (f : K × X → Except RErr (K × Y)) (g : K' × X → Except RErr (K' × Y'))
    (h : ∀ k x, (f (k, x)).map (fun r => (φ r.1, ψ r.2)) = g (φ k, x)) (xs : List X) (k : K) :
    (scanDir rev f k xs).map (fun r => (φ r.1, r.2.map ψ)) = scanDir rev g (φ k) xs := by
  cases rev
  · exact scanM_proj φ ψ f g h xs k
  · simp only [scanDir, if_true, ← scanM_proj φ ψ f g h]
    rcases scanM f k xs.reverse with e | s
    · rfl
    · simp

theorem loopM_proj {K K' : Type} (φ : K → K') (c : K → Except RErr Bool) (b : K → Except RErr K)
    (c' : K' → Except RErr Bool) (b' : K' → Except RErr K')
    (hc : ∀ k, c k = c' (φ k)) (hb : ∀ k, (b k).map φ = b' (φ k)) (n : Nat) (k : K) :
    (loopM c b n k).map φ = loopM c' b' n (φ k) := by
  induction n generalizing k with
  | zero => rfl
  | succ n ih =>
    simp only [loopM, hc, ← hb]
    rcases c' (φ k) with e | t
    · rfl
    · cases t
      · rfl
      · simp only [except_bind_ok, if_true]
        rcases b k with e | r
        · rfl
        · simp only [except_map_ok, except_bind_ok, ih]

theorem metaOf_cond_ok {V A X Y C : Type} {S : Settings} {j : Nat} {sel : A → Fin (j+1)} {pre : A → X}
    {br : Fin (j+1) → Prog V X Y} {post : A → Y → C} {m0 m1 : Meta}
    (h : metaOf S (.cond j sel pre br post) m0 = .ok m1) (i : Fin (j+1)) :
    ∃ mi, metaOf S (br i) [] = .ok mi := by
  simp only [metaOf] at h
  rcases hp0 : metaOf S (br 0) [] with e | first <;> rw [hp0] at h
  · simp at h
  simp only [except_bind_ok] at h
  rcases hmq : (List.finRange (j + 1)).mapM (fun i => metaOf S (br i) []) with e | ms <;> rw [hmq] at h
  · simp at h
  obtain ⟨m, -, hm⟩ := mapM_ok_mem hmq i (by simp)
  exact ⟨m, hm⟩

/-! ### C10 -/

/-- No sow of the tag of `S` is in the program text, and all modes are valid.  (Tests of while loops are
not looked at: harvest transformations do not look at them either.) -/
def Foreign {V A B : Type} (S : Settings) (p : Prog V A B) : Prop :=
  AllSows false (fun tag _ mode => tag ≠ S.tag ∧ mode ≠ .invalid) (fun _ => True) p

theorem AllSows.imp {V A B : Type} {t : Bool} {P Q : String → String → Mode → Prop} {N M : String → Prop}
    (h : ∀ a b c, P a b c → Q a b c) (hN : ∀ s, N s → M s) (p : Prog V A B) :
    AllSows t P N p → AllSows t Q M p := by
  induction p with
  | pure f => intro _; trivial
  | seq p q ihp ihq => exact fun hp => ⟨ihp hp.1, ihq hp.2⟩
  | sow tag name mode pre pred post => exact h _ _ _
  | nest scope pre body post ih => exact fun hp => ⟨hN _ hp.1, ih hp.2⟩
  | inline pre body post ih => exact ih
  | call _ pre body post ih => exact ih
  | cond j sel pre br post ih => exact fun hp i => ih i (hp i)
  | scan rev pre body post ih => exact ih
  | whileL pre test body post iht ihb => exact fun hp => ⟨fun ht => iht (hp.1 ht), ihb hp.2⟩

/-- What is left by `reap`: only forwarded sows. -/
theorem reapT_left {V A B : Type} (S : Settings) (p : Prog V A B) : ∀ {m0 m1 : Meta},
    metaOf S p m0 = .ok m1 →
    AllSows false (fun tag _ mode => tag ≠ S.tag ∧ S.exclusive = false ∧ mode ≠ .invalid) (fun _ => True)
      (reapT S p) := by
  induction p with
  | pure f => intros; trivial
  | seq p q ihp ihq =>
    intro m0 m1 h
    simp only [metaOf] at h
    rcases hp : metaOf S p m0 with e | m <;> rw [hp] at h
    · simp at h
    exact ⟨ihp hp, ihq h⟩
  | sow tag name mode pre pred post =>
    intro m0 m1 h
    simp only [metaOf] at h
    split at h
    · simp at h
    rename_i hinv
    simp only [reapT]
    cases hd : S.dispatch tag name with
    | drop => trivial
    | handle => trivial
    | forward =>
      have := dispatch_forward.1 hd
      exact ⟨this.1, this.2, hinv⟩
  | nest scope pre body post ih =>
    intro m0 m1 h
    simp only [metaOf] at h
    rcases hp : metaOf S body [] with e | m <;> rw [hp] at h
    · simp at h
    exact ⟨trivial, ih hp⟩
  | inline pre body post ih => intro m0 m1 h; exact ih h
  | call _ pre body post ih =>
    intro m0 m1 h
    simp only [metaOf] at h
    rcases hp : metaOf S body [] with e | m <;> rw [hp] at h
    · simp at h
    exact ih hp
  | cond j sel pre br post ih =>
    intro m0 m1 h i
    obtain ⟨mi, hmi⟩ := metaOf_cond_ok h i
    exact ih i hmi
  | scan rev pre body post ih =>
    intro m0 m1 h
    simp only [metaOf] at h
    rcases hp : metaOf S body [] with e | m <;> rw [hp] at h
    · simp at h
    exact ⟨trivial, ih hp, trivial⟩
  | whileL pre test body post iht ihb =>
    intro m0 m1 h
    simp only [metaOf] at h
    rcases hp : metaOf S body [] with e | m <;> rw [hp] at h
    · simp at h
    exact ⟨by simp, trivial, ihb hp, trivial⟩

theorem metaCond_nils (n : Nat) : metaCond [] (List.replicate n []) = .ok () := by
  induction n with
  | zero => rfl
  | succ n ih => simp only [List.replicate_succ, metaCond]; exact ih

theorem mapM_const_ok {α β ε : Type} (f : α → Except ε β) (b : β) : ∀ (l : List α), (∀ a ∈ l, f a = .ok b) →
    l.mapM f = .ok (List.replicate l.length b)
  | [], _ => rfl
  | a :: l, h => by
    rw [List.mapM_cons, h a (by simp), mapM_const_ok f b l (fun x hx => h x (by simp [hx]))]
    rfl

theorem metaOf_foreign {V A B : Type} {S : Settings} (p : Prog V A B) (h : Foreign S p) :
    ∀ m, metaOf S p m = .ok m := by
  simp only [Foreign] at h
  induction p with
  | pure f => intro m; rfl
  | seq p q ihp ihq => intro m; simp only [metaOf, ihp h.1, except_bind_ok, ihq h.2]
  | sow tag name mode pre pred post =>
    intro m
    have hd : S.dispatch tag name ≠ .handle := by
      rw [dispatch_ne_handle]; simp [Settings.active, h.1]
    rw [metaOf, if_neg h.2]
    cases hx : S.dispatch tag name <;> simp_all
  | nest scope pre body post ih => intro m; simp [metaOf, ih h.2]
  | inline pre body post ih => intro m; exact ih h m
  | call _ pre body post ih => intro m; simp [metaOf, ih h, Meta.resow]
  | cond j sel pre br post ih =>
    intro m
    simp only [metaOf, ih _ (h _), except_bind_ok]
    rw [mapM_const_ok _ [] _ (fun _ _ => rfl)]
    simp only [except_bind_ok, metaCond_nils, Meta.resow]
  | scan rev pre body post ih =>
    intro m; simp [metaOf, ih h, Meta.resow, metaScan, leakedMode, sortKeys]
  | whileL pre test body post iht ihb => intro m; simp [metaOf, ihb h.2, Meta.resow, metaWhile]

theorem foreign_declares {V A B : Type} {S : Settings} {p : Prog V A B} (h : Foreign S p) (n : String) :
    declares S n (sites p) = none := by
  have := (metaOf_get S p (metaOf_foreign p h [])).1 n
  simpa using this.symm

theorem foreign_callAndReap {V A B : Type} {S : Settings} {f : Prog V A B} {g : Prog V A (B × Dict V)}
    (h : callAndReap S f = .ok g) (S' : Settings) (hS : S'.tag = S.tag) : Foreign S' g := by
  obtain ⟨m, hm, rfl⟩ := callAndReap_ok h
  refine ⟨trivial, ?_, trivial⟩
  exact AllSows.imp (fun a b c h => ⟨by rw [hS]; exact h.1, h.2.2⟩) (fun _ h => h) _ (reapT_left S f hm)

/-- C10: no sow of the tag is left in the program text of the reaped function (tests of while loops
excepted). -/
theorem no_sow_left {V A B : Type} (S : Settings) (f : Prog V A B) (g : Prog V A (B × Dict V))
    (h : callAndReap S f = .ok g) : AllSows false (fun tag _ _ => tag ≠ S.tag) (fun _ => True) g :=
  AllSows.imp (fun _ _ _ h => h.1) (fun _ h => h) _ (foreign_callAndReap h S rfl)

/-- C10: a second reap of the same tag (with any other settings) is accepted, changes nothing and returns the
empty dictionary. -/
theorem second_reap_empty {V A B : Type} (S S' : Settings) (hS : S'.tag = S.tag) (f : Prog V A B)
    (g : Prog V A (B × Dict V)) (h : callAndReap S f = .ok g) :
    ∃ g', callAndReap S' g = .ok g' ∧ ∀ fuel a,
      run fuel g' a = (run fuel g a).map (fun r => (r, fun _ => none)) := by
  have hf := foreign_callAndReap h S' hS
  have hacc : ∃ g', callAndReap S' g = .ok g' := by
    simp only [callAndReap, metaOf_foreign g hf]
    exact ⟨_, rfl⟩
  obtain ⟨g', hg'⟩ := hacc
  refine ⟨g', hg', fun fuel a => ?_⟩
  have h1 := callAndReap_output S' g g' hg' fuel a
  rcases h2 : run fuel g' a with e | r <;> rw [h2] at h1 <;> rw [← h1]
  · rfl
  · simp only [except_map_ok, Except.ok.injEq]
    refine Prod.ext rfl ?_
    funext n
    have := reap_keys S' g g' hg' fuel a r h2 n
    rw [foreign_declares hf] at this
    simpa using this

theorem plantCheck_foreign {V A B : Type} {S : Settings} (p : Prog V A B) (h : Foreign S p) :
    ∀ (P : Dict V) st, plantCheck S p P st = .ok st := by
  simp only [Foreign] at h
  induction p with
  | pure f => intro P st; rfl
  | seq p q ihp ihq => intro P st; simp only [plantCheck, ihp h.1, except_bind_ok, ihq h.2]
  | sow tag name mode pre pred post =>
    intro P st
    have hd : S.dispatch tag name ≠ .handle := by
      rw [dispatch_ne_handle]; simp [Settings.active, h.1]
    rw [plantCheck, if_neg h.2]
    cases hx : S.dispatch tag name <;> simp_all
  | nest scope pre body post ih => intro P st; simp only [plantCheck, ih h.2]; rfl
  | inline pre body post ih => intro P st; exact ih h P st
  | call kind pre body post ih =>
    intro P st
    cases kind <;> simp only [plantCheck, ih h] <;> rfl
  | cond j sel pre br post ih =>
    intro P st
    simp only [plantCheck, ih _ (h _), metaOf_foreign _ (h _), except_bind_ok]
    rw [mapM_const_ok _ [] _ (fun _ _ => rfl), mapM_const_ok _ [] _ (fun _ _ => rfl)]
    simp only [except_bind_ok, metaCond_nils]; rfl
  | scan rev pre body post ih =>
    intro P st
    simp [plantCheck, metaOf_foreign body h, ih h]
  | whileL pre test body post iht ihb =>
    intro P st; simp [plantCheck, metaOf_foreign body h.2, ihb h.2, metaWhile]

theorem run_plantT_foreign {V A B : Type} {S : Settings} (fuel : Nat) (p : Prog V A B) (h : Foreign S p) :
    ∀ (P0 P : Dict V) a, run fuel (plantT S p P0) (a, P) = (run fuel p a).map (fun b => (b, P)) := by
  simp only [Foreign] at h
  induction p with
  | pure f => intro P0 P a; rfl
  | seq p q ihp ihq =>
    intro P0 P a
    simp only [plantT, run, ihp h.1]
    rcases run fuel p a with e | b
    · rfl
    · simp only [except_map_ok, except_bind_ok, ihq h.2]
  | sow tag name mode pre pred post =>
    intro P0 P a
    have hd : S.dispatch tag name ≠ .handle := by
      rw [dispatch_ne_handle]; simp [Settings.active, h.1]
    simp only [plantT]
    cases hx : S.dispatch tag name <;> simp_all [run]
  | nest scope pre body post ih =>
    intro P0 P a
    simp only [plantT, run, ih h.2]
    rcases run fuel body (pre a) with e | b <;> rfl
  | inline pre body post ih =>
    intro P0 P a
    simp only [plantT, run, ih h]
    rcases run fuel body (pre a) with e | b <;> rfl
  | call kind pre body post ih =>
    intro P0 P a
    simp only [plantT, run, ih h]
    rcases run fuel body (pre a) with e | b <;> rfl
  | cond j sel pre br post ih =>
    intro P0 P a
    simp only [plantT, run, ih _ (h _)]
    rcases run fuel (br (sel a)) (pre a) with e | b <;> rfl
  | scan rev pre body post ih =>
    intro P0 P a
    have hmd : metaD S body = [] := metaD_of_ok (metaOf_foreign body h [])
    simp only [plantT, run, hmd, allIterPlants, appendNames, List.filter_nil, List.map_nil, iterPlants,
      except_bind_ok, except_pure, ih h]
    rw [scanDir_forall2 rev _ (fun kx => run fuel body kx) (fun u v => u.1 = v) ?_ _ (pre a).2 _ ?_]
    · rcases scanDir rev _ _ _ with e | r <;> rfl
    · rintro k x x' rfl
      simp only
      rcases run fuel body (k, x.1) with e | r <;> rfl
    · rw [List.forall₂_iff_get]
      exact ⟨by simp, fun i h1 h2 => by simp⟩
  | whileL pre test body post iht ihb =>
    intro P0 P a
    simp only [plantT, run, except_bind_ok]
    rw [loopM_conj (fun k => run fuel test k) (fun k => run fuel body k) (fun k => (k, P))
      (fun k => run fuel test k.1) (fun k => run fuel (plantT S body P0) k) (fun _ => rfl)
      (fun k => ihb h.2 P0 P k)]
    rcases loopM _ _ fuel _ with e | r <;> rfl

/-- C10: a second plant of the same tag ignores the plants. -/
theorem second_plant_ignored {V A B : Type} (S S' : Settings) (hS : S'.tag = S.tag) (f : Prog V A B)
    (g : Prog V A (B × Dict V)) (h : callAndReap S f = .ok g) (P : Dict V) :
    ∃ g', plant S' g P = .ok g' ∧ ∀ fuel a, run fuel g' a = run fuel g a := by
  have hf := foreign_callAndReap h S' hS
  have hacc : ∃ g', plant S' g P = .ok g' := by
    simp only [plant, plantCheck_foreign g hf]
    exact ⟨_, rfl⟩
  obtain ⟨g', hg'⟩ := hacc
  refine ⟨g', hg', fun fuel a => ?_⟩
  obtain ⟨-, rfl⟩ := plant_ok hg'
  simp only [run, except_bind_ok, run_plantT_foreign fuel g hf]
  rcases run fuel g a with e | r <;> rfl

theorem foreign_plantT {V A B : Type} {S : Settings} (p : Prog V A B) (h : Foreign S p) :
    ∀ (Q : Dict V), Foreign S (plantT S p Q) := by
  simp only [Foreign] at h ⊢
  induction p with
  | pure f => intro Q; trivial
  | seq p q ihp ihq => intro Q; exact ⟨ihp h.1 _, ihq h.2 _⟩
  | sow tag name mode pre pred post =>
    intro Q
    have hd : S.dispatch tag name ≠ .handle := by
      rw [dispatch_ne_handle]; simp [Settings.active, h.1]
    simp only [plantT]
    cases hx : S.dispatch tag name with
    | drop => trivial
    | forward => exact h
    | handle => simp_all
  | nest scope pre body post ih => intro Q; exact ⟨trivial, ih h.2 _⟩
  | inline pre body post ih => intro Q; exact ih h _
  | call kind pre body post ih => intro Q; exact ih h _
  | cond j sel pre br post ih => intro Q; exact fun i => ih i (h i) _
  | scan rev pre body post ih => intro Q; exact ⟨trivial, trivial, ih h _, trivial⟩
  | whileL pre test body post iht ihb => intro Q; exact ⟨by simp, ihb h.2 _⟩

/-- C10, for `harvest`: a second harvest (of the same tag, any settings and plants) of a harvested function is
accepted, does nothing, and returns the empty dictionary. -/
theorem second_harvest_empty {V A B : Type} (S S' : Settings) (hS : S'.tag = S.tag) (f : Prog V A B)
    (P P' : Dict V) (h : Prog V A (B × Dict V)) (hh : harvest S f P = .ok h) :
    ∃ h', harvest S' h P' = .ok h' ∧ ∀ fuel a,
      run fuel h' a = (run fuel h a).map (fun r => (r, fun _ => none)) := by
  simp only [harvest] at hh
  rcases hg : plant S f P with e | g <;> rw [hg] at hh
  · simp at hh
  simp only [except_bind_ok] at hh
  obtain ⟨g2, hg2, hrun2⟩ := second_plant_ignored S S' hS g h hh P'
  have hf := foreign_callAndReap hh S' hS
  have hf2 : Foreign S' g2 := by
    obtain ⟨-, rfl⟩ := plant_ok hg2
    exact ⟨trivial, foreign_plantT h hf P', trivial⟩
  have hacc : ∃ h', callAndReap S' g2 = .ok h' := by
    simp only [callAndReap, metaOf_foreign g2 hf2]
    exact ⟨_, rfl⟩
  obtain ⟨h', hh'⟩ := hacc
  refine ⟨h', by simp only [harvest, hg2, except_bind_ok, hh'], fun fuel a => ?_⟩
  rw [← hrun2]
  have h1 := callAndReap_output S' g2 h' hh' fuel a
  rcases h2 : run fuel h' a with e | r <;> rw [h2] at h1 <;> rw [← h1]
  · rfl
  · simp only [except_map_ok, Except.ok.injEq]
    refine Prod.ext rfl ?_
    funext n
    have := reap_keys S' g2 h' hh' fuel a r h2 n
    rw [foreign_declares hf2] at this
    simpa using this

/-! ### C11 -/

/-- C11: with `exclusive=True` no sow of any tag is left (tests of while loops excepted). -/
theorem exclusive_no_sow_left {V A B : Type} (S : Settings) (hx : S.exclusive = true) (f : Prog V A B)
    (g : Prog V A (B × Dict V)) (h : callAndReap S f = .ok g) :
    AllSows false (fun _ _ _ => False) (fun _ => True) g := by
  obtain ⟨m, hm, rfl⟩ := callAndReap_ok h
  refine ⟨trivial, ?_, trivial⟩
  exact AllSows.imp (fun a b c h => by rw [hx] at h; simp at h) (fun _ h => h) _ (reapT_left S f hm)

theorem dispatch_other {S S' : Settings} (ht : S'.tag ≠ S.tag) (hx : S.exclusive = false) {tag name : String}
    (h : S.dispatch tag name ≠ .forward) : S'.dispatch tag name ≠ .handle := by
  rw [Ne, dispatch_forward, hx] at h
  simp only [and_true, ne_eq, not_not] at h
  rw [dispatch_ne_handle]
  have : tag ≠ S'.tag := by rw [h]; exact fun e => ht e.symm
  simp [Settings.active, this]

theorem metaOf_reapT {V A B : Type} {S S' : Settings} (ht : S'.tag ≠ S.tag) (hx : S.exclusive = false)
    (p : Prog V A B) : ∀ {m0 m1 : Meta}, metaOf S p m0 = .ok m1 →
    ∀ m, metaOf S' (reapT S p) m = metaOf S' p m := by
  induction p with
  | pure f => intro _ _ _ m; rfl
  | seq p q ihp ihq =>
    intro m0 m1 h m
    simp only [metaOf] at h
    rcases hp : metaOf S p m0 with e | m' <;> rw [hp] at h
    · simp at h
    simp only [except_bind_ok] at h
    simp only [reapT, metaOf, ihp hp]
    congr 1
    funext m''
    exact ihq h m''
  | sow tag name mode pre pred post =>
    intro m0 m1 h m
    simp only [metaOf] at h
    split at h
    · simp at h
    rename_i hinv
    simp only [reapT]
    cases hd : S.dispatch tag name with
    | forward => rfl
    | drop =>
      have := dispatch_other ht hx (tag := tag) (name := name) (by rw [hd]; simp)
      rw [metaOf, metaOf, if_neg hinv]
      cases hx : S'.dispatch tag name <;> simp_all
    | handle =>
      have := dispatch_other ht hx (tag := tag) (name := name) (by rw [hd]; simp)
      rw [metaOf, metaOf, if_neg hinv]
      cases hx : S'.dispatch tag name <;> simp_all
  | nest scope pre body post ih =>
    intro m0 m1 h m
    simp only [metaOf] at h
    rcases hp : metaOf S body [] with e | m' <;> rw [hp] at h
    · simp at h
    simp only [reapT, metaOf, ih hp]
  | inline pre body post ih => intro m0 m1 h m; exact ih h m
  | call _ pre body post ih =>
    intro m0 m1 h m
    simp only [metaOf] at h
    rcases hp : metaOf S body [] with e | m' <;> rw [hp] at h
    · simp at h
    simp only [reapT, metaOf, ih hp]
  | cond j sel pre br post ih =>
    intro m0 m1 h m
    have : ∀ i, metaOf S' (reapT S (br i)) [] = metaOf S' (br i) [] := by
      intro i
      obtain ⟨mi, hmi⟩ := metaOf_cond_ok h i
      exact ih i hmi []
    simp only [reapT, metaOf, this]
  | scan rev pre body post ih =>
    intro m0 m1 h m
    simp only [metaOf] at h
    rcases hp : metaOf S body [] with e | m' <;> rw [hp] at h
    · simp at h
    simp only [reapT, metaOf, ih hp, except_bind_ok]
    rcases metaOf S' body [] with e | mb <;> rfl
  | whileL pre test body post iht ihb =>
    intro m0 m1 h m
    simp only [metaOf] at h
    rcases hp : metaOf S body [] with e | m' <;> rw [hp] at h
    · simp at h
    simp only [reapT, metaOf, ihb hp, except_bind_ok]
    rcases metaOf S' body [] with e | mb <;> rfl

/-- The body of a reaped scan (see `reapT`). -/
def wrapScan {V K X Y : Type} (lk : Option Mode) (q : Prog V ((K × X) × Reaps V) ((K × Y) × Reaps V)) :
    Prog V ((K × Reaps V) × X) ((K × Reaps V) × (Y × Reaps V)) :=
  .seq (.pure (fun kx => .ok (((kx.1.1, kx.2), (fun _ => none : Reaps V)), kx.1.2)))
    (.seq (.inline (fun a => a.1) q (fun a y => (y, a.2)))
      (.pure (fun r => .ok ((r.1.1.1, carryStep (fun _ => lk) r.2 r.1.2), (r.1.1.2, r.1.2)))))

/-- The body of a reaped while loop (see `reapT`). -/
def wrapWhile {V K : Type} (lk : String → Option Mode) (q : Prog V (K × Reaps V) (K × Reaps V)) :
    Prog V (K × Reaps V) (K × Reaps V) :=
  .seq (.pure (fun k => .ok ((k.1, (fun _ => none : Reaps V)), k.2)))
    (.seq (.inline (fun a => a.1) q (fun a y => (y, a.2)))
      (.pure (fun r => .ok (r.1.1, carryStep lk r.2 r.1.2))))

theorem reapT_scan {V A K X Y C : Type} (S : Settings) (rev : Bool) (pre : A → K × List X)
    (body : Prog V (K × X) (K × Y)) (post : A → K → List Y → C) :
    reapT S (.scan rev pre body post) =
    .scan rev (fun a => (((pre a.1).1, carryInit (metaD S body)), (pre a.1).2))
      (wrapScan (leakedMode (metaD S body)) (reapT S body))
      (fun a kc ys => (post a.1 kc.1 (ys.map (·.1)),
        a.2.resow (metaD S body) (scanReaps (metaD S body) kc.2 (ys.map (·.2))))) := rfl

theorem reapT_while {V A K C : Type} (S : Settings) (pre : A → K) (test : Prog V K Bool)
    (body : Prog V K K) (post : A → K → C) :
    reapT S (.whileL pre test body post) =
    .whileL (fun a => (pre a.1, carryInit (metaD S body)))
      (.seq (.pure (fun k => .ok k.1)) test)
      (wrapWhile (metaD S body).get (reapT S body))
      (fun a k => (post a.1 k.1, a.2.resow (metaD S body) k.2)) := rfl

theorem metaOf_wrapScan {V K X Y : Type} (S : Settings) (lk : Option Mode)
    (q : Prog V ((K × X) × Reaps V) ((K × Y) × Reaps V)) :
    metaOf S (wrapScan lk q) [] = metaOf S q [] := by
  simp only [wrapScan, metaOf, except_bind_ok]
  rcases metaOf S q [] with e | m <;> rfl

theorem metaOf_wrapWhile {V K : Type} (S : Settings) (lk : String → Option Mode)
    (q : Prog V (K × Reaps V) (K × Reaps V)) :
    metaOf S (wrapWhile lk q) [] = metaOf S q [] := by
  simp only [wrapWhile, metaOf, except_bind_ok]
  rcases metaOf S q [] with e | m <;> rfl

theorem run_wrapScan {V K X Y : Type} (fuel : Nat) (lk : Option Mode)
    (q : Prog V ((K × X) × Reaps V) ((K × Y) × Reaps V)) (kx : (K × Reaps V) × X) :
    run fuel (wrapScan lk q) kx = (run fuel q ((kx.1.1, kx.2), fun _ => none)).map
      (fun r => ((r.1.1, carryStep (fun _ => lk) kx.1.2 r.2), (r.1.2, r.2))) := by
  simp only [wrapScan, run, except_bind_ok]
  rcases run fuel q ((kx.1.1, kx.2), fun _ => none) with e | m <;> rfl

theorem run_reapT_wrapScan {V K X Y : Type} (fuel : Nat) (S : Settings) (lk : Option Mode)
    (q : Prog V ((K × X) × Reaps V) ((K × Y) × Reaps V)) (kx : (K × Reaps V) × X) (d : Reaps V) :
    run fuel (reapT S (wrapScan lk q)) (kx, d) =
      (run fuel (reapT S q) (((kx.1.1, kx.2), fun _ => none), d)).map
      (fun r => (((r.1.1.1, carryStep (fun _ => lk) kx.1.2 r.1.2), (r.1.1.2, r.1.2)), r.2)) := by
  simp only [wrapScan, reapT, run, except_bind_ok, except_map_ok]
  rcases run fuel (reapT S q) (((kx.1.1, kx.2), fun _ => none), d) with e | m <;> rfl

theorem run_wrapWhile {V K : Type} (fuel : Nat) (lk : String → Option Mode)
    (q : Prog V (K × Reaps V) (K × Reaps V)) (k : K × Reaps V) :
    run fuel (wrapWhile lk q) k = (run fuel q (k.1, fun _ => none)).map
      (fun r => (r.1, carryStep lk k.2 r.2)) := by
  simp only [wrapWhile, run, except_bind_ok]
  rcases run fuel q (k.1, fun _ => none) with e | m <;> rfl

theorem run_reapT_wrapWhile {V K : Type} (fuel : Nat) (S : Settings) (lk : String → Option Mode)
    (q : Prog V (K × Reaps V) (K × Reaps V)) (k : K × Reaps V) (d : Reaps V) :
    run fuel (reapT S (wrapWhile lk q)) (k, d) =
      (run fuel (reapT S q) ((k.1, fun _ => none), d)).map
      (fun r => ((r.1.1, carryStep lk k.2 r.1.2), r.2)) := by
  simp only [wrapWhile, reapT, run, except_bind_ok, except_map_ok]
  rcases run fuel (reapT S q) ((k.1, fun _ => none), d) with e | m <;> rfl

/-- Reaping another tag first does not change what is reaped. -/
theorem run_reapT_reapT {V A B : Type} {S S' : Settings} (ht : S'.tag ≠ S.tag) (hx : S.exclusive = false)
    (fuel : Nat) (p : Prog V A B) : ∀ {m0 m1 : Meta}, metaOf S p m0 = .ok m1 →
    ∀ (a : A) (d d' : Reaps V),
    (run fuel (reapT S' (reapT S p)) ((a, d), d')).map (fun r => (r.1.1, r.2)) =
      run fuel (reapT S' p) (a, d') := by
  induction p with
  | pure f =>
    intro _ _ _ a d d'
    simp only [reapT, run]
    rcases f a with e | b <;> rfl
  | seq p q ihp ihq =>
    intro m0 m1 h a d d'
    simp only [metaOf] at h
    rcases hp : metaOf S p m0 with e | m' <;> rw [hp] at h
    · simp at h
    simp only [except_bind_ok] at h
    simp only [reapT, run, ← ihp hp a d d']
    rcases run fuel (reapT S' (reapT S p)) ((a, d), d') with e | r
    · rfl
    · simp only [except_map_ok, except_bind_ok]
      exact ihq h r.1.1 r.1.2 r.2
  | sow tag name mode pre pred post =>
    intro m0 m1 h a d d'
    simp only [reapT]
    cases hd : S.dispatch tag name with
    | forward =>
      simp only [reapT]
      cases hx : S'.dispatch tag name <;> simp [run]
    | drop =>
      have := dispatch_other ht hx (tag := tag) (name := name) (by rw [hd]; simp)
      cases hx : S'.dispatch tag name <;> simp_all [run, reapT]
    | handle =>
      have := dispatch_other ht hx (tag := tag) (name := name) (by rw [hd]; simp)
      cases hx : S'.dispatch tag name <;> simp_all [run, reapT]
  | nest scope pre body post ih =>
    intro m0 m1 h a d d'
    simp only [metaOf] at h
    rcases hp : metaOf S body [] with e | m' <;> rw [hp] at h
    · simp at h
    simp only [reapT, run, metaD_congr (metaOf_reapT ht hx body hp []), ← ih hp (pre a) (fun _ => none)]
    rcases run fuel (reapT S' (reapT S body)) _ with e | r <;> rfl
  | inline pre body post ih =>
    intro m0 m1 h a d d'
    simp only [reapT, run, ← ih h (pre a) d]
    rcases run fuel (reapT S' (reapT S body)) _ with e | r <;> rfl
  | call _ pre body post ih =>
    intro m0 m1 h a d d'
    simp only [metaOf] at h
    rcases hp : metaOf S body [] with e | m' <;> rw [hp] at h
    · simp at h
    simp only [reapT, run, metaD_congr (metaOf_reapT ht hx body hp []), ← ih hp (pre a) (fun _ => none)]
    rcases run fuel (reapT S' (reapT S body)) _ with e | r <;> rfl
  | cond j sel pre br post ih =>
    intro m0 m1 h a d d'
    obtain ⟨mi, hmi⟩ := metaOf_cond_ok h (sel a)
    obtain ⟨m0, hm0⟩ := metaOf_cond_ok h 0
    simp only [reapT, run, metaD_congr (metaOf_reapT ht hx (br 0) hm0 []),
      ← ih _ hmi (pre a) (fun _ => none)]
    rcases run fuel (reapT S' (reapT S (br (sel a)))) _ with e | r <;> rfl
  | scan rev pre body post ih =>
    intro m0 m1 h a d d'
    simp only [metaOf] at h
    rcases hp : metaOf S body [] with e | m' <;> rw [hp] at h
    · simp at h
    rw [reapT_scan S, reapT_scan S', reapT_scan S']
    simp only [run, metaD_congr (metaOf_wrapScan S' (leakedMode (metaD S body)) (reapT S body)),
      metaD_congr (metaOf_reapT ht hx body hp [])]
    rw [← scanDir_proj (fun k : (_ × Reaps V) × Reaps V => (k.1.1, k.2))
      (fun y : (_ × Reaps V) × Reaps V => (y.1.1, y.2)) rev
      (fun kx => run fuel (wrapScan (leakedMode (metaD S' body))
        (reapT S' (wrapScan (leakedMode (metaD S body)) (reapT S body)))) kx) _ ?_ _
        (((pre a).1, carryInit (metaD S body)), carryInit (metaD S' body))]
    · rcases scanDir rev _ _ _ with e | r
      · rfl
      · simp [Function.comp_def]
    · rintro ⟨⟨k, c⟩, c'⟩ x
      simp only [run_wrapScan, run_reapT_wrapScan, ← ih hp (k, x) (fun _ => none) (fun _ => none)]
      rcases run fuel (reapT S' (reapT S body)) _ with e | r <;> rfl
  | whileL pre test body post iht ihb =>
    intro m0 m1 h a d d'
    simp only [metaOf] at h
    rcases hp : metaOf S body [] with e | m' <;> rw [hp] at h
    · simp at h
    rw [reapT_while S, reapT_while S', reapT_while S']
    simp only [run, metaD_congr (metaOf_wrapWhile S' (metaD S body).get (reapT S body)),
      metaD_congr (metaOf_reapT ht hx body hp []), except_bind_ok]
    rw [← loopM_proj (fun k : (_ × Reaps V) × Reaps V => (k.1.1, k.2))
      (fun k => run fuel test k.1.1)
      (fun k => run fuel (wrapWhile (metaD S' body).get
        (reapT S' (wrapWhile (metaD S body).get (reapT S body)))) k) _ _ (fun _ => rfl) ?_ _
        ((pre a, carryInit (metaD S body)), carryInit (metaD S' body))]
    · rcases loopM _ _ _ _ with e | r <;> rfl
    · rintro ⟨⟨k, c⟩, c'⟩
      simp only [run_wrapWhile, run_reapT_wrapWhile, ← ihb hp k (fun _ => none) (fun _ => none)]
      rcases run fuel (reapT S' (reapT S body)) _ with e | r <;> rfl

/-- C11: reaping tag `S` first (non exclusively) neither changes the outcome of reaping another tag, nor
whether it is accepted: the output and the dictionary are those of reaping the other tag alone.  (With the
roles of the tags exchanged: the order of the two reaps does not matter.) -/
theorem tags_isolated {V A B : Type} (S S' : Settings) (ht : S'.tag ≠ S.tag) (hx : S.exclusive = false)
    (f : Prog V A B) (g : Prog V A (B × Dict V)) (h : callAndReap S f = .ok g) :
    (∀ e, callAndReap S' g = .error e ↔ callAndReap S' f = .error e) ∧
    ∀ g', callAndReap S' f = .ok g' → ∃ gg, callAndReap S' g = .ok gg ∧ ∀ fuel a,
      (run fuel gg a).map (fun r => (r.1.1, r.2)) = run fuel g' a ∧
      (run fuel gg a).map (·.1) = run fuel g a := by
  obtain ⟨m, hm, hg⟩ := callAndReap_ok h
  have hmeta : metaOf S' g [] = metaOf S' f [] := by
    subst hg
    simp only [metaOf, except_bind_ok, metaOf_reapT ht hx f hm]
    rcases metaOf S' f [] with e | m <;> rfl
  refine ⟨fun e => ?_, fun g' hg' => ?_⟩
  · simp only [callAndReap, hmeta]
    rcases metaOf S' f [] with e | m <;> simp
  · obtain ⟨m', hm', -⟩ := callAndReap_ok hg'
    have hacc : ∃ gg, callAndReap S' g = .ok gg := by
      simp only [callAndReap, hmeta, hm']
      exact ⟨_, rfl⟩
    obtain ⟨gg, hgg⟩ := hacc
    refine ⟨gg, hgg, fun fuel a => ⟨?_, callAndReap_output S' g gg hgg fuel a⟩⟩
    rw [run_callAndReap hgg, run_callAndReap hg', ← run_reapT_reapT ht hx fuel f hm a (fun _ => none)]
    subst hg
    simp only [reapT, run, except_bind_ok, except_map_ok]
    rcases run fuel (reapT S' (reapT S f)) ((a, fun _ => none), fun _ => none) with e | r <;> rfl

end Verif.Harvest
