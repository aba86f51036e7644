/-
Lemmas on the model of vmapped programs with control flow.
-/
import Verif.Harvest.Vmap
import Verif.Harvest.PropsFilter

namespace Verif.Harvest

/-! ### Specification -/

/-- The program takes no part in the harvest inside control flow with a batched predicate: nothing is sown (with an active
tag and name) in branches or bodies of such control flow.  (The test of such a `while` becomes part of its body, so its
sows must have valid modes.) -/
def QuietBatched {V : Type} (S : Settings) : {A B : Type} → (p : Prog V A B) → Flags p → Prop
  | _, _, .pure _, _ => True
  | _, _, .seq p q, fl => QuietBatched S p fl.1 ∧ QuietBatched S q fl.2
  | _, _, .sow _ _ _ _ _ _, _ => True
  | _, _, .nest _ _ body _, fl => QuietBatched S body fl
  | _, _, .inline _ body _, fl => QuietBatched S body fl
  | _, _, .call _ _ body _, fl => QuietBatched S body fl
  | _, _, .cond _ _ _ br _, fl => (fl.1 = true → ∀ i, Quiet S (br i)) ∧ ∀ i, QuietBatched S (br i) (fl.2 i)
  | _, _, .scan _ _ body _, fl => QuietBatched S body fl
  | _, _, .whileL _ test body _, fl =>
    (fl.1 = true → Quiet S body ∧ AllSows true (fun _ _ mode => mode ≠ .invalid) (fun _ => True) test) ∧ QuietBatched S test fl.2.1 ∧ QuietBatched S body fl.2.2

/-! ### Lanes -/

theorem allLanes_ok {B : Type} : ∀ {n : Nat} {f : Fin n → Except RErr B} {b : Fin n → B},
    allLanes f = .ok b ↔ ∀ i, f i = .ok (b i)
  | 0, f, b => by
    simp only [allLanes, Except.ok.injEq]
    exact ⟨fun _ i => i.elim0, fun _ => funext fun i => i.elim0⟩
  | n + 1, f, b => by
    simp only [allLanes]
    constructor
    · intro h
      rcases h0 : f 0 with e | b0 <;> rw [h0] at h
      · simp at h
      simp only [except_bind_ok] at h
      rcases h1 : allLanes (fun i => f i.succ) with e | bs <;> rw [h1] at h
      · simp at h
      simp only [except_bind_ok, except_pure, Except.ok.injEq] at h
      subst h
      intro i
      cases i using Fin.cases with
      | zero => exact h0
      | succ i => exact allLanes_ok.1 h1 i
    · intro h
      have h1 : allLanes (fun i => f i.succ) = .ok (fun i => b i.succ) := allLanes_ok.2 (fun i => h i.succ)
      rw [h 0]
      simp only [except_bind_ok, h1, except_pure, Except.ok.injEq]
      funext i
      cases i using Fin.cases with
      | zero => rfl
      | succ i => rfl

theorem anyLane_iff : ∀ {n : Nat} {t : Fin n → Bool}, anyLane t = true ↔ ∃ i, t i = true
  | 0, t => by
    simp only [anyLane, Bool.false_eq_true, false_iff]
    exact fun ⟨i, _⟩ => i.elim0
  | n + 1, t => by
    simp only [anyLane, Bool.or_eq_true, anyLane_iff]
    constructor
    · rintro (h | ⟨i, h⟩)
      · exact ⟨0, h⟩
      · exact ⟨i.succ, h⟩
    · rintro ⟨i, h⟩
      cases i using Fin.cases with
      | zero => exact .inl h
      | succ i => exact .inr ⟨i, h⟩

theorem everyLane_iff : ∀ {n : Nat} {t : Fin n → Bool}, everyLane t = true ↔ ∀ i, t i = true
  | 0, t => by
    simp only [everyLane, true_iff]
    exact fun i => i.elim0
  | n + 1, t => by
    simp only [everyLane, Bool.and_eq_true, everyLane_iff]
    constructor
    · rintro ⟨h, h'⟩ i
      cases i using Fin.cases with
      | zero => exact h
      | succ i => exact h' i
    · exact fun h => ⟨h 0, fun i => h i.succ⟩

theorem laneO_eq {V : Type} {n : Nat} (i : Fin n) (o : Option (Val (Fin n → V))) : laneO i o = o.map (·.lane i) := by
  cases o <;> rfl

theorem laneL_eq {V : Type} {n : Nat} (i : Fin n) (l : List (Val (Fin n → V))) : laneL i l = l.map (·.lane i) := by
  induction l with
  | nil => rfl
  | cons v l ih => simp [laneL, ih]

theorem lane_getD {V : Type} {n : Nat} (i : Fin n) (o : Option (Val (Fin n → V))) :
    (o.getD .zeros).lane i = (o.map (·.lane i)).getD .zeros := by
  cases o <;> rfl

theorem lastSome_map {α β : Type} (f : α → β) : ∀ (l : List (Option α)),
    lastSome (l.map (·.map f)) = (lastSome l).map f
  | [] => rfl
  | o :: l => by
    simp only [List.map_cons, lastSome, lastSome_map f l]
    cases lastSome l <;> rfl

/-! ### Sites, modes and metadata -/

theorem Quiet.allBranches {V X Y : Type} {S : Settings} : ∀ {m : Nat} {br : Fin m → Prog V X Y},
    (∀ i, Quiet S (br i)) → Quiet S (allBranches br)
  | 0, _, _ => trivial
  | _ + 1, _, h => ⟨h 0, Quiet.allBranches (fun i => h i.succ)⟩

theorem Quiet.vm {V A B : Type} {S : Settings} (n : Nat) (p : Prog V A B) : ∀ (fl : Flags p), Quiet S p →
    Quiet S (vm n p fl) := by
  induction p with
  | pure f => intro fl _; trivial
  | seq p q ihp ihq => intro fl h; exact ⟨ihp _ h.1, ihq _ h.2⟩
  | sow tag name mode pre pred post => intro fl h; exact ⟨trivial, h⟩
  | nest scope pre body post ih => intro fl h; exact ⟨trivial, ih _ h.2⟩
  | inline pre body post ih => intro fl h; exact ih _ h
  | call _ pre body post ih => intro fl h; exact ih _ h
  | cond j sel pre br post ih =>
    intro fl h
    obtain ⟨b, fl⟩ := fl
    cases b
    · exact ⟨trivial, fun i => ih i _ (h i)⟩
    · exact Quiet.allBranches (fun i => ih i _ (h i))
  | scan rev pre body post ih => intro fl h; exact ⟨trivial, ih _ h⟩
  | whileL pre test body post iht ihb =>
    intro fl h
    obtain ⟨b, flt, flb⟩ := fl
    have ht := iht flt (h.1 rfl)
    have hb := ihb flb h.2
    cases b
    · exact ⟨fun _ => ⟨ht, trivial⟩, hb⟩
    · exact ⟨fun _ => ⟨ht, trivial⟩, ht, hb⟩

theorem declares_vm {V A B : Type} {S : Settings} (n : Nat) (p : Prog V A B) : ∀ (fl : Flags p), QuietBatched S p fl →
    (∀ {c}, Regular S c p → ∀ k, declares S k (sites (vm n p fl)) = declares S k (sites p)) := by
  induction p with
  | pure f => intro fl _ c _ k; rfl
  | seq p q ihp ihq =>
    intro fl h c hr k
    simp only [vm, sites, declares_append, ihp _ h.1 hr.1, ihq _ h.2 hr.2]
  | sow tag name mode pre pred post => intro fl h c _ k; rfl
  | nest scope pre body post ih =>
    intro fl h c hr k
    have e : anySite S (sites (vm n body fl)) = anySite S (sites body) := anySite_congr (fun k => by rw [ih fl h hr.1 k])
    simp only [vm, sites, declares, Site.declares, e]
  | inline pre body post ih => intro fl h c hr k; exact ih fl h hr k
  | call _ pre body post ih => intro fl h c hr k; exact ih fl h hr k
  | cond j sel pre br post ih =>
    intro fl h c hr k
    obtain ⟨b, fl⟩ := fl
    cases b
    · exact ih 0 (fl 0) (h.2 0) (hr 0) k
    · have hq := h.1 rfl
      have h1 := quiet_declares _ (Quiet.allBranches (fun i => Quiet.vm n (br i) (fl i) (hq i))) k
      have h2 := quiet_declares _ (hq 0) k
      exact Eq.trans h1 h2.symm
  | scan rev pre body post ih => intro fl h c hr k; exact ih fl h hr.1 k
  | whileL pre test body post iht ihb =>
    intro fl h c hr k
    obtain ⟨b, flt, flb⟩ := fl
    cases b
    · exact ihb flb h.2.2 hr.1 k
    · have hq := (h.1 rfl).1
      have h1 := quiet_declares (.seq (.inline id (vm n test flt) (fun k t => (k, t)))
          (.inline (fun kt => kt.1) (vm n body flb) (fun kt k i => if kt.2 i then k i else kt.1 i)))
        ⟨Quiet.vm n test flt hr.2, Quiet.vm n body flb hq⟩ k
      have h2 := quiet_declares _ hq k
      exact Eq.trans h1 h2.symm

theorem Quiet.regular {V A B : Type} {S : Settings} (p : Prog V A B) (h : Quiet S p) : ∀ {c}, (∀ k, c k = false) →
    Regular S c p := by
  induction p with
  | pure f => intro c _; trivial
  | seq p q ihp ihq => intro c hc; exact ⟨ihp h.1 hc, ihq h.2 hc⟩
  | sow tag name mode pre pred post =>
    intro c hc ha
    have h' : S.active tag name = false := h
    rw [ha] at h'; simp at h'
  | nest scope pre body post ih => intro c hc; exact ⟨ih h.2 (fun _ => rfl), hc _⟩
  | inline pre body post ih => intro c hc; exact ih h hc
  | call _ pre body post ih => intro c hc; exact ih h hc
  | cond j sel pre br post ih => intro c hc i; exact ih i (h i) hc
  | scan rev pre body post ih => intro c hc; exact ⟨ih h hc, .inr (fun n _ => hc n)⟩
  | whileL pre test body post iht ihb => intro c hc; exact ⟨ihb h.2 hc, h.1 rfl⟩

theorem Regular.vm {V A B : Type} {S : Settings} (n : Nat) (p : Prog V A B) : ∀ (fl : Flags p) {c}, (∀ k, c k = false) →
    QuietBatched S p fl → Regular S c p → Regular S c (vm n p fl) := by
  induction p with
  | pure f => intro fl c _ _ _; trivial
  | seq p q ihp ihq => intro fl c hc h hr; exact ⟨ihp _ hc h.1 hr.1, ihq _ hc h.2 hr.2⟩
  | sow tag name mode pre pred post => intro fl c hc h hr; exact ⟨trivial, hr⟩
  | nest scope pre body post ih => intro fl c hc h hr; exact ⟨ih fl (fun _ => rfl) h hr.1, hr.2⟩
  | inline pre body post ih => intro fl c hc h hr; exact ih fl hc h hr
  | call _ pre body post ih => intro fl c hc h hr; exact ih fl hc h hr
  | cond j sel pre br post ih =>
    intro fl c hc h hr
    obtain ⟨b, fl⟩ := fl
    cases b
    · exact ⟨trivial, fun i => ih i _ hc (h.2 i) (hr i)⟩
    · exact Quiet.regular (.inline _ (Harvest.allBranches _) _)
        (Quiet.allBranches (fun i => Quiet.vm n (br i) (fl i) (h.1 rfl i))) hc
  | scan rev pre body post ih =>
    intro fl c hc h hr
    exact ⟨trivial, ih fl hc h hr.1, .inr (fun n _ => hc n)⟩
  | whileL pre test body post iht ihb =>
    intro fl c hc h hr
    obtain ⟨b, flt, flb⟩ := fl
    have ht := Quiet.vm n test flt hr.2
    cases b
    · exact ⟨ihb flb hc h.2.2 hr.1, ht, trivial⟩
    · exact ⟨⟨Quiet.regular _ ht hc, ihb flb hc h.2.2 hr.1⟩, ht, trivial⟩


/-! ### Metadata -/

/-- Tracing a program that takes no part in the harvest leaves the metadata, or fails whatever it is. -/
theorem quiet_meta {V A B : Type} {S : Settings} (p : Prog V A B) : Quiet S p → ∀ {m0 m1 : Meta},
    metaOf S p m0 = .ok m1 → ∀ m, metaOf S p m = .ok m := by
  induction p with
  | pure f => intro _ m0 m1 _ m; rfl
  | seq p q ihp ihq =>
    intro h m0 m1 hm m
    simp only [metaOf] at hm ⊢
    rcases h1 : metaOf S p m0 with e | m' <;> rw [h1] at hm
    · simp at hm
    simp only [except_bind_ok] at hm
    rw [ihp h.1 h1 m]
    exact ihq h.2 hm m
  | sow tag name mode pre pred post =>
    intro h m0 m1 hm m
    have h' : S.active tag name = false := h
    simp only [metaOf] at hm ⊢
    by_cases hi : mode = .invalid
    · simp [hi] at hm
    · rw [if_neg hi]
      have hd : S.dispatch tag name ≠ .handle := dispatch_ne_handle.2 h'
      rcases hd' : S.dispatch tag name <;> simp_all
  | nest scope pre body post ih =>
    intro h m0 m1 hm m
    simp only [metaOf] at hm ⊢
    rcases h1 : metaOf S body [] with e | m' <;> rw [h1] at hm
    · simp at hm
    have := ih h.2 h1 []
    rw [this] at h1
    simp only [Except.ok.injEq] at h1
    subst h1
    simp
  | inline pre body post ih =>
    intro h m0 m1 hm m
    exact ih h hm m
  | call _ pre body post ih =>
    intro h m0 m1 hm m
    simp only [metaOf] at hm ⊢
    rcases h1 : metaOf S body [] with e | m' <;> rw [h1] at hm
    · simp at hm
    have e := ih h h1 []
    rw [h1] at e
    cases e
    rfl
  | cond j sel pre br post ih =>
    intro h m0 m1 hm m
    simp only [metaOf] at hm ⊢
    rcases h1 : metaOf S (br 0) [] with e | m' <;> rw [h1] at hm
    · simp at hm
    have e0 := ih 0 (h 0) h1 []
    rw [e0] at h1
    simp only [Except.ok.injEq] at h1
    subst h1
    simp only [except_bind_ok] at hm ⊢
    rcases h2 : (List.finRange (j + 1)).mapM (fun i => metaOf S (br i) []) with e | ms <;> rw [h2] at hm
    · simp at hm
    simp only [except_bind_ok] at hm ⊢
    rcases h3 : metaCond [] ms with e | u <;> rw [h3] at hm
    · simp at hm
    rfl
  | scan rev pre body post ih =>
    intro h m0 m1 hm m
    simp only [metaOf] at hm ⊢
    rcases h1 : metaOf S body [] with e | m' <;> rw [h1] at hm
    · simp at hm
    have e := ih h h1 []
    rw [h1] at e
    cases e
    rfl
  | whileL pre test body post iht ihb =>
    intro h m0 m1 hm m
    simp only [metaOf] at hm ⊢
    rcases h1 : metaOf S body [] with e | m' <;> rw [h1] at hm
    · simp at hm
    have e := ihb h.2 h1 []
    rw [h1] at e
    cases e
    rfl

theorem metaCond_nil {ms : List Meta} (h : ∀ m ∈ ms, m = []) : metaCond [] ms = .ok () := by
  induction ms with
  | nil => rfl
  | cons m ms ih =>
    have := h m (by simp)
    subst this
    simp only [metaCond]
    have e : metaBranch [] [] = .ok () := rfl
    rw [e]
    exact ih (fun m hm => h m (by simp [hm]))

theorem mapM_const {α β ε : Type} {f : α → Except ε β} {b : β} : ∀ {l : List α}, (∀ x ∈ l, f x = .ok b) →
    l.mapM f = .ok (l.map (fun _ => b))
  | [], _ => rfl
  | x :: l, h => by
    rw [List.mapM_cons, h x (by simp), except_bind_ok, mapM_const (fun y hy => h y (by simp [hy]))]
    rfl

/-- A program without invalid modes that takes no part in the harvest leaves the metadata. -/
theorem quiet_meta_valid {V A B : Type} {S : Settings} (p : Prog V A B) : Quiet S p →
    AllSows true (fun _ _ mode => mode ≠ .invalid) (fun _ => True) p → ∀ m, metaOf S p m = .ok m := by
  induction p with
  | pure f => intro _ _ m; rfl
  | seq p q ihp ihq =>
    intro h hv m
    simp only [metaOf]
    rw [ihp h.1 hv.1 m]
    exact ihq h.2 hv.2 m
  | sow tag name mode pre pred post =>
    intro h hv m
    have h' : S.active tag name = false := h
    have hv' : mode ≠ .invalid := hv
    simp only [metaOf]
    rw [if_neg hv']
    have hd : S.dispatch tag name ≠ .handle := dispatch_ne_handle.2 h'
    rcases hd' : S.dispatch tag name <;> simp_all
  | nest scope pre body post ih =>
    intro h hv m
    simp only [metaOf, ih h.2 hv.2]
    rfl
  | inline pre body post ih =>
    intro h hv m
    exact ih h hv m
  | call _ pre body post ih =>
    intro h hv m
    simp only [metaOf, ih h hv]
    rfl
  | cond j sel pre br post ih =>
    intro h hv m
    simp only [metaOf, ih _ (h _) (hv _), except_bind_ok]
    rw [mapM_const (b := ([] : Meta)) (fun i _ => rfl)]
    simp only [except_bind_ok]
    rw [metaCond_nil (by simp)]
    rfl
  | scan rev pre body post ih =>
    intro h hv m
    simp only [metaOf, ih h hv]
    rfl
  | whileL pre test body post iht ihb =>
    intro h hv m
    simp only [metaOf, ihb h.2 hv.2]
    rfl

theorem allBranches_meta {V X Y : Type} {S : Settings} : ∀ {m : Nat} {br : Fin m → Prog V X Y},
    (∀ i m0, metaOf S (br i) m0 = .ok m0) → ∀ m0, metaOf S (allBranches br) m0 = .ok m0
  | 0, _, _, _ => rfl
  | _ + 1, br, h, m0 => by
    simp only [allBranches, metaOf, h 0, except_bind_ok]
    exact allBranches_meta (fun i => h i.succ) m0

theorem mapM_mem_ok {α β ε : Type} {f : α → Except ε β} : ∀ {l : List α} {r : List β}, l.mapM f = .ok r → ∀ b ∈ r,
    ∃ a ∈ l, f a = .ok b
  | [], r, h, b, hb => by
    have : r = [] := by simpa [pure, Except.pure] using h.symm
    subst this
    simp at hb
  | x :: l, r, h, b, hb => by
    rw [List.mapM_cons] at h
    rcases h1 : f x with e | y <;> rw [h1] at h
    · simp at h
    simp only [except_bind_ok] at h
    rcases h2 : l.mapM f with e | ys <;> rw [h2] at h
    · simp at h
    simp only [except_bind_ok, except_pure, Except.ok.injEq] at h
    subst h
    rcases List.mem_cons.1 hb with rfl | hb
    · exact ⟨x, by simp, h1⟩
    · obtain ⟨a, ha, h3⟩ := mapM_mem_ok h2 b hb
      exact ⟨a, by simp [ha], h3⟩

/-- The errors of tracing a program that takes no part in the harvest do not depend on the metadata so far. -/
theorem quiet_meta_error {V A B : Type} {S : Settings} (p : Prog V A B) (h : Quiet S p) {m0 : Meta} {e : Err}
    (he : metaOf S p m0 = .error e) : ∀ m, metaOf S p m = .error e := by
  revert m0 e
  induction p with
  | pure f => intro m0 e he m; simp [metaOf] at he
  | seq p q ihp ihq =>
    intro m0 e he m
    simp only [metaOf] at he ⊢
    rcases h1 : metaOf S p m0 with e' | m' <;> rw [h1] at he
    · rw [ihp h.1 h1 m]
      exact he
    · simp only [except_bind_ok] at he
      rw [quiet_meta p h.1 h1 m]
      exact ihq h.2 he m
  | sow tag name mode pre pred post =>
    intro m0 e he m
    have h' : S.active tag name = false := h
    simp only [metaOf] at he ⊢
    by_cases hi : mode = .invalid
    · rw [if_pos hi] at he ⊢
      exact he
    · have hd : S.dispatch tag name ≠ .handle := dispatch_ne_handle.2 h'
      rw [if_neg hi] at he
      rcases hd' : S.dispatch tag name <;> simp_all
  | nest scope pre body post ih =>
    intro m0 e he m
    simp only [metaOf] at he ⊢
    rcases h1 : metaOf S body [] with e' | m' <;> rw [h1] at he
    · exact he
    · have := quiet_meta body h.2 h1 []
      rw [this] at h1
      simp only [Except.ok.injEq] at h1
      subst h1
      simp at he
  | inline pre body post ih => intro m0 e he m; exact ih h he m
  | call _ pre body post ih =>
    intro m0 e he m
    simp only [metaOf] at he ⊢
    rcases h1 : metaOf S body [] with e' | m' <;> rw [h1] at he
    · exact he
    · have := quiet_meta body h h1 []
      rw [this] at h1
      cases h1
      simp [Meta.resow] at he
  | cond j sel pre br post ih =>
    intro m0 e he m
    simp only [metaOf] at he ⊢
    rcases h1 : metaOf S (br 0) [] with e' | m' <;> rw [h1] at he
    · exact he
    have := quiet_meta _ (h 0) h1 []
    rw [this] at h1
    cases h1
    simp only [except_bind_ok] at he ⊢
    rcases h2 : (List.finRange (j + 1)).mapM (fun i => metaOf S (br i) []) with e' | ms <;> rw [h2] at he
    · exact he
    simp only [except_bind_ok] at he ⊢
    rcases h3 : metaCond [] ms with e' | u <;> rw [h3] at he
    · exact he
    · simp [Meta.resow] at he
  | scan rev pre body post ih =>
    intro m0 e he m
    simp only [metaOf] at he ⊢
    rcases h1 : metaOf S body [] with e' | m' <;> rw [h1] at he
    · exact he
    · have := quiet_meta body h h1 []
      rw [this] at h1
      cases h1
      simp [Meta.resow, metaScan, leakedMode, sortKeys] at he
  | whileL pre test body post iht ihb =>
    intro m0 e he m
    simp only [metaOf] at he ⊢
    rcases h1 : metaOf S body [] with e' | m' <;> rw [h1] at he
    · exact he
    · have := quiet_meta body h.2 h1 []
      rw [this] at h1
      cases h1
      simp [Meta.resow, metaWhile] at he

/-- Tracing a program that takes no part in the harvest: `quiet_meta` and `quiet_meta_error` together. -/
theorem quiet_meta_map {V A B : Type} {S : Settings} (p : Prog V A B) (h : Quiet S p) (m : Meta) :
    metaOf S p m = (metaOf S p []).map (fun _ => m) := by
  rcases h1 : metaOf S p [] with e | m'
  · exact quiet_meta_error p h h1 m
  · exact quiet_meta p h h1 m

/-- Tracing all the branches of a conditional, none of which takes part in the harvest, one after the other: the same
errors as probing each of them. -/
theorem allBranches_meta_eq {V X Y : Type} {S : Settings} : ∀ {m : Nat} {br : Fin m → Prog V X Y},
    (∀ i, Quiet S (br i)) → ∀ m0,
    metaOf S (allBranches br) m0 = ((List.finRange m).mapM (fun i => metaOf S (br i) [])).map (fun _ => m0)
  | 0, _, _, _ => rfl
  | m + 1, br, h, m0 => by
    rw [List.finRange_succ, List.mapM_cons, List.mapM_map]
    simp only [allBranches, metaOf]
    rw [quiet_meta_map _ (h 0) m0]
    rcases metaOf S (br 0) [] with e | m'
    · rfl
    simp only [except_map_ok, except_bind_ok]
    rw [allBranches_meta_eq (fun i => h i.succ) m0]
    simp only [Function.comp_def]
    generalize List.mapM (m := Except Err) (fun i : Fin m => metaOf S (br i.succ) []) (List.finRange m) = u
    cases u <;> rfl

/-- `reap` of a vmapped program raises exactly the errors of `reap` of the program. -/
theorem metaOf_vm {V A B : Type} {S : Settings} (n : Nat) (p : Prog V A B) : ∀ (fl : Flags p) {c}, QuietBatched S p fl →
    Regular S c p → ∀ m0 : Meta, metaOf S (vm n p fl) m0 = metaOf S p m0 := by
  induction p with
  | pure f => intro fl c _ _ m0; rfl
  | seq p q ihp ihq =>
    intro fl c h hr m0
    simp only [metaOf, vm, ihp _ h.1 hr.1, ihq _ h.2 hr.2]
  | sow tag name mode pre pred post => intro fl c _ _ m0; rfl
  | nest scope pre body post ih =>
    intro fl c h hr m0
    simp only [metaOf, vm, ih fl h hr.1]
  | inline pre body post ih => intro fl c h hr m0; exact ih fl h hr m0
  | call _ pre body post ih =>
    intro fl c h hr m0
    simp only [metaOf, vm, ih fl h hr]
  | cond j sel pre br post ih =>
    intro fl c h hr m0
    obtain ⟨b, fl⟩ := fl
    have e : ∀ i m, metaOf S (vm n (br i) (fl i)) m = metaOf S (br i) m := fun i m => ih i (fl i) (h.2 i) (hr i) m
    cases b
    · show (do
        let m' ← Except.ok m0
        metaOf S (.cond j _ _ (fun k => vm n (br k) (fl k)) _) m') = _
      simp only [except_bind_ok, metaOf, e]
    · have hq := h.1 rfl
      refine Eq.trans (allBranches_meta_eq (fun i => Quiet.vm n (br i) (fl i) (hq i)) m0) ?_
      simp only [e, metaOf]
      rcases h1 : metaOf S (br 0) [] with e' | m'
      · rw [List.finRange_succ, List.mapM_cons, h1]
        rfl
      have := quiet_meta _ (hq 0) h1 []
      rw [this] at h1
      cases h1
      simp only [except_bind_ok]
      rcases h2 : (List.finRange (j + 1)).mapM (fun i => metaOf S (br i) []) with e' | ms
      · rfl
      simp only [except_bind_ok, except_map_ok]
      rw [metaCond_nil]
      · rfl
      · intro m hm
        obtain ⟨i, -, hi⟩ := mapM_mem_ok h2 m hm
        have := quiet_meta _ (hq i) hi []
        rw [this] at hi
        cases hi
        rfl
  | scan rev pre body post ih =>
    intro fl c h hr m0
    simp only [metaOf, vm, except_bind_ok, ih fl h hr.1]
  | whileL pre test body post iht ihb =>
    intro fl c h hr m0
    obtain ⟨b, flt, flb⟩ := fl
    have hb := ihb flb h.2.2 hr.1 []
    cases b
    · show (do
        let inner ← metaOf S (vm n body flb) []
        metaWhile inner
        m0.resow inner) = _
      rw [hb]
      rfl
    · obtain ⟨hq, hv⟩ := h.1 rfl
      have ht := iht flt (c := fun _ => false) h.2.1 (Quiet.regular _ hr.2 (fun _ => rfl)) []
      rw [quiet_meta_valid _ hr.2 hv []] at ht
      show (do
        let inner ← (do
          let m' ← metaOf S (vm n test flt) []
          metaOf S (vm n body flb) m')
        metaWhile inner
        m0.resow inner) = _
      rw [ht]
      simp only [except_bind_ok]
      rw [hb]
      rfl

end Verif.Harvest
