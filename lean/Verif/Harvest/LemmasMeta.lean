/- Lemmas about the static metadata computed while tracing under a reap. -/
import Mathlib.Data.List.Perm.Subperm
import Mathlib.Data.List.Nodup
import Verif.Harvest.LemmasRun

namespace Verif.Harvest

@[simp] theorem Meta.get_nil (n : String) : Meta.get [] n = none := rfl

theorem Meta.get_cons (e : String × Mode) (m : Meta) (n : String) :
    Meta.get (e :: m) n = if n = e.1 then some e.2 else m.get n := by
  obtain ⟨k, mode⟩ := e
  simp only [Meta.get, List.lookup]
  by_cases h : n = k
  · simp [h]
  · have : (n == k) = false := by simp [h]
    simp [h, this]

theorem Meta.get_filter_ne (m : Meta) (n k : String) (h : k ≠ n) :
    Meta.get (m.filter (fun e => e.1 ≠ n)) k = m.get k := by
  induction m with
  | nil => simp
  | cons e m ih =>
    by_cases he : e.1 = n
    · have : k ≠ e.1 := by rw [he]; exact h
      rw [List.filter_cons_of_neg (by simp [he]), ih, Meta.get_cons, if_neg this]
    · rw [List.filter_cons_of_pos (by simp [he]), Meta.get_cons, Meta.get_cons, ih]

theorem Meta.get_set (m : Meta) (n k : String) (mode : Mode) :
    (m.set n mode).get k = if k = n then some mode else m.get k := by
  simp only [Meta.set, Meta.get_cons]
  by_cases h : k = n
  · simp [h]
  · rw [if_neg h, if_neg h, Meta.get_filter_ne m n k h]

theorem Meta.get_isSome_iff (m : Meta) (n : String) : (m.get n).isSome ↔ n ∈ m.map (·.1) := by
  induction m with
  | nil => simp
  | cons e m ih =>
    rw [Meta.get_cons]
    by_cases h : n = e.1
    · simp [h]
    · rw [if_neg h, ih]; simp [h]

theorem Meta.mem_of_get {m : Meta} {n : String} {mode : Mode} (h : m.get n = some mode) :
    (n, mode) ∈ m := by
  induction m with
  | nil => simp at h
  | cons e m ih =>
    rw [Meta.get_cons] at h
    by_cases hn : n = e.1
    · rw [if_pos hn] at h
      simp only [Option.some.injEq] at h
      subst hn h
      simp
    · rw [if_neg hn] at h
      exact List.mem_cons_of_mem _ (ih h)

/-- Distinct keys. -/
def Meta.Keys (m : Meta) : Prop := (m.map (·.1)).Nodup

theorem Meta.get_of_mem {m : Meta} (hk : m.Keys) {n : String} {mode : Mode} (h : (n, mode) ∈ m) :
    m.get n = some mode := by
  induction m with
  | nil => simp at h
  | cons e m ih =>
    rw [Meta.get_cons]
    simp only [Meta.Keys, List.map_cons, List.nodup_cons] at hk
    rcases List.mem_cons.1 h with rfl | h
    · simp
    · have : n ≠ e.1 := by
        rintro rfl
        exact hk.1 (List.mem_map.2 ⟨_, h, rfl⟩)
      rw [if_neg this]
      exact ih hk.2 h

theorem Meta.isEmpty_iff (m : Meta) : m.isEmpty = true ↔ ∀ n, m.get n = none := by
  constructor
  · intro h n
    rw [List.isEmpty_iff] at h
    simp [h]
  · intro h
    rcases m with _ | ⟨e, m⟩
    · rfl
    · have := h e.1
      simp [Meta.get_cons] at this

theorem Meta.Keys_set {m : Meta} (hk : m.Keys) (n : String) (mode : Mode) : (m.set n mode).Keys := by
  simp only [Meta.set, Meta.Keys, List.map_cons, List.nodup_cons]
  constructor
  · simp
  · exact List.Sublist.nodup (List.Sublist.map _ List.filter_sublist) hk

theorem Meta.handle_ok {m m' : Meta} {n : String} {mode : Mode} (h : m.handle n mode = .ok m') :
    m' = m.set n mode ∧
      ∀ prev, m.get n = some prev → mode.isClobber = true ∧ prev.isClobber = true := by
  unfold Meta.handle at h
  split at h
  · rename_i prev hp
    split at h
    · rename_i hc
      simp only [Bool.and_eq_true] at hc
      simp only [Except.ok.injEq] at h
      refine ⟨h.symm, ?_⟩
      intro prev' hp'
      rw [hp] at hp'
      simp only [Option.some.injEq] at hp'
      subst hp'
      exact hc
    · simp at h
  · rename_i hp
    simp only [Except.ok.injEq] at h
    exact ⟨h.symm, by intro prev hp'; rw [hp] at hp'; simp at hp'⟩

theorem Meta.resow_ok {m : Meta} : ∀ {inner m' : Meta}, m.resow inner = .ok m' →
    (∀ k, m'.get k = (inner.get k).or (m.get k)) ∧
    (∀ k mode prev, inner.get k = some mode → m.get k = some prev →
      mode.isClobber = true ∧ prev.isClobber = true) ∧ (m.Keys → m'.Keys)
  | [], m', h => by
    simp only [Meta.resow, Except.ok.injEq] at h
    subst h
    simp
  | (n, mode) :: rest, m', h => by
    simp only [Meta.resow] at h
    rcases hr : m.resow rest with e | m'' <;> rw [hr] at h
    · simp at h
    · simp only [except_bind_ok] at h
      obtain ⟨h1, h2, h3⟩ := Meta.resow_ok hr
      obtain ⟨rfl, h4⟩ := Meta.handle_ok h
      refine ⟨?_, ?_, fun hk => Meta.Keys_set (h3 hk) _ _⟩
      · intro k
        rw [Meta.get_set, Meta.get_cons, h1]
        by_cases hk : k = n <;> simp [hk]
      · intro k mode' prev hk hp
        rw [Meta.get_cons] at hk
        by_cases hkn : k = n
        · subst hkn
          simp only [if_true, Option.some.injEq] at hk
          subst hk
          rcases hg : Meta.get rest k with _ | x
          · have := h4 prev (by rw [h1, hg, hp]; rfl)
            exact this
          · have h5 := h4 x (by rw [h1, hg]; rfl)
            exact ⟨h5.1, (h2 k x prev hg hp).2⟩
        · rw [if_neg hkn] at hk
          exact h2 k mode' prev hk hp

theorem declares_append (S : Settings) (n : String) (l r : List Site) :
    declares S n (l ++ r) = (declares S n r).or (declares S n l) := by
  induction l with
  | nil => simp [declares]
  | cons s ss ih => simp [declares, ih, Option.or_assoc]

theorem Site.any_iff (S : Settings) (s : Site) : s.any S = true ↔ ∃ n, (s.declares S n).isSome := by
  cases s with
  | sow tag name mode =>
    simp only [Site.any, Site.declares]
    constructor
    · intro h; exact ⟨name, by simp [h]⟩
    · rintro ⟨n, h⟩
      by_contra hc
      simp [hc] at h
  | nest scope inner =>
    simp only [Site.any, Site.declares]
    constructor
    · intro h
      simp only [Bool.and_eq_true] at h
      exact ⟨scope, by simp [h]⟩
    · rintro ⟨n, h⟩
      by_contra hc
      simp only [Bool.and_eq_true] at hc
      by_cases hs : S.active S.tag scope = true <;> by_cases hi : anySite S inner = true <;>
        simp_all

theorem anySite_iff (S : Settings) (l : List Site) :
    anySite S l = true ↔ ∃ n, (declares S n l).isSome := by
  induction l with
  | nil => simp [anySite, declares]
  | cons s ss ih =>
    simp only [anySite, Bool.or_eq_true, ih, Site.any_iff, declares, Option.isSome_or]
    constructor
    · rintro (⟨n, h⟩ | ⟨n, h⟩)
      · exact ⟨n, by simp [h]⟩
      · exact ⟨n, by simp [h]⟩
    · rintro ⟨n, h⟩
      rcases h with h | h
      · exact Or.inr ⟨n, h⟩
      · exact Or.inl ⟨n, h⟩

theorem anySite_false_iff (S : Settings) (l : List Site) :
    anySite S l = false ↔ ∀ n, declares S n l = none := by
  have := anySite_iff S l
  constructor
  · intro h n
    by_contra hc
    have : anySite S l = true := this.2 ⟨n, by
      cases hd : declares S n l
      · exact absurd hd hc
      · rfl⟩
    simp [h] at this
  · intro h
    by_contra hc
    obtain ⟨n, hn⟩ := this.1 (by simpa using hc)
    simp [h n] at hn

/-- The metadata computed while tracing is exactly the declared names with their modes. -/
theorem metaOf_get {V A B : Type} (S : Settings) (p : Prog V A B) :
    ∀ {m0 m1 : Meta}, metaOf S p m0 = .ok m1 →
      (∀ n, m1.get n = (declares S n (sites p)).or (m0.get n)) ∧ (m0.Keys → m1.Keys) := by
  induction p with
  | pure f => intro m0 m1 h; simp only [metaOf, Except.ok.injEq] at h; subst h; simp [sites, declares]
  | seq p q ihp ihq =>
    intro m0 m1 h
    simp only [metaOf] at h
    rcases hp : metaOf S p m0 with e | m <;> rw [hp] at h
    · simp at h
    · simp only [except_bind_ok] at h
      refine ⟨fun n => ?_, fun hk => (ihq h).2 ((ihp hp).2 hk)⟩
      rw [(ihq h).1 n, (ihp hp).1 n, sites, declares_append, Option.or_assoc]
  | sow tag name mode pre pred post =>
    intro m0 m1 h
    simp only [metaOf] at h
    split at h
    · simp at h
    · simp only [sites, declares, Site.declares]
      cases hd : S.dispatch tag name <;> rw [hd] at h
      · have := dispatch_ne_handle.1 (by rw [hd]; simp : S.dispatch tag name ≠ .handle)
        simp only [Except.ok.injEq] at h; subst h; simp [this]
      · have := dispatch_ne_handle.1 (by rw [hd]; simp : S.dispatch tag name ≠ .handle)
        simp only [Except.ok.injEq] at h; subst h; simp [this]
      · have := dispatch_handle.1 hd
        obtain ⟨rfl, _⟩ := Meta.handle_ok h
        refine ⟨fun n => ?_, fun hk => Meta.Keys_set hk _ _⟩
        rw [Meta.get_set]
        by_cases hn : n = name
        · simp [hn, this]
        · have : name ≠ n := fun h => hn h.symm
          simp [hn, this]
  | nest scope pre body post ih =>
    intro m0 m1 h
    simp only [metaOf] at h
    rcases hp : metaOf S body [] with e | m <;> rw [hp] at h
    · simp at h
    · simp only [except_bind_ok] at h
      have hg : ∀ n, m.get n = declares S n (sites body) := by
        intro n; rw [(ih hp).1 n]; simp
      simp only [sites, declares, Site.declares]
      by_cases he : m.isEmpty = true
      · simp only [he, if_true, except_pure, Except.ok.injEq] at h
        subst h
        have : anySite S (sites body) = false := by
          rw [anySite_false_iff]; intro n; rw [← hg]; exact (Meta.isEmpty_iff m).1 he n
        simp [this]
      · have ha : anySite S (sites body) = true := by
          by_contra hc
          rw [Bool.not_eq_true, anySite_false_iff] at hc
          exact he ((Meta.isEmpty_iff m).2 (fun n => by rw [hg]; exact hc n))
        simp only [he, Bool.false_eq_true, if_false] at h
        cases hd : S.dispatch S.tag scope <;> rw [hd] at h
        · have := dispatch_ne_handle.1 (by rw [hd]; simp : S.dispatch S.tag scope ≠ .handle)
          simp only [except_pure, Except.ok.injEq] at h; subst h; simp [this]
        · have := dispatch_ne_handle.1 (by rw [hd]; simp : S.dispatch S.tag scope ≠ .handle)
          simp only [except_pure, Except.ok.injEq] at h; subst h; simp [this]
        · have := dispatch_handle.1 hd
          obtain ⟨rfl, _⟩ := Meta.handle_ok h
          refine ⟨fun n => ?_, fun hk => Meta.Keys_set hk _ _⟩
          rw [Meta.get_set]
          by_cases hn : n = scope
          · simp [hn, this, ha]
          · have : scope ≠ n := fun h => hn h.symm
            simp [hn, this]
  | inline pre body post ih => intro m0 m1 h; simp only [metaOf] at h; simpa [sites] using ih h
  | call _ pre body post ih =>
    intro m0 m1 h
    simp only [metaOf] at h
    rcases hp : metaOf S body [] with e | m <;> rw [hp] at h
    · simp at h
    · simp only [except_bind_ok] at h
      obtain ⟨h1, _, h3⟩ := Meta.resow_ok h
      refine ⟨fun n => ?_, h3⟩
      rw [h1, (ih hp).1]; simp [sites]
  | cond n sel pre br post ih =>
    intro m0 m1 h
    simp only [metaOf] at h
    rcases hp : metaOf S (br 0) [] with e | m <;> rw [hp] at h
    · simp at h
    · simp only [except_bind_ok] at h
      rcases hq : (List.finRange (n + 1)).mapM (fun i => metaOf S (br i) []) with e | ms <;>
        rw [hq] at h
      · simp at h
      · simp only [except_bind_ok] at h
        rcases hc : metaCond m ms with e | u <;> rw [hc] at h
        · simp at h
        · simp only [except_bind_ok] at h
          obtain ⟨h1, _, h3⟩ := Meta.resow_ok h
          refine ⟨fun n => ?_, h3⟩
          rw [h1, (ih 0 hp).1]; simp [sites]
  | scan rev pre body post ih =>
    intro m0 m1 h
    simp only [metaOf] at h
    rcases hp : metaOf S body [] with e | m <;> rw [hp] at h
    · simp at h
    · simp only [except_bind_ok] at h
      rcases hc : metaScan m with e | u <;> rw [hc] at h
      · simp at h
      · simp only [except_bind_ok] at h
        obtain ⟨h1, _, h3⟩ := Meta.resow_ok h
        refine ⟨fun n => ?_, h3⟩
        rw [h1, (ih hp).1]; simp [sites]
  | whileL pre test body post iht ihb =>
    intro m0 m1 h
    simp only [metaOf] at h
    rcases hp : metaOf S body [] with e | m <;> rw [hp] at h
    · simp at h
    · simp only [except_bind_ok] at h
      rcases hc : metaWhile m with e | u <;> rw [hc] at h
      · simp at h
      · simp only [except_bind_ok] at h
        obtain ⟨h1, _, h3⟩ := Meta.resow_ok h
        refine ⟨fun n => ?_, h3⟩
        rw [h1, (ihb hp).1]; simp [sites]

theorem metaOf_nil_get {V A B : Type} {S : Settings} {p : Prog V A B} {m : Meta}
    (h : metaOf S p [] = .ok m) (n : String) : m.get n = declares S n (sites p) := by
  rw [(metaOf_get S p h).1 n]; simp

theorem metaOf_nil_keys {V A B : Type} {S : Settings} {p : Prog V A B} {m : Meta}
    (h : metaOf S p [] = .ok m) : m.Keys := (metaOf_get S p h).2 (by simp [Meta.Keys])

theorem metaD_of_ok {V A B : Type} {S : Settings} {p : Prog V A B} {m : Meta}
    (h : metaOf S p [] = .ok m) : metaD S p = m := by simp [metaD, h]

/-! ### Branches -/

theorem mapM_ok_mem {α β ε : Type _} {f : α → Except ε β} :
    ∀ {l : List α} {r : List β}, l.mapM f = .ok r → ∀ a ∈ l, ∃ b ∈ r, f a = .ok b
  | [], r, h, a, ha => by simp at ha
  | x :: l, r, h, a, ha => by
    rw [List.mapM_cons] at h
    rcases hx : f x with e | y <;> rw [hx] at h
    · simp at h
    · simp only [except_bind_ok] at h
      rcases hl : l.mapM f with e | ys <;> rw [hl] at h
      · simp at h
      · simp only [except_bind_ok, except_pure, Except.ok.injEq] at h
        subst h
        rcases List.mem_cons.1 ha with rfl | ha
        · exact ⟨y, by simp, hx⟩
        · obtain ⟨b, hb, hf⟩ := mapM_ok_mem hl a ha
          exact ⟨b, by simp [hb], hf⟩

theorem metaCond_ok {first : Meta} : ∀ {ms : List Meta}, metaCond first ms = .ok () →
    ∀ m ∈ ms, metaBranch first m = .ok ()
  | [], _, m, hm => by simp at hm
  | b :: bs, h, m, hm => by
    simp only [metaCond] at h
    rcases hb : metaBranch first b with e | u <;> rw [hb] at h
    · simp at h
    · simp only [except_bind_ok] at h
      rcases List.mem_cons.1 hm with rfl | hm
      · exact hb
      · exact metaCond_ok h m hm

theorem metaBranch_ok {first b : Meta} (hb : b.Keys) (h : metaBranch first b = .ok ()) :
    ∀ n, ((b.get n).isSome ↔ (first.get n).isSome) ∧
      (b.get n = some .condClobber ↔ first.get n = some .condClobber) := by
  unfold metaBranch at h
  split at h
  · simp at h
  · rename_i hl
    split at h
    · simp at h
    · rename_i h1
      split at h
      · simp at h
      · rename_i h2
        simp only [ne_eq, Decidable.not_not] at hl
        rw [List.find?_eq_none] at h1 h2
        have hsub : b.map (·.1) ⊆ first.map (·.1) := by
          intro n hn
          obtain ⟨e, he, rfl⟩ := List.mem_map.1 hn
          have := h1 e he
          rw [← Meta.get_isSome_iff]
          cases hg : first.get e.1 <;> simp [hg] at this ⊢
        have hperm : (b.map (·.1)).Perm (first.map (·.1)) :=
          (List.subperm_of_subset hb hsub).perm_of_length_le (by simp [hl])
        intro n
        have hiff : (b.get n).isSome ↔ (first.get n).isSome := by
          rw [Meta.get_isSome_iff, Meta.get_isSome_iff]; exact hperm.mem_iff
        refine ⟨hiff, ?_⟩
        cases hg : b.get n with
        | none =>
          rw [hg] at hiff
          simp only [reduceCtorEq, false_iff]
          intro hf'
          rw [hf'] at hiff
          simp at hiff
        | some mode =>
          have := h2 _ (Meta.mem_of_get hg)
          simp only [bne_iff_ne, ne_eq, Decidable.not_not] at this
          simp only [Option.some.injEq]
          constructor
          · intro hm
            subst hm
            have h3 : (first.get n == some Mode.condClobber) = true := by rw [← this]; simp
            simpa using h3
          · intro hm
            rw [hm] at this
            simpa using this

theorem metaBranch_of_metaOf_cond {V X Y : Type} {S : Settings} {n : Nat} {br : Fin (n+1) → Prog V X Y}
    {first : Meta} {ms : List Meta} (hq : (List.finRange (n + 1)).mapM (fun i => metaOf S (br i) []) = .ok ms)
    (hc : metaCond first ms = .ok ()) (i : Fin (n+1)) :
    ∃ m, metaOf S (br i) [] = .ok m ∧ metaBranch first m = .ok () := by
  obtain ⟨m, hm, h⟩ := mapM_ok_mem hq i (by simp)
  exact ⟨m, h, metaCond_ok hc m hm⟩

end Verif.Harvest
