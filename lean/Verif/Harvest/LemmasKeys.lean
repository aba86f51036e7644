/- Key sets of the reaped dictionary, without any regularity assumption; paths through branches. -/
import Verif.Harvest.LemmasOnce

namespace Verif.Harvest

theorem scanM_inv {K X Y : Type} {f : K × X → Except RErr (K × Y)} (I : K → Prop)
    (hf : ∀ kx r, I kx.1 → f kx = .ok r → I r.1) :
    ∀ (xs : List X) (k : K) r, I k → scanM f k xs = .ok r → I r.1 := by
  intro xs
  induction xs with
  | nil => intro k r hk h; simp only [scanM, Except.ok.injEq] at h; subst h; exact hk
  | cons x xs ih =>
    intro k r hk h
    simp only [scanM] at h
    rcases h1 : f (k, x) with e | r1 <;> rw [h1] at h
    · simp at h
    simp only [except_bind_ok] at h
    rcases h2 : scanM f r1.1 xs with e | r2 <;> rw [h2] at h
    · simp at h
    simp only [except_bind_ok, except_pure, Except.ok.injEq] at h
    subst h
    exact ih _ r2 (hf _ _ hk h1) h2

theorem scanDir_inv {K X Y : Type} {f : K × X → Except RErr (K × Y)} (I : K → Prop)
    (hf : ∀ kx r, I kx.1 → f kx = .ok r → I r.1) (rev : Bool) (xs : List X) (k : K) (r : K × List Y)
    (hk : I k) (h : scanDir rev f k xs = .ok r) : I r.1 := by
  cases rev
  · exact scanM_inv I hf xs k r hk h
  · simp only [scanDir, if_true] at h
    rcases h1 : scanM f k xs.reverse with e | r1 <;> rw [h1] at h <;> simp at h
    subst h
    exact scanM_inv I hf _ k r1 hk h1

theorem loopM_inv {K : Type} {c : K → Except RErr Bool} {b : K → Except RErr K} (I : K → Prop)
    (hb : ∀ k r, I k → b k = .ok r → I r) :
    ∀ (n : Nat) (k r : K), I k → loopM c b n k = .ok r → I r := by
  intro n
  induction n with
  | zero => intro k r hk h; simp [loopM] at h
  | succ n ih =>
    intro k r hk h
    simp only [loopM] at h
    rcases h1 : c k with e | t <;> rw [h1] at h
    · simp at h
    simp only [except_bind_ok] at h
    cases t
    · simp at h; subst h; exact hk
    · simp only [if_true] at h
      rcases h2 : b k with e | k' <;> rw [h2] at h
      · simp at h
      exact ih _ _ (hb _ _ hk h2) h

/-- The run time dictionary has exactly the names of the metadata. -/
def SameKeys {V : Type} (m : Meta) (d : Reaps V) : Prop := ∀ n, (d n).isSome = (m.get n).isSome

theorem SameKeys.nil {V : Type} : SameKeys [] (fun _ => none : Reaps V) := by intro n; simp [Meta.get]

theorem SameKeys.handle {V : Type} {m m' : Meta} {d : Reaps V} {n : String} {mode : Mode} {v : Val V}
    {b : Bool} (h : SameKeys m d) (hm : m.handle n mode = .ok m') : SameKeys m' (d.handle n mode v b) := by
  obtain ⟨h1, -⟩ := Meta.handle_ok hm
  intro k
  rw [h1, Meta.get_set]
  by_cases hk : k = n <;> simp [Reaps.handle, hk, h k]

theorem SameKeys.resow {V : Type} {m m' inner : Meta} {d d' : Reaps V}
    (h : SameKeys m d) (h' : SameKeys inner d') (hm : m.resow inner = .ok m') :
    SameKeys m' (d.resow inner d') := by
  obtain ⟨h1, -, -⟩ := Meta.resow_ok hm
  intro k
  rw [h1]
  have := h' k
  simp only [Reaps.resow]
  cases hg : inner.get k <;> cases hd : d' k <;> simp_all [h k]

theorem sameKeys_carry {V : Type} (m : Meta) (hs : ∀ n, m.get n ≠ some .strict)
    (hi : ∀ n, m.get n ≠ some .invalid) (c : Reaps V)
    (hc : ∀ n, (c n).isSome = (carryInit (V := V) m n).isSome) (ys : List (Reaps V)) :
    SameKeys m (scanReaps m c ys) := by
  intro n
  have h1 := hs n
  have h2 := hi n
  have h3 := hc n
  simp only [carryInit] at h3
  simp only [scanReaps]
  rcases hg : m.get n with _ | mode
  · rw [hg] at h3; simpa using h3
  · rw [hg] at h1 h2 h3
    cases mode <;> simp_all

theorem isSome_carryStep {V : Type} (mode : String → Option Mode) (c rd : Reaps V) (n : String) :
    (carryStep mode c rd n).isSome = (c n).isSome := by
  simp only [carryStep]
  cases c n <;> cases rd n <;> rfl

theorem reapT_keys {V A B : Type} (S : Settings) (fuel : Nat) (p : Prog V A B) :
    ∀ {m0 m1 : Meta}, metaOf S p m0 = .ok m1 → ∀ (a : A) (d : Reaps V) r, SameKeys m0 d →
      run fuel (reapT S p) (a, d) = .ok r → SameKeys m1 r.2 := by
  induction p with
  | pure f =>
    intro m0 m1 hm a d r hd h
    simp only [metaOf, Except.ok.injEq] at hm
    subst hm
    simp only [reapT, run] at h
    rcases hf : f a with e | b <;> rw [hf] at h <;> simp at h
    subst h; exact hd
  | seq p q ihp ihq =>
    intro m0 m1 hm a d r hd h
    simp only [metaOf] at hm
    rcases hmp : metaOf S p m0 with e | m <;> rw [hmp] at hm
    · simp at hm
    simp only [except_bind_ok] at hm
    simp only [reapT, run] at h
    rcases h1 : run fuel (reapT S p) (a, d) with e | r1 <;> rw [h1] at h
    · simp at h
    exact ihq hm _ _ _ (ihp hmp _ _ _ hd h1) h
  | sow tag name mode pre pred post =>
    intro m0 m1 hm a d r hd h
    simp only [metaOf] at hm
    split at hm
    · simp at hm
    simp only [reapT] at h
    cases hdisp : S.dispatch tag name <;> rw [hdisp] at h hm <;>
      simp only [run, Except.ok.injEq] at h hm <;> subst h
    · subst hm; exact hd
    · subst hm; exact hd
    · exact hd.handle hm
  | nest scope pre body post ih =>
    intro m0 m1 hm a d r hd h
    simp only [metaOf] at hm
    rcases hp : metaOf S body [] with e | m <;> rw [hp] at hm
    · simp at hm
    simp only [except_bind_ok] at hm
    simp only [reapT, run] at h
    rcases h1 : run fuel (reapT S body) (pre a, fun _ => none) with e | y <;> rw [h1] at h
    · simp at h
    simp only [except_map_ok, Except.ok.injEq, metaD_of_ok hp] at h
    subst h
    by_cases hempty : m.isEmpty = true
    · simp only [hempty, if_true, except_pure, Except.ok.injEq] at hm ⊢
      subst hm; exact hd
    · simp only [hempty, Bool.false_eq_true, if_false] at hm ⊢
      cases hdisp : S.dispatch S.tag scope <;> rw [hdisp] at hm <;>
        simp only [except_pure, Except.ok.injEq] at hm ⊢
      · subst hm; exact hd
      · subst hm; exact hd
      · exact hd.handle hm
  | inline pre body post ih =>
    intro m0 m1 hm a d r hd h
    simp only [metaOf] at hm
    simp only [reapT, run] at h
    rcases h1 : run fuel (reapT S body) (pre a, d) with e | y <;> rw [h1] at h <;> simp at h
    subst h
    exact ih hm _ _ _ hd h1
  | call _ pre body post ih =>
    intro m0 m1 hm a d r hd h
    simp only [metaOf] at hm
    rcases hp : metaOf S body [] with e | m <;> rw [hp] at hm
    · simp at hm
    simp only [except_bind_ok] at hm
    simp only [reapT, run] at h
    rcases h1 : run fuel (reapT S body) (pre a, fun _ => none) with e | y <;> rw [h1] at h <;> simp at h
    subst h
    rw [metaD_of_ok hp]
    exact hd.resow (ih hp _ _ _ .nil h1) hm
  | cond j sel pre br post ih =>
    intro m0 m1 hm a d r hd h
    simp only [metaOf] at hm
    rcases hp : metaOf S (br 0) [] with e | m <;> rw [hp] at hm
    · simp at hm
    simp only [except_bind_ok] at hm
    rcases hmq : (List.finRange (j + 1)).mapM (fun i => metaOf S (br i) []) with e | ms <;>
      rw [hmq] at hm
    · simp at hm
    simp only [except_bind_ok] at hm
    rcases hc : metaCond m ms with e | u <;> rw [hc] at hm
    · simp at hm
    simp only [except_bind_ok] at hm
    obtain ⟨mi, hmi, hbr⟩ := metaBranch_of_metaOf_cond hmq hc (sel a)
    have hbr' := metaBranch_ok (metaOf_nil_keys hmi) hbr
    simp only [reapT, run] at h
    rcases h1 : run fuel (reapT S (br (sel a))) (pre a, fun _ => none) with e | y <;>
      rw [h1] at h <;> simp at h
    subst h
    rw [metaD_of_ok hp]
    refine hd.resow ?_ hm
    intro n
    rw [ih _ hmi _ _ _ .nil h1 n]
    have := (hbr' n).1
    cases h1 : mi.get n <;> cases h2 : m.get n <;> simp_all
  | scan rev pre body post ih =>
    intro m0 m1 hm a d r hd h
    have hval := metaOf_valid (.scan rev pre body post) hm
    simp only [metaOf] at hm
    rcases hp : metaOf S body [] with e | m <;> rw [hp] at hm
    · simp at hm
    simp only [except_bind_ok] at hm
    rcases hms : metaScan m with e | u <;> rw [hms] at hm
    · simp at hm
    simp only [except_bind_ok] at hm
    simp only [reapT, run, metaD_of_ok hp] at h
    rcases h1 : scanDir rev _ ((pre a).1, carryInit (V := V) m) (pre a).2 with e | u <;>
      rw [h1] at h <;> simp at h
    subst h
    refine hd.resow (sameKeys_carry m (metaScan_ok hms) ?_ _ ?_ _) hm
    · intro n
      rw [metaOf_nil_get hp]
      exact hval n
    · refine scanDir_inv (fun k => ∀ n, (k.2 n).isSome = (carryInit (V := V) m n).isSome) ?_ rev _ _ _
        (fun n => rfl) h1
      intro kx r hk hr n
      simp only [except_bind_ok] at hr
      rcases h2 : run fuel (reapT S body) ((kx.1.1, kx.2), fun _ => none) with e | y <;>
        rw [h2] at hr <;> simp at hr
      subst hr
      rw [isSome_carryStep, hk n]
  | whileL pre test body post iht ihb =>
    intro m0 m1 hm a d r hd h
    have hval := metaOf_valid (.whileL pre test body post) hm
    simp only [metaOf] at hm
    rcases hp : metaOf S body [] with e | m <;> rw [hp] at hm
    · simp at hm
    simp only [except_bind_ok] at hm
    rcases hms : metaWhile m with e | u <;> rw [hms] at hm
    · simp at hm
    simp only [except_bind_ok] at hm
    simp only [reapT, run, metaD_of_ok hp] at h
    rcases h1 : loopM _ _ fuel (pre a, carryInit (V := V) m) with e | u <;>
      rw [h1] at h <;> simp at h
    subst h
    refine hd.resow (fun n => ?_) hm
    have hk := loopM_inv (fun k => ∀ n, (k.2 n).isSome = (carryInit (V := V) m n).isSome) (by
      intro k r hk hr n
      simp only [except_bind_ok] at hr
      rcases h2 : run fuel (reapT S body) ((k.1, fun _ => none)) with e | y <;>
        rw [h2] at hr <;> simp at hr
      subst hr
      rw [isSome_carryStep, hk n]) _ _ _ (fun n => rfl) h1 n
    rw [hk]
    have := metaWhile_ok hms n
    simp only [carryInit]
    cases hg : m.get n with
    | none => rfl
    | some mode => have := this mode hg; cases mode <;> simp_all [Mode.isClobber]

/-! ### Paths -/

theorem anySite_congr {S : Settings} {ss tt : List Site}
    (h : ∀ n, ((declares S n ss).isSome ↔ (declares S n tt).isSome)) : anySite S ss = anySite S tt := by
  rw [Bool.eq_iff_iff, anySite_iff, anySite_iff]
  exact ⟨fun ⟨x, hx⟩ => ⟨x, (h x).1 hx⟩, fun ⟨x, hx⟩ => ⟨x, (h x).2 hx⟩⟩

/-- In an accepted program all paths declare the same names. -/
theorem path_declares {V A B : Type} {S : Settings} (p : Prog V A B) :
    ∀ {m0 m1 : Meta}, metaOf S p m0 = .ok m1 → ∀ ss, Path p ss →
      ∀ n, (declares S n ss).isSome ↔ (declares S n (sites p)).isSome := by
  induction p with
  | pure f => intro m0 m1 hm ss hp n; simp only [Path] at hp; subst hp; rfl
  | seq p q ihp ihq =>
    intro m0 m1 hm ss hp n
    simp only [metaOf] at hm
    rcases hmp : metaOf S p m0 with e | m <;> rw [hmp] at hm
    · simp at hm
    obtain ⟨l, r, hl, hr, rfl⟩ := hp
    rw [sites, declares_append, declares_append, Option.isSome_or, Option.isSome_or]
    simp [ihp hmp l hl n, ihq hm r hr n]
  | sow tag name mode pre pred post =>
    intro m0 m1 hm ss hp n; simp only [Path] at hp; subst hp; rfl
  | nest scope pre body post ih =>
    intro m0 m1 hm ss hp n
    simp only [metaOf] at hm
    rcases hmp : metaOf S body [] with e | m <;> rw [hmp] at hm
    · simp at hm
    obtain ⟨l, hl, rfl⟩ := hp
    have := anySite_congr (ih hmp l hl)
    simp [sites, declares, Site.declares, this]
  | inline pre body post ih => intro m0 m1 hm ss hp n; exact ih hm ss hp n
  | call _ pre body post ih =>
    intro m0 m1 hm ss hp n
    simp only [metaOf] at hm
    rcases hmp : metaOf S body [] with e | m <;> rw [hmp] at hm
    · simp at hm
    exact ih hmp ss hp n
  | cond j sel pre br post ih =>
    intro m0 m1 hm ss hp n
    simp only [metaOf] at hm
    rcases hp0 : metaOf S (br 0) [] with e | m <;> rw [hp0] at hm
    · simp at hm
    simp only [except_bind_ok] at hm
    rcases hmq : (List.finRange (j + 1)).mapM (fun i => metaOf S (br i) []) with e | ms <;>
      rw [hmq] at hm
    · simp at hm
    simp only [except_bind_ok] at hm
    rcases hc : metaCond m ms with e | u <;> rw [hc] at hm
    · simp at hm
    obtain ⟨i, hp⟩ := hp
    obtain ⟨mi, hmi, hbr⟩ := metaBranch_of_metaOf_cond hmq hc i
    have hbr' := (metaBranch_ok (metaOf_nil_keys hmi) hbr n).1
    rw [metaOf_nil_get hmi, metaOf_nil_get hp0] at hbr'
    rw [ih i hmi ss hp n, hbr', sites]
  | scan rev pre body post ih =>
    intro m0 m1 hm ss hp n
    simp only [metaOf] at hm
    rcases hmp : metaOf S body [] with e | m <;> rw [hmp] at hm
    · simp at hm
    exact ih hmp ss hp n
  | whileL pre test body post iht ihb =>
    intro m0 m1 hm ss hp n
    simp only [metaOf] at hm
    rcases hmp : metaOf S body [] with e | m <;> rw [hmp] at hm
    · simp at hm
    exact ihb hmp ss hp n

theorem occurrences_eq_nil_iff {S : Settings} {n : String} {ss : List Site} :
    occurrences S n ss = [] ↔ declares S n ss = none := by
  rw [declares_eq_getLast?, List.getLast?_eq_none_iff]

theorem resow_fresh {m0 m1 inner : Meta} {n : String} {k : Mode} (hk : k.isClobber = false)
    (h : m0.resow inner = .ok m1) (hi : inner.get n = none ∨ inner.get n = some k)
    (hm : (m0.get n).isSome) : inner.get n = none := by
  obtain ⟨prev, hp⟩ := Option.isSome_iff_exists.1 hm
  rcases hi with hi | hi
  · exact hi
  · obtain ⟨-, h2, -⟩ := Meta.resow_ok h
    have := (h2 n k prev hi hp).1
    rw [hk] at this; simp at this

/-- For a name with a non-clobber mode, every path declares it at most once. -/
theorem path_once {V A B : Type} {S : Settings} {n : String} {k : Mode} (hk : k.isClobber = false)
    (p : Prog V A B) :
    OnlyMode S n k p → ∀ {m0 m1 : Meta}, metaOf S p m0 = .ok m1 → ∀ ss, Path p ss →
      (occurrences S n ss).length ≤ 1 ∧ ((m0.get n).isSome → occurrences S n ss = []) := by
  induction p with
  | pure f => intro ho m0 m1 hm ss hp; simp only [Path] at hp; subst hp; simp [occurrences]
  | seq p q ihp ihq =>
    intro ho m0 m1 hm ss hp
    simp only [metaOf] at hm
    rcases hmp : metaOf S p m0 with e | m <;> rw [hmp] at hm
    · simp at hm
    simp only [except_bind_ok] at hm
    obtain ⟨l, r, hl, hr, rfl⟩ := hp
    obtain ⟨a1, a2⟩ := ihp ho.1 hmp l hl
    obtain ⟨b1, b2⟩ := ihq ho.2 hm r hr
    have hg := (metaOf_get S p hmp).1 n
    rw [occurrences_append]
    constructor
    · by_cases he : occurrences S n l = []
      · simpa [he] using b1
      · have : (m.get n).isSome := by
          rw [hg, Option.isSome_or]
          rw [occurrences_eq_nil_iff, ← Option.not_isSome_iff_eq_none, not_not,
            path_declares p hmp l hl n] at he
          simp [he]
        simpa [b2 this] using a1
    · intro h0
      have : (m.get n).isSome := by rw [hg, Option.isSome_or]; simp [h0]
      simp [a2 h0, b2 this]
  | sow tag name mode pre pred post =>
    intro ho m0 m1 hm ss hp
    simp only [Path] at hp; subst hp
    rw [occurrences_singleton]
    simp only [OnlyMode] at ho
    simp only [metaOf] at hm
    split at hm
    · simp at hm
    by_cases hd : name = n ∧ S.active tag name = true
    · have hmode := ho hd.1 hd.2
      obtain ⟨rfl, hact⟩ := hd
      rw [dispatch_handle.2 hact] at hm
      simp only at hm
      refine ⟨by simp [Site.declares, hact], ?_⟩
      intro h0
      obtain ⟨prev, hp⟩ := Option.isSome_iff_exists.1 h0
      have := ((Meta.handle_ok hm).2 prev hp).1
      rw [hmode, hk] at this; simp at this
    · have : Site.declares S n (.sow tag name mode) = none := by simp [Site.declares, hd]
      simp [this]
  | nest scope pre body post ih =>
    intro ho m0 m1 hm ss hp
    simp only [metaOf] at hm
    rcases hmp : metaOf S body [] with e | m <;> rw [hmp] at hm
    · simp at hm
    simp only [except_bind_ok] at hm
    obtain ⟨l, hl, rfl⟩ := hp
    rw [occurrences_singleton]
    have hany := anySite_congr (path_declares body hmp l hl)
    by_cases hd : scope = n ∧ S.active S.tag scope = true ∧ anySite S l = true
    · have hne : m.isEmpty = false := by
        rw [← Bool.not_eq_true]
        intro h
        rw [Meta.isEmpty_iff] at h
        have : anySite S (sites body) = false := by
          rw [anySite_false_iff]; intro x; rw [← metaOf_nil_get hmp]; exact h x
        rw [← hany, hd.2.2] at this; simp at this
      simp only [hne, Bool.false_eq_true, if_false] at hm
      obtain ⟨rfl, hact, hs⟩ := hd
      rw [dispatch_handle.2 hact] at hm
      simp only at hm
      refine ⟨by simp [Site.declares, hact, hs], ?_⟩
      intro h0
      obtain ⟨prev, hp⟩ := Option.isSome_iff_exists.1 h0
      have := ((Meta.handle_ok hm).2 prev hp).1
      simp [Mode.isClobber] at this
    · have : Site.declares S n (.nest scope l) = none := by simp [Site.declares, hd]
      simp [this]
  | inline pre body post ih => intro ho m0 m1 hm ss hp; exact ih ho hm ss hp
  | call _ pre body post ih =>
    intro ho m0 m1 hm ss hp
    simp only [metaOf] at hm
    rcases hmp : metaOf S body [] with e | m <;> rw [hmp] at hm
    · simp at hm
    refine ⟨(ih ho hmp ss hp).1, fun h0 => ?_⟩
    have hd := path_declares body hmp ss hp n
    have := resow_fresh hk hm (by rw [metaOf_nil_get hmp]; exact OnlyMode.declares (p := body) ho) h0
    rw [metaOf_nil_get hmp] at this
    rw [occurrences_eq_nil_iff, ← Option.not_isSome_iff_eq_none, hd, this]; simp
  | cond j sel pre br post ih =>
    intro ho m0 m1 hm ss hp
    simp only [metaOf] at hm
    rcases hp0 : metaOf S (br 0) [] with e | m <;> rw [hp0] at hm
    · simp at hm
    simp only [except_bind_ok] at hm
    rcases hmq : (List.finRange (j + 1)).mapM (fun i => metaOf S (br i) []) with e | ms <;>
      rw [hmq] at hm
    · simp at hm
    simp only [except_bind_ok] at hm
    rcases hc : metaCond m ms with e | u <;> rw [hc] at hm
    · simp at hm
    obtain ⟨i, hp⟩ := hp
    obtain ⟨mi, hmi, hbr⟩ := metaBranch_of_metaOf_cond hmq hc i
    have hbr' := (metaBranch_ok (metaOf_nil_keys hmi) hbr n).1
    rw [metaOf_nil_get hmi, metaOf_nil_get hp0] at hbr'
    refine ⟨(ih i (ho i) hmi ss hp).1, fun h0 => ?_⟩
    have hd := path_declares (br i) hmi ss hp n
    have := resow_fresh hk hm
      (by rw [metaOf_nil_get hp0]; exact OnlyMode.declares (p := br 0) (ho 0)) h0
    rw [metaOf_nil_get hp0] at this
    rw [occurrences_eq_nil_iff, ← Option.not_isSome_iff_eq_none, hd, hbr', this]; simp
  | scan rev pre body post ih =>
    intro ho m0 m1 hm ss hp
    simp only [metaOf] at hm
    rcases hmp : metaOf S body [] with e | m <;> rw [hmp] at hm
    · simp at hm
    simp only [except_bind_ok] at hm
    rcases hms : metaScan m with e | u <;> rw [hms] at hm
    · simp at hm
    refine ⟨(ih ho hmp ss hp).1, fun h0 => ?_⟩
    have hd := path_declares body hmp ss hp n
    have := resow_fresh hk hm (by rw [metaOf_nil_get hmp]; exact OnlyMode.declares (p := body) ho) h0
    rw [metaOf_nil_get hmp] at this
    rw [occurrences_eq_nil_iff, ← Option.not_isSome_iff_eq_none, hd, this]; simp
  | whileL pre test body post iht ihb =>
    intro ho m0 m1 hm ss hp
    simp only [metaOf] at hm
    rcases hmp : metaOf S body [] with e | m <;> rw [hmp] at hm
    · simp at hm
    simp only [except_bind_ok] at hm
    rcases hms : metaWhile m with e | u <;> rw [hms] at hm
    · simp at hm
    refine ⟨(ihb ho hmp ss hp).1, fun h0 => ?_⟩
    have hd := path_declares body hmp ss hp n
    have := resow_fresh hk hm (by rw [metaOf_nil_get hmp]; exact OnlyMode.declares (p := body) ho) h0
    rw [metaOf_nil_get hmp] at this
    rw [occurrences_eq_nil_iff, ← Option.not_isSome_iff_eq_none, hd, this]; simp

/-- Without loops, a name with a non-clobber mode that is declared is sown exactly once. -/
theorem loopFree_once {V A B : Type} {S : Settings} {n : String} {k : Mode} (hk : k.isClobber = false)
    (fuel : Nat) (p : Prog V A B) :
    OnlyMode S n k p → LoopFree p → ∀ {m0 m1 : Meta}, metaOf S p m0 = .ok m1 →
    ∀ a r, trace fuel p a = .ok r →
      if (declares S n (sites p)).isSome then
        (m0.get n = none) ∧ ∃ v, executed S n r.2 = [v] ∧ collect S n r.2 = some v
      else executed S n r.2 = [] ∧ collect S n r.2 = none := by
  induction p with
  | pure f =>
    intro ho hl m0 m1 hm a r hr
    simp only [trace] at hr
    rcases hf : f a with e | b <;> rw [hf] at hr <;> simp at hr
    subst hr
    simp [sites, declares, executed, collect]
  | seq p q ihp ihq =>
    intro ho hl m0 m1 hm a r hr
    simp only [trace] at hr
    rcases h1 : trace fuel p a with e | r1 <;> rw [h1] at hr
    · simp at hr
    simp only [except_bind_ok] at hr
    rcases h2 : trace fuel q r1.1 with e | r2 <;> rw [h2] at hr
    · simp at hr
    simp only [except_bind_ok, except_pure, Except.ok.injEq] at hr
    subst hr
    simp only [metaOf] at hm
    rcases hmp : metaOf S p m0 with e | m <;> rw [hmp] at hm
    · simp at hm
    simp only [except_bind_ok] at hm
    have e1 := ihp ho.1 hl.1 hmp _ _ h1
    have e2 := ihq ho.2 hl.2 hm _ _ h2
    have hg := (metaOf_get S p hmp).1 n
    rw [sites, declares_append, Option.isSome_or, executed_append, collect_append]
    by_cases hdp : (declares S n (sites p)).isSome = true <;>
      by_cases hdq : (declares S n (sites q)).isSome = true
    · exfalso
      simp only [hdq, if_true] at e2
      rw [e2.1] at hg
      have := hg.symm
      rw [Option.or_eq_none_iff] at this
      rw [this.1] at hdp; simp at hdp
    · simp only [hdp, hdq, if_true, Bool.false_eq_true, if_false, Bool.or_true] at e1 e2 ⊢
      obtain ⟨h0, v, hv1, hv2⟩ := e1
      exact ⟨h0, v, by simp [hv1, e2.1], by simp [hv2, e2.2]⟩
    · simp only [hdp, hdq, if_true, Bool.false_eq_true, if_false, Bool.true_or] at e1 e2 ⊢
      obtain ⟨h0, v, hv1, hv2⟩ := e2
      refine ⟨?_, v, by simp [hv1, e1.1], by simp [hv2]⟩
      rw [h0] at hg
      exact (Option.or_eq_none_iff.1 hg.symm).2
    · simp only [hdp, hdq, Bool.false_eq_true, if_false, Bool.or_self] at e1 e2 ⊢
      simp [e1, e2]
  | sow tag name mode pre pred post =>
    intro ho hl m0 m1 hm a r hr
    simp only [trace, Except.ok.injEq] at hr
    subst hr
    simp only [OnlyMode] at ho
    simp only [metaOf] at hm
    split at hm
    · simp at hm
    by_cases hd : name = n ∧ S.active tag name = true
    · have hmode := ho hd.1 hd.2
      obtain ⟨rfl, hact⟩ := hd
      rw [dispatch_handle.2 hact] at hm
      simp only at hm
      have hnc : mode ≠ .condClobber := by intro h; rw [← hmode, h] at hk; simp [Mode.isClobber] at hk
      have h0 : m0.get name = none := by
        rw [← Option.not_isSome_iff_eq_none]
        intro h0
        obtain ⟨prev, hp⟩ := Option.isSome_iff_exists.1 h0
        have := ((Meta.handle_ok hm).2 prev hp).1
        rw [hmode, hk] at this; simp at this
      simp [sites, declares, Site.declares, hact, h0, executed, Ev.executed, collect, Ev.collect, hnc]
    · have hd' : ∀ P : Prop, ¬ (name = n ∧ S.active tag name = true ∧ P) := fun P h => hd ⟨h.1, h.2.1⟩
      simp [sites, declares, Site.declares, hd, executed, Ev.executed, collect, Ev.collect, hd']
  | nest scope pre body post ih =>
    intro ho hl m0 m1 hm a r hr
    simp only [trace] at hr
    rcases h1 : trace fuel body (pre a) with e | r1 <;> rw [h1] at hr <;> simp at hr
    subst hr
    simp only [metaOf] at hm
    rcases hmp : metaOf S body [] with e | m <;> rw [hmp] at hm
    · simp at hm
    simp only [except_bind_ok] at hm
    by_cases hd : scope = n ∧ S.active S.tag scope = true ∧ anySite S (sites body) = true
    · have hne : m.isEmpty = false := by
        rw [← Bool.not_eq_true]
        intro h
        rw [Meta.isEmpty_iff] at h
        have : anySite S (sites body) = false := by
          rw [anySite_false_iff]; intro x; rw [← metaOf_nil_get hmp]; exact h x
        rw [hd.2.2] at this; simp at this
      simp only [hne, Bool.false_eq_true, if_false] at hm
      obtain ⟨rfl, hact, hs⟩ := hd
      rw [dispatch_handle.2 hact] at hm
      simp only at hm
      have h0 : m0.get scope = none := by
        rw [← Option.not_isSome_iff_eq_none]
        intro h0
        obtain ⟨prev, hp⟩ := Option.isSome_iff_exists.1 h0
        have := ((Meta.handle_ok hm).2 prev hp).1
        simp [Mode.isClobber] at this
      simp [sites, declares, Site.declares, hact, hs, h0, executed, Ev.executed, collect, Ev.collect]
    · simp [sites, declares, Site.declares, executed, Ev.executed, collect, Ev.collect, hd]
  | inline pre body post ih =>
    intro ho hl m0 m1 hm a r hr
    simp only [trace] at hr
    rcases h1 : trace fuel body (pre a) with e | r1 <;> rw [h1] at hr <;> simp at hr
    subst hr
    exact ih ho hl hm _ _ h1
  | call _ pre body post ih =>
    intro ho hl m0 m1 hm a r hr
    simp only [trace] at hr
    simp only [metaOf] at hm
    rcases hmp : metaOf S body [] with e | m <;> rw [hmp] at hm
    · simp at hm
    rcases h1 : trace fuel body (pre a) with e | r1 <;> rw [h1] at hr <;> simp at hr
    subst hr
    have e1 := ih ho hl hmp _ _ h1
    have hf := resow_fresh (n := n) hk hm
      (by rw [metaOf_nil_get hmp]; exact OnlyMode.declares (p := body) ho)
    rw [metaOf_nil_get hmp] at hf
    rw [sites]
    by_cases hd : (declares S n (sites body)).isSome = true
    · simp only [hd, if_true] at e1 ⊢
      refine ⟨?_, e1.2⟩
      rw [← Option.not_isSome_iff_eq_none]
      intro h; rw [hf h] at hd; simp at hd
    · simp only [hd, Bool.false_eq_true, if_false] at e1 ⊢
      exact e1
  | cond j sel pre br post ih =>
    intro ho hl m0 m1 hm a r hr
    simp only [metaOf] at hm
    rcases hp0 : metaOf S (br 0) [] with e | m <;> rw [hp0] at hm
    · simp at hm
    simp only [except_bind_ok] at hm
    rcases hmq : (List.finRange (j + 1)).mapM (fun i => metaOf S (br i) []) with e | ms <;>
      rw [hmq] at hm
    · simp at hm
    simp only [except_bind_ok] at hm
    rcases hc : metaCond m ms with e | u <;> rw [hc] at hm
    · simp at hm
    simp only [except_bind_ok] at hm
    obtain ⟨mi, hmi, hbr⟩ := metaBranch_of_metaOf_cond hmq hc (sel a)
    have hbr' := (metaBranch_ok (metaOf_nil_keys hmi) hbr n).1
    rw [metaOf_nil_get hmi, metaOf_nil_get hp0] at hbr'
    simp only [trace] at hr
    rcases h1 : trace fuel (br (sel a)) (pre a) with e | r1 <;> rw [h1] at hr <;> simp at hr
    subst hr
    have e1 := ih _ (ho _) (hl _) hmi _ _ h1
    have hf := resow_fresh (n := n) hk hm
      (by rw [metaOf_nil_get hp0]; exact OnlyMode.declares (p := br 0) (ho 0))
    rw [metaOf_nil_get hp0] at hf
    rw [sites]
    by_cases hd : (declares S n (sites (br 0))).isSome = true
    · simp only [hbr'.2 hd, if_true] at e1
      simp only [hd, if_true]
      refine ⟨?_, e1.2⟩
      rw [← Option.not_isSome_iff_eq_none]
      intro h; rw [hf h] at hd; simp at hd
    · have hd2 : ¬ (declares S n (sites (br (sel a)))).isSome = true := fun h => hd (hbr'.1 h)
      simp only [hd, hd2, Bool.false_eq_true, if_false] at e1 ⊢
      exact e1
  | scan rev pre body post ih => intro ho hl; exact absurd hl id
  | whileL pre test body post iht ihb => intro ho hl; exact absurd hl id

end Verif.Harvest
