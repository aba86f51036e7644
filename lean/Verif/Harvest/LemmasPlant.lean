/- The planted program executes as the specification `ptrace` says. -/
import Verif.Harvest.SpecPlant
import Verif.Harvest.LemmasKeys

namespace Verif.Harvest

theorem subPlants_eq {V : Type} (P : Dict V) (s : String) : subPlants P s = inScope P s := rfl

/-- Two values that look the same while tracing. -/
inductive Shape {V : Type} : Option (Val V) → Option (Val V) → Prop
  | none : Shape none none
  | flat (a b : Val V) (ha : a.isDict = false) (hb : b.isDict = false) : Shape (some a) (some b)
  | dict (f g : String → Option (Val V)) (h : ∀ k, Shape (f k) (g k)) :
      Shape (some (.dict f)) (some (.dict g))

mutual
theorem Shape.refl {V : Type} : (v : Val V) → Shape (some v) (some v)
  | .leaf _ => .flat _ _ rfl rfl
  | .zeros => .flat _ _ rfl rfl
  | .stack _ => .flat _ _ rfl rfl
  | .dict f => .dict _ _ (fun k => Shape.reflO (f k))
theorem Shape.reflO {V : Type} : (o : Option (Val V)) → Shape o o
  | Option.none => Shape.none
  | some v => Shape.refl v
end

theorem Shape.isSome {V : Type} {a b : Option (Val V)} (h : Shape a b) : a.isSome = b.isSome := by
  cases h <;> rfl

theorem Shape.inScope {V : Type} {P Q : Dict V} {s : String} (h : Shape (P s) (Q s)) :
    ∀ k, Shape (inScope P s k) (inScope Q s k) := by
  intro k
  simp only [Harvest.inScope]
  generalize P s = a at h
  generalize Q s = b at h
  cases h with
  | none => exact .none
  | flat a b ha hb => cases a <;> cases b <;> simp_all [Val.isDict] <;> exact .none
  | dict f g h => exact h k

theorem Plain.inScope {V : Type} {P : Dict V} (h : Plain P) (s : String) : Plain (inScope P s) := by
  intro k
  have := h s
  simp only [Harvest.inScope]
  generalize P s = a at this
  cases this with
  | dict f h => exact h k
  | _ => exact .none

/-- All nested scopes among the sites are active. -/
def sitesScopes (S : Settings) : List Site → Prop
  | [] => True
  | .sow .. :: ss => sitesScopes S ss
  | .nest scope inner :: ss => S.active S.tag scope = true ∧ sitesScopes S inner ∧ sitesScopes S ss

theorem sitesScopes_append {S : Settings} {l r : List Site} :
    sitesScopes S (l ++ r) ↔ sitesScopes S l ∧ sitesScopes S r := by
  induction l with
  | nil => simp [sitesScopes]
  | cons s ss ih => cases s <;> simp [sitesScopes, ih, and_assoc]

theorem ScopesActive.sites {V A B : Type} {S : Settings} (p : Prog V A B) :
    ScopesActive S p → sitesScopes S (sites p) := by
  simp only [ScopesActive]
  induction p with
  | pure f => intro h; simp [Harvest.sites, sitesScopes]
  | seq p q ihp ihq => intro h; rw [Harvest.sites, sitesScopes_append]; exact ⟨ihp h.1, ihq h.2⟩
  | sow => intro h; simp [Harvest.sites, sitesScopes]
  | nest scope pre body post ih => intro h; simp only [Harvest.sites, sitesScopes, and_true]; exact ⟨h.1, ih h.2⟩
  | inline pre body post ih | call _ pre body post ih => intro h; exact ih h
  | cond k sel pre br post ih => intro h; exact ih 0 (h 0)
  | scan rev pre body post ih => intro h; exact ih h
  | whileL pre test body post iht ihb => intro h; exact ihb h.2

theorem keptSites_append {V : Type} {S : Settings} {P : Dict V} {l r : List Site} :
    keptSites S P (l ++ r) = keptSites S P l ++ keptSites S P r := by
  induction l with
  | nil => simp [keptSites]
  | cons s ss ih => simp [keptSites, ih]

theorem declares_cons_isSome {S : Settings} {n : String} {s : Site} {ss : List Site} :
    (declares S n (s :: ss)).isSome ↔ (declares S n ss).isSome ∨ (s.declares S n).isSome := by
  rw [declares, Option.isSome_or]; simp

/-- What remains depends only on the look of the plants for declared names. -/
theorem keptSites_congr {V : Type} {S : Settings} : ∀ (ss : List Site) (P Q : Dict V), sitesScopes S ss →
    (∀ k, (declares S k ss).isSome → Shape (P k) (Q k)) → keptSites S P ss = keptSites S Q ss
  | [], _, _, _, _ => rfl
  | .sow tag name mode :: ss, P, Q, hs, h => by
    simp only [sitesScopes] at hs
    have ih := keptSites_congr ss P Q hs (fun k hk => h k (declares_cons_isSome.2 (.inl hk)))
    simp only [keptSites, ih, Site.kept]
    by_cases ha : S.active tag name = true
    · have := (h name (declares_cons_isSome.2 (.inr (by simp [Site.declares, ha])))).isSome
      simp only [ha, if_true, this]
    · simp [ha]
  | .nest scope inner :: ss, P, Q, hs, h => by
    simp only [sitesScopes] at hs
    have ih := keptSites_congr ss P Q hs.2.2 (fun k hk => h k (declares_cons_isSome.2 (.inl hk)))
    have hin : keptSites S (inScope P scope) inner = keptSites S (inScope Q scope) inner := by
      apply keptSites_congr inner _ _ hs.2.1
      intro k hk
      have hany : anySite S inner = true := (anySite_iff S inner).2 ⟨k, hk⟩
      exact Shape.inScope (h scope (declares_cons_isSome.2 (.inr (by
        simp [Site.declares, hs.1, hany])))) k
    simp only [keptSites, ih, Site.kept, hin]

/-! ### Facts from acceptance -/

theorem dispatch_forward {S : Settings} {t n : String} :
    S.dispatch t n = .forward ↔ t ≠ S.tag ∧ S.exclusive = false := by
  unfold Settings.dispatch
  by_cases h1 : t = S.tag
  · simp only [h1, ne_eq, not_true_eq_false, if_false, false_and, iff_false]
    repeat' split
    all_goals simp
  · cases S.exclusive <;> simp [h1]

theorem plantCheck_cond {V A X Y C : Type} {S : Settings} {j : Nat} {sel : A → Fin (j+1)} {pre : A → X}
    {br : Fin (j+1) → Prog V X Y} {post : A → Y → C} {P : Dict V} {st st' : List String}
    (h : plantCheck S (.cond j sel pre br post) P st = .ok st') (i : Fin (j+1)) :
    (∃ st'', plantCheck S (br i) P [] = .ok st'') ∧
    ∃ m mi, metaOf S (br 0) [] = .ok m ∧ metaOf S (br i) [] = .ok mi ∧
    ∀ n, (declares S n (sites (br i))).isSome ↔ (declares S n (sites (br 0))).isSome := by
  simp only [plantCheck] at h
  rcases hp0 : metaOf S (br 0) [] with e | m <;> rw [hp0] at h
  · simp at h
  simp only [except_bind_ok] at h
  rcases hmq : (List.finRange (j + 1)).mapM (fun i => metaOf S (br i) []) with e | ms <;>
    rw [hmq] at h
  · simp at h
  simp only [except_bind_ok] at h
  rcases hc : metaCond m ms with e | u <;> rw [hc] at h
  · simp at h
  simp only [except_bind_ok] at h
  rcases hpq : (List.finRange (j + 1)).mapM (fun i => plantCheck S (br i) P []) with e | ps <;>
    rw [hpq] at h
  · simp at h
  obtain ⟨b, -, hb⟩ := mapM_ok_mem hpq i (by simp)
  obtain ⟨mi, hmi, hbr⟩ := metaBranch_of_metaOf_cond hmq hc i
  refine ⟨⟨b, hb⟩, m, mi, rfl, hmi, fun n => ?_⟩
  have hbr' := (metaBranch_ok (metaOf_nil_keys hmi) hbr n).1
  rwa [metaOf_nil_get hmi, metaOf_nil_get hp0] at hbr'

theorem plantCheck_scan {V A K X Y C : Type} {S : Settings} {rev : Bool} {pre : A → K × List X}
    {body : Prog V (K × X) (K × Y)} {post : A → K → List Y → C} {P : Dict V} {st st' : List String}
    (h : plantCheck S (.scan rev pre body post) P st = .ok st') :
    ∃ m st'', metaOf S body [] = .ok m ∧ plantCheck S body (scanPlants m P) [] = .ok st'' ∧
      (∀ n, declares S n (sites body) ≠ some .strict) := by
  simp only [plantCheck] at h
  rcases hmp : metaOf S body [] with e | m <;> rw [hmp] at h
  · simp at h
  simp only [except_bind_ok] at h
  split at h
  · simp at h
  · rename_i hf
    rcases hc : plantCheck S body (scanPlants m P) [] with e | s <;> rw [hc] at h
    · simp at h
    refine ⟨m, s, rfl, hc, fun n hn => ?_⟩
    rw [← metaOf_nil_get hmp] at hn
    rw [List.find?_eq_none] at hf
    exact hf _ (Meta.mem_of_get hn) (by simp)

theorem plantCheck_while {V A K C : Type} {S : Settings} {pre : A → K} {test : Prog V K Bool}
    {body : Prog V K K} {post : A → K → C} {P : Dict V} {st st' : List String}
    (h : plantCheck S (.whileL pre test body post) P st = .ok st') :
    ∃ m st'', metaOf S body [] = .ok m ∧ plantCheck S body P [] = .ok st'' := by
  simp only [plantCheck] at h
  rcases hmp : metaOf S body [] with e | m <;> rw [hmp] at h
  · simp at h
  simp only [except_bind_ok] at h
  rcases hms : metaWhile m with e | u <;> rw [hms] at h
  · simp at h
  simp only [except_bind_ok] at h
  rcases hc : plantCheck S body P [] with e | s <;> rw [hc] at h
  · simp at h
  exact ⟨m, s, rfl, rfl⟩

theorem plantCheck_call {V A X Y C : Type} {S : Settings} {kind : CallKind} {pre : A → X}
    {body : Prog V X Y} {post : A → Y → C} {P : Dict V} {st st' : List String}
    (h : plantCheck S (.call kind pre body post) P st = .ok st') :
    ∃ st1 st2, plantCheck S body P st1 = .ok st2 := by
  cases kind <;> simp only [plantCheck] at h
  case customJvp => exact ⟨_, _, h⟩
  all_goals
    rcases hmp : plantCheck S body P [] with e | m <;> rw [hmp] at h
    · simp at h
    exact ⟨_, _, hmp⟩

theorem plantCheck_nest {V A X Y C : Type} {S : Settings} {scope : String} {pre : A → X}
    {body : Prog V X Y} {post : A → Y → C} {P : Dict V} {st st' : List String}
    (h : plantCheck S (.nest scope pre body post) P st = .ok st') :
    ∃ st2, plantCheck S body (inScope P scope) [] = .ok st2 := by
  simp only [plantCheck, subPlants_eq] at h
  rcases hmp : plantCheck S body (inScope P scope) [] with e | m <;> rw [hmp] at h
  · simp at h
  exact ⟨_, rfl⟩

theorem plantCheck_seq {V A B C : Type} {S : Settings} {p : Prog V A B} {q : Prog V B C} {P : Dict V}
    {st st' : List String} (h : plantCheck S (.seq p q) P st = .ok st') :
    ∃ st1, plantCheck S p P st = .ok st1 ∧ plantCheck S q P st1 = .ok st' := by
  simp only [plantCheck] at h
  rcases hmp : plantCheck S p P st with e | m <;> rw [hmp] at h
  · simp at h
  exact ⟨m, rfl, h⟩

/-- The sites of a planted program. -/
theorem sites_plantT {V A B : Type} {S : Settings} (p : Prog V A B) : ∀ (P : Dict V) (st st' : List String),
    plantCheck S p P st = .ok st' → ScopesActive S p →
    sites (plantT S p P) = keptSites S P (sites p) := by
  simp only [ScopesActive]
  induction p with
  | pure f => intro P st st' h hs; simp [plantT, sites, keptSites]
  | seq p q ihp ihq =>
    intro P st st' h hs
    obtain ⟨st1, h1, h2⟩ := plantCheck_seq h
    simp only [plantT, sites, keptSites_append, ihp P _ _ h1 hs.1, ihq P _ _ h2 hs.2]
  | sow tag name mode pre pred post =>
    intro P st st' h hs
    simp only [plantT, sites, keptSites, Site.kept, List.append_nil]
    by_cases ha : S.active tag name = true
    · rw [dispatch_handle.2 ha]
      simp only [ha, if_true]
      split <;> simp [sites]
    · simp only [ha, Bool.false_eq_true, if_false]
      have hne := dispatch_ne_handle.2 (by simpa using ha : S.active tag name = false)
      cases hd : S.dispatch tag name with
      | handle => exact absurd hd hne
      | forward => rw [if_pos (dispatch_forward.1 hd)]; simp [sites]
      | drop =>
        have : ¬ (tag ≠ S.tag ∧ S.exclusive = false) := fun h => by
          rw [dispatch_forward.2 h] at hd; simp at hd
        rw [if_neg this]; simp [sites]
  | nest scope pre body post ih =>
    intro P st st' h hs
    obtain ⟨st2, h2⟩ := plantCheck_nest h
    simp only [plantT, sites, keptSites, Site.kept, List.append_nil, subPlants_eq, ih _ _ _ h2 hs.2]
  | inline pre body post ih => intro P st st' h hs; simp only [plantT, sites]; exact ih P _ _ h hs
  | call kind pre body post ih =>
    intro P st st' h hs
    obtain ⟨st1, st2, h2⟩ := plantCheck_call h
    simp only [plantT, sites]; exact ih P _ _ h2 hs
  | cond k sel pre br post ih =>
    intro P st st' h hs
    obtain ⟨⟨st2, h2⟩, -⟩ := plantCheck_cond h 0
    simp only [plantT, sites]; exact ih 0 P _ _ h2 (hs 0)
  | scan rev pre body post ih =>
    intro P st st' h hs
    obtain ⟨m, st2, hm, h2, -⟩ := plantCheck_scan h
    simp only [plantT, sites, List.nil_append, List.append_nil, metaD_of_ok hm, ih _ _ _ h2 hs]
    apply keptSites_congr _ _ _ (ScopesActive.sites body hs)
    intro k hk
    rw [← metaOf_nil_get hm] at hk
    simp only [scanPlants, hk, if_true]
    exact Shape.reflO _
  | whileL pre test body post iht ihb =>
    intro P st st' h hs
    obtain ⟨m, st2, hm, h2⟩ := plantCheck_while h
    simp only [plantT, sites]; exact ihb P _ _ h2 hs.2

/-! ### Plants depend only on declared names -/

theorem scanM_forall2 {K X X' Y : Type} (f : K × X → Except RErr (K × Y)) (g : K × X' → Except RErr (K × Y))
    (R : X → X' → Prop) (h : ∀ k x x', R x x' → f (k, x) = g (k, x')) :
    ∀ (xs : List X) (xs' : List X') (k : K), List.Forall₂ R xs xs' → scanM f k xs = scanM g k xs' := by
  intro xs xs' k hr
  induction hr generalizing k with
  | nil => rfl
  | cons hx _ ih =>
    simp only [scanM, h k _ _ hx]
    congr 1
    funext r
    rw [ih]

theorem scanDir_forall2 {K X X' Y : Type} (rev : Bool) (f : K × X → Except RErr (K × Y))
    (g : K × X' → Except RErr (K × Y))
    (R : X → X' → Prop) (h : ∀ k x x', R x x' → f (k, x) = g (k, x'))
    (xs : List X) (xs' : List X') (k : K) (hr : List.Forall₂ R xs xs') :
    scanDir rev f k xs = scanDir rev g k xs' := by
  cases rev
  · exact scanM_forall2 f g R h xs xs' k hr
  · simp only [scanDir, if_true]
    rw [scanM_forall2 f g R h _ _ k (List.rel_reverse hr)]

theorem ptrace_congr {V A B : Type} {S : Settings} (fuel : Nat) (p : Prog V A B) :
    ∀ (P0 : Dict V) (st st' : List String), plantCheck S p P0 st = .ok st' → ScopesActive S p →
    ∀ (P Q : Dict V), (∀ k, (declares S k (sites p)).isSome → P k = Q k) →
    ∀ a, ptrace S fuel p P a = ptrace S fuel p Q a := by
  simp only [ScopesActive]
  induction p with
  | pure f => intros; rfl
  | seq p q ihp ihq =>
    intro P0 st st' h hs P Q hpq a
    obtain ⟨st1, h1, h2⟩ := plantCheck_seq h
    simp only [ptrace]
    rw [ihp P0 _ _ h1 hs.1 P Q (fun k hk => hpq k (by
      rw [sites, declares_append, Option.isSome_or]; simp [hk]))]
    congr 1
    funext r
    rw [ihq P0 _ _ h2 hs.2 P Q (fun k hk => hpq k (by
      rw [sites, declares_append, Option.isSome_or]; simp [hk]))]
  | sow tag name mode pre pred post =>
    intro P0 st st' h hs P Q hpq a
    simp only [ptrace]
    by_cases ha : S.active tag name = true
    · rw [hpq name (by simp [sites, declares, Site.declares, ha])]
    · simp [ha]
  | nest scope pre body post ih =>
    intro P0 st st' h hs P Q hpq a
    obtain ⟨st2, h2⟩ := plantCheck_nest h
    have hin : ∀ k, (declares S k (sites body)).isSome → inScope P scope k = inScope Q scope k := by
      intro k hk
      have hany : anySite S (sites body) = true := (anySite_iff S _).2 ⟨k, hk⟩
      simp only [inScope]
      rw [hpq scope (by simp [sites, declares, Site.declares, hs.1, hany])]
    simp only [ptrace]
    rw [ih _ _ _ h2 hs.2 _ _ hin, keptSites_congr (sites body) (inScope P scope) (inScope Q scope)
      (ScopesActive.sites body hs.2) (fun k hk => by rw [hin k hk]; exact Shape.reflO _)]
  | inline pre body post ih =>
    intro P0 st st' h hs P Q hpq a
    simp only [ptrace]; rw [ih P0 _ _ h hs P Q hpq]
  | call kind pre body post ih =>
    intro P0 st st' h hs P Q hpq a
    obtain ⟨st1, st2, h2⟩ := plantCheck_call h
    simp only [ptrace]; rw [ih P0 _ _ h2 hs P Q hpq]
  | cond j sel pre br post ih =>
    intro P0 st st' h hs P Q hpq a
    obtain ⟨⟨st2, h2⟩, m, mi, -, -, hd⟩ := plantCheck_cond h (sel a)
    simp only [ptrace]
    rw [ih _ P0 _ _ h2 (hs _) P Q (fun k hk => hpq k ((hd k).1 hk))]
  | scan rev pre body post ih =>
    intro P0 st st' h hs P Q hpq a
    obtain ⟨m, st2, hm, h2, -⟩ := plantCheck_scan h
    simp only [ptrace]
    have he : entriesOk S (sites body) P (pre a).2.length ↔ entriesOk S (sites body) Q (pre a).2.length := by
      constructor <;> intro h n v hn hv
      · exact h n v hn (by rw [hpq n (by simp [sites, hn])]; exact hv)
      · exact h n v hn (by rw [← hpq n (by simp [sites, hn])]; exact hv)
    have hk : keptSites S P (sites body) = keptSites S Q (sites body) :=
      keptSites_congr _ _ _ (ScopesActive.sites body hs) (fun k hk => by rw [hpq k hk]; exact Shape.reflO _)
    by_cases hc : entriesOk S (sites body) P (pre a).2.length
    · rw [if_pos hc, if_pos (he.1 hc), hk]
      congr 1
      apply scanDir_forall2 rev _ _ (fun u v => u = v) _ _ _ _ (List.forall₂_same.2 (fun _ _ => rfl))
      rintro k x _ rfl
      simp only
      rw [ih _ _ _ h2 hs (iterPlant S (sites body) P x.2) (iterPlant S (sites body) Q x.2)]
      intro k hk
      simp only [iterPlant, hpq k hk]
    · rw [if_neg hc, if_neg (fun h => hc (he.2 h))]
  | whileL pre test body post iht ihb =>
    intro P0 st st' h hs P Q hpq a
    obtain ⟨m, st2, hm, h2⟩ := plantCheck_while h
    have hk : keptSites S P (sites body) = keptSites S Q (sites body) :=
      keptSites_congr _ _ _ (ScopesActive.sites body hs.2)
        (fun k hk => by rw [hpq k hk]; exact Shape.reflO _)
    simp only [ptrace]
    rw [hk]
    have : (fun k => ptrace S fuel body P k) = fun k => ptrace S fuel body Q k := by
      funext k; exact ihb P0 _ _ h2 hs.2 P Q hpq k
    rw [this]

/-! ### Per-iteration plants -/

theorem slices_eq {V : Type} (len : Nat) (v : Val V) (h : v.hasEntries len) :
    slices len v = .ok ((List.range len).map (fun i => (v.entry i).getD .zeros)) := by
  cases v with
  | stack vs =>
    simp only [Val.hasEntries] at h
    subst h
    simp only [slices, if_true, Val.entry, Except.ok.injEq]
    apply List.ext_getElem
    · simp
    · intro i h1 h2; simp [h1]
  | zeros => simp [slices, Val.entry, List.map_const']
  | leaf | dict => simp [Val.hasEntries] at h

theorem slices_err {V : Type} (len : Nat) (v : Val V) (h : ¬ v.hasEntries len) :
    slices len v = .error .shape := by
  cases v with
  | stack vs => simp only [Val.hasEntries] at h; simp [slices, h]
  | zeros => simp [Val.hasEntries] at h
  | leaf | dict => rfl

theorem entry_isSome {V : Type} {len i : Nat} {v : Val V} (h : v.hasEntries len) (hi : i < len) :
    ∃ w, v.entry i = some w := by
  cases v with
  | stack vs => simp only [Val.hasEntries] at h; subst h; exact ⟨vs[i], by simp [Val.entry]⟩
  | zeros => exact ⟨_, rfl⟩
  | leaf | dict => simp [Val.hasEntries] at h

open Classical in
theorem iterPlants_eq {V : Type} (base P : Dict V) (len : Nat) : ∀ (ns : List String),
    (∀ n ∈ ns, (P n).isSome) →
    iterPlants base P len ns = if ∀ n ∈ ns, ∀ v, P n = some v → v.hasEntries len then
      .ok ((List.range len).map (fun i k => if k ∈ ns then (P k).bind (Val.entry i) else base k))
      else .error .shape
  | [], _ => by
    simp [iterPlants, List.map_const']
  | n :: ns, hsome => by
    have ih := iterPlants_eq base P len ns (fun k hk => hsome k (by simp [hk]))
    obtain ⟨v, hv⟩ := Option.isSome_iff_exists.1 (hsome n (by simp))
    simp only [iterPlants, ih]
    by_cases h1 : ∀ n ∈ ns, ∀ v, P n = some v → v.hasEntries len
    · rw [if_pos h1]
      simp only [except_bind_ok, hv]
      by_cases h2 : v.hasEntries len
      · have h3 : ∀ k ∈ n :: ns, ∀ v, P k = some v → v.hasEntries len := by
          intro k hk w hw
          rcases List.mem_cons.1 hk with rfl | hk
          · rw [hv] at hw; simp at hw; subst hw; exact h2
          · exact h1 k hk w hw
        rw [if_pos h3, slices_eq len v h2]
        simp only [except_bind_ok, except_pure, Except.ok.injEq]
        rw [List.zipWith_map, List.zipWith_self]
        apply List.map_congr_left
        intro i hi
        funext k
        by_cases hk : k = n
        · subst hk
          obtain ⟨w, hw⟩ := entry_isSome h2 (List.mem_range.1 hi)
          simp [hv, hw]
        · simp [hk]
      · have h3 : ¬ ∀ k ∈ n :: ns, ∀ v, P k = some v → v.hasEntries len := fun h => h2 (h n (by simp) v hv)
        rw [if_neg h3, slices_err len v h2]; rfl
    · have h3 : ¬ ∀ k ∈ n :: ns, ∀ v, P k = some v → v.hasEntries len :=
        fun h => h1 (fun k hk => h k (by simp [hk]))
      rw [if_neg h1, if_neg h3]; rfl

theorem mem_appendNames {V : Type} {m : Meta} (hk : m.Keys) {P : Dict V} {n : String} :
    n ∈ appendNames m P ↔ m.get n = some .append ∧ (P n).isSome := by
  simp only [appendNames, List.mem_map, List.mem_filter, Bool.and_eq_true, beq_iff_eq, Prod.exists]
  constructor
  · rintro ⟨a, b, ⟨h1, rfl, h2⟩, rfl⟩
    exact ⟨Meta.get_of_mem hk h1, h2⟩
  · rintro ⟨h1, h2⟩
    exact ⟨n, _, ⟨Meta.mem_of_get h1, rfl, h2⟩, rfl⟩

/-- The plants of iteration `i` as the code builds them. -/
def codeIter {V : Type} (m : Meta) (P : Dict V) (i : Nat) : Dict V :=
  fun k => if m.get k = some .append ∧ (P k).isSome then (P k).bind (Val.entry i) else clobberPlants m P k

open Classical in
theorem allIterPlants_eq {V : Type} {S : Settings} {ss : List Site} {m : Meta} (hk : m.Keys)
    (hm : ∀ n, m.get n = declares S n ss) (P : Dict V) (len : Nat) :
    allIterPlants m P len = if entriesOk S ss P len then .ok ((List.range len).map (codeIter m P))
      else .error .shape := by
  have h1 : (∀ n ∈ appendNames m P, ∀ v, P n = some v → v.hasEntries len) ↔ entriesOk S ss P len := by
    constructor
    · intro h n v hn hv
      exact h n ((mem_appendNames hk).2 ⟨by rw [hm]; exact hn, by simp [hv]⟩) v hv
    · intro h n hn v hv
      rw [mem_appendNames hk, hm] at hn
      exact h n v hn.1 hv
  simp only [allIterPlants]
  rw [iterPlants_eq _ _ _ _ (fun n hn => ((mem_appendNames hk).1 hn).2)]
  simp only [h1]
  congr 2
  apply List.map_congr_left
  intro i hi
  funext k
  simp only [codeIter, mem_appendNames hk]

theorem zip_range_zipIdx {α β : Type} (xs : List α) (f : Nat → β) :
    List.Forall₂ (fun u v => u = (v.1, f v.2) ∧ v.2 < xs.length)
      (xs.zip ((List.range xs.length).map f)) xs.zipIdx := by
  rw [List.forall₂_iff_get]
  constructor
  · simp
  · intro i h1 h2
    simp at h1 h2
    simp [h2]

theorem loopT_conj {V K C : Type} (c : K → Except RErr (Bool × Log V)) (b : K → Except RErr (K × Log V))
    (d : C) (c' : K × C → Except RErr (Bool × Log V)) (b' : K × C → Except RErr ((K × C) × Log V))
    (hc : ∀ k, c' (k, d) = c k) (hb : ∀ k, b' (k, d) = (b k).map (fun s => ((s.1, d), s.2)))
    (n : Nat) (k : K) :
    loopT c' b' n (k, d) = (loopT c b n k).map (fun s => ((s.1, d), s.2)) := by
  induction n generalizing k with
  | zero => rfl
  | succ n ih =>
    simp only [loopT, hc, hb]
    rcases c k with e | ⟨t, lt⟩
    · rfl
    · cases t
      · rfl
      · simp only [except_bind_ok, if_true]
        rcases b k with e | r
        · rfl
        · simp only [except_map_ok, except_bind_ok, ih]
          rcases loopT c b n r.1 with e | s <;> rfl

theorem Plain.codeIter {V : Type} {P : Dict V} (h : Plain P) (m : Meta) (i : Nat) :
    Plain (codeIter m P i) := by
  intro k
  simp only [Harvest.codeIter]
  have hk := h k
  split
  · generalize P k = o at hk
    cases hk with
    | none => exact .none
    | leaf | dict => exact .none
    | zeros => exact .zeros
    | stack vs hd hv =>
      simp only [Option.bind_some, Val.entry]
      cases hg : vs[i]? with
      | none => exact .none
      | some w =>
        exact hv w (List.mem_of_getElem? hg)
  · simp only [clobberPlants]
    split
    · split
      · exact hk
      · exact .none
    · exact .none

theorem shape_codeIter {V : Type} {S : Settings} {ss : List Site} {m : Meta} {P0 P : Dict V} {len i : Nat}
    (hm : ∀ n, m.get n = declares S n ss) (hstrict : ∀ n, declares S n ss ≠ some .strict)
    (hinv : ∀ n, declares S n ss ≠ some .invalid)
    (hP : Plain P) (hsh : ∀ k, Shape (P0 k) (P k)) (he : entriesOk S ss P len) (hi : i < len) :
    ∀ k, Shape (scanPlants m P0 k) (codeIter m P i k) := by
  intro k
  have h1 := hsh k
  have h2 := hP k
  simp only [scanPlants, codeIter, clobberPlants]
  have hs := hstrict k
  have hv := hinv k
  have hen := he k
  rw [← hm] at hs hv hen
  cases hg : m.get k with
  | none => simpa using Shape.none
  | some mode =>
    rw [hg] at hs hv hen
    cases mode with
    | strict => exact absurd rfl hs
    | invalid => exact absurd rfl hv
    | clobber => simpa [Mode.isClobber] using h1
    | condClobber => simpa [Mode.isClobber] using h1
    | append =>
      simp only [Option.isSome_some, if_true, true_and]
      generalize P0 k = o0 at h1
      generalize P k = o at h1 h2 hen
      cases o with
      | none => cases h1; simpa [Mode.isClobber] using Shape.none
      | some v =>
        simp only [Option.isSome_some, if_true, Option.bind_some]
        have hent := hen v rfl rfl
        obtain ⟨w, hw⟩ := entry_isSome hent hi
        have hwd : w.isDict = false := by
          cases h2 with
          | leaf | dict => simp [Val.hasEntries] at hent
          | zeros => simp [Val.entry] at hw; subst hw; rfl
          | stack vs hd _ =>
            simp only [Val.entry] at hw
            exact hd w (List.mem_of_getElem? hw)
        rw [hw]
        cases h1 with
        | flat a b ha hb => exact .flat _ _ ha hwd
        | dict f g h => simp [Val.hasEntries] at hent

theorem codeIter_declared {V : Type} {S : Settings} {ss : List Site} {m : Meta} {P : Dict V} {i : Nat}
    (hm : ∀ n, m.get n = declares S n ss) (hstrict : ∀ n, declares S n ss ≠ some .strict)
    (hinv : ∀ n, declares S n ss ≠ some .invalid) :
    ∀ k, (declares S k ss).isSome → codeIter m P i k = iterPlant S ss P i k := by
  intro k hk
  simp only [codeIter, iterPlant, clobberPlants, hm]
  have hs := hstrict k
  have hv := hinv k
  cases hg : declares S k ss with
  | none => rw [hg] at hk; simp at hk
  | some mode =>
    rw [hg] at hs hv
    cases mode with
    | strict => exact absurd rfl hs
    | invalid => exact absurd rfl hv
    | clobber => simp [Mode.isClobber]
    | condClobber => simp [Mode.isClobber]
    | append => cases P k <;> simp [Mode.isClobber]

/-- The planted program executes as the specification says. -/
theorem trace_plantT {V A B : Type} {S : Settings} (fuel : Nat) (p : Prog V A B) :
    ∀ (P0 : Dict V) (st st' : List String), plantCheck S p P0 st = .ok st' → ScopesActive S p →
    ∀ (P : Dict V), Plain P → (∀ k, Shape (P0 k) (P k)) →
    ∀ a, trace fuel (plantT S p P0) (a, P) = (ptrace S fuel p P a).map (fun r => ((r.1, P), r.2)) := by
  simp only [ScopesActive]
  induction p with
  | pure f =>
    intro P0 st st' h hs P hP hsh a
    simp only [plantT, trace, ptrace]
    rcases f a with e | b <;> rfl
  | seq p q ihp ihq =>
    intro P0 st st' h hs P hP hsh a
    obtain ⟨st1, h1, h2⟩ := plantCheck_seq h
    simp only [plantT, trace, ptrace, ihp P0 _ _ h1 hs.1 P hP hsh]
    rcases ptrace S fuel p P a with e | r
    · rfl
    · simp only [except_map_ok, except_bind_ok, ihq P0 _ _ h2 hs.2 P hP hsh]
      rcases ptrace S fuel q P r.1 with e | s <;> rfl
  | sow tag name mode pre pred post =>
    intro P0 st st' h hs P hP hsh a
    simp only [plantT, ptrace]
    have hsome := (hsh name).isSome
    by_cases ha : S.active tag name = true
    · rw [dispatch_handle.2 ha]
      simp only [ha, if_true, hsome]
      cases hv : P name with
      | none => simp [trace]
      | some v => simp [trace, hv]
    · simp only [ha, Bool.false_eq_true, if_false]
      have hne := dispatch_ne_handle.2 (by simpa using ha : S.active tag name = false)
      cases hd : S.dispatch tag name with
      | handle => exact absurd hd hne
      | forward => rw [if_pos (dispatch_forward.1 hd)]; simp [trace]
      | drop =>
        have : ¬ (tag ≠ S.tag ∧ S.exclusive = false) := fun h => by
          rw [dispatch_forward.2 h] at hd; simp at hd
        rw [if_neg this]; simp [trace]
  | nest scope pre body post ih =>
    intro P0 st st' h hs P hP hsh a
    obtain ⟨st2, h2⟩ := plantCheck_nest h
    have hsh' := Shape.inScope (hsh scope)
    simp only [plantT, trace, ptrace, subPlants_eq, sites_plantT body _ _ _ h2 hs.2]
    rw [ih _ _ _ h2 hs.2 _ (hP.inScope scope) hsh',
      keptSites_congr (sites body) (inScope P0 scope) (inScope P scope) (ScopesActive.sites body hs.2)
        (fun k _ => hsh' k)]
    rcases ptrace S fuel body (inScope P scope) (pre a) with e | r <;> rfl
  | inline pre body post ih =>
    intro P0 st st' h hs P hP hsh a
    simp only [plantT, trace, ptrace, ih P0 _ _ h hs P hP hsh]
    rcases ptrace S fuel body P (pre a) with e | r <;> rfl
  | call kind pre body post ih =>
    intro P0 st st' h hs P hP hsh a
    obtain ⟨st1, st2, h2⟩ := plantCheck_call h
    simp only [plantT, trace, ptrace, ih P0 _ _ h2 hs P hP hsh]
    rcases ptrace S fuel body P (pre a) with e | r <;> rfl
  | cond j sel pre br post ih =>
    intro P0 st st' h hs P hP hsh a
    obtain ⟨⟨st2, h2⟩, -⟩ := plantCheck_cond h (sel a)
    simp only [plantT, trace, ptrace, ih _ P0 _ _ h2 (hs _) P hP hsh]
    rcases ptrace S fuel (br (sel a)) P (pre a) with e | r <;> rfl
  | scan rev pre body post ih =>
    intro P0 st st' h hs P hP hsh a
    have hsites := sites_plantT (.scan rev pre body post) _ _ _ h hs
    obtain ⟨m, st2, hm, h2, hstrict⟩ := plantCheck_scan h
    have hinv := metaOf_valid body hm
    simp only [plantT, sites, List.nil_append, List.append_nil, metaD_of_ok hm] at hsites
    have hkept : keptSites S P0 (sites body) = keptSites S P (sites body) :=
      keptSites_congr _ _ _ (ScopesActive.sites body hs) (fun k _ => hsh k)
    simp only [plantT, trace, ptrace, metaD_of_ok hm, sites, List.nil_append, List.append_nil, hsites, hkept]
    rw [allIterPlants_eq (metaOf_nil_keys hm) (metaOf_nil_get hm)]
    by_cases he : entriesOk S (sites body) P (pre a).2.length
    · rw [if_pos he, if_pos he]
      simp only [except_bind_ok, except_pure, except_map_ok]
      rw [scanDir_forall2 rev _ (fun kx : _ × _ × Nat =>
          (ptrace S fuel body (iterPlant S (sites body) P kx.2.2) (kx.1, kx.2.1)).map
            (fun r => (r.1.1, (r.1.2, r.2)))) _ _ _ _ _
          (zip_range_zipIdx (pre a).2 (codeIter m P))]
      · rcases scanDir rev _ (pre a).1 (pre a).2.zipIdx with e | r <;> rfl
      · rintro k x x' ⟨rfl, hlt⟩
        simp only
        rw [ih _ _ _ h2 hs _ (hP.codeIter m _)
          (shape_codeIter (metaOf_nil_get hm) hstrict hinv hP hsh he hlt),
          ptrace_congr fuel body _ _ _ h2 hs _ _ (codeIter_declared (metaOf_nil_get hm) hstrict hinv)]
        rcases ptrace S fuel body (iterPlant S (sites body) P x'.2) (k, x'.1) with e | r <;> simp
    · rw [if_neg he, if_neg he]; rfl
  | whileL pre test body post iht ihb =>
    intro P0 st st' h hs P hP hsh a
    obtain ⟨m, st2, hm, h2⟩ := plantCheck_while h
    have hkept : keptSites S P0 (sites body) = keptSites S P (sites body) :=
      keptSites_congr _ _ _ (ScopesActive.sites body hs.2) (fun k _ => hsh k)
    simp only [plantT, trace, ptrace, sites_plantT body _ _ _ h2 hs.2, hkept]
    rw [loopT_conj (fun k => trace fuel test k) (fun k => ptrace S fuel body P k)]
    · rcases loopT _ _ fuel (pre a) with e | r <;> rfl
    · intro k
      simp only [except_map_ok, except_bind_ok]
      rcases trace fuel test k with e | r <;> simp
    · intro k
      exact ihb P0 _ _ h2 hs.2 P hP hsh k

end Verif.Harvest
