/-
C13 with nested scopes: reaping with an allowlist or a blocklist gives the dictionary of the reap without the lists, with the
filtered names removed at every depth.
-/
import Verif.Harvest.PropsNest

namespace Verif.Harvest

/-! ### Specification -/

/-- The first value (or its absence) is the second one without the filtered names: the same value, or the dictionaries of a
nested scope whose other names are related.  A scope of which nothing is left may be absent. -/
inductive Pruned {V : Type} (S : Settings) : Option (Val V) → Option (Val V) → Prop
  | refl (o) : Pruned S o o
  | dict (d d') (hf : ∀ n, S.filtered n → d n = none) (h : ∀ n, ¬ S.filtered n → Pruned S (d n) (d' n)) :
    Pruned S (some (.dict d)) (some (.dict d'))
  | gone (d') (h : ∀ n, ¬ S.filtered n → Pruned S none (d' n)) : Pruned S none (some (.dict d'))
  | stack (vs vs') (hl : vs.length = vs'.length)
    (h : ∀ i (h1 : i < vs.length) (h2 : i < vs'.length), Pruned S (some vs[i]) (some vs'[i])) :
    Pruned S (some (.stack vs)) (some (.stack vs'))

/-- The number stored under a path of scopes and a final name. -/
def leafAt {V : Type} : Dict V → List String → Option V
  | _, [] => none
  | D, [n] => match D n with
    | some (.leaf v) => some v
    | _ => none
  | D, s :: m :: p => match D s with
    | some (.dict d) => leafAt d (m :: p)
    | _ => none

/-- The two dictionaries of plants have the same values for the sows of the program whose names are not filtered, looked up
in the scopes that the sows are in. -/
def AgreeOn {V : Type} (S : Settings) : {A B : Type} → Prog V A B → Dict V → Dict V → Prop
  | _, _, .pure _, _, _ => True
  | _, _, .seq p q, P, Q => AgreeOn S p P Q ∧ AgreeOn S q P Q
  | _, _, .sow tag name _ _ _ _, P, Q => tag = S.tag → ¬ S.filtered name → P name = Q name
  | _, _, .nest scope _ body _, P, Q => AgreeOn S body (inScope P scope) (inScope Q scope)
  | _, _, .inline _ body _, P, Q => AgreeOn S body P Q
  | _, _, .call _ _ body _, P, Q => AgreeOn S body P Q
  | _, _, .cond _ _ _ br _, P, Q => ∀ i, AgreeOn S (br i) P Q
  | _, _, .scan _ _ body _, P, Q => AgreeOn S body P Q
  | _, _, .whileL _ _ body _, P, Q => AgreeOn S body P Q

/-! ### Lemmas -/

/-- Both absent, or both present and related. -/
def Both {V : Type} (S : Settings) (o o' : Option (Val V)) : Prop :=
  (o = none ∧ o' = none) ∨ ∃ v v', o = some v ∧ o' = some v' ∧ Pruned S (some v) (some v')

theorem Both.refl {V : Type} (S : Settings) (o : Option (Val V)) : Both S o o := by
  cases o with
  | none => exact .inl ⟨rfl, rfl⟩
  | some v => exact .inr ⟨v, v, rfl, rfl, .refl _⟩

theorem Both.getD {V : Type} {S : Settings} {o o' : Option (Val V)} (h : Both S o o') :
    Pruned S (some (o.getD .zeros)) (some (o'.getD .zeros)) := by
  rcases h with ⟨rfl, rfl⟩ | ⟨v, v', rfl, rfl, h⟩
  · exact .refl _
  · exact h

theorem Both.or {V : Type} {S : Settings} {o o' p p' : Option (Val V)} (h : Both S o o') (h' : Both S p p') :
    Both S (o.or p) (o'.or p') := by
  rcases h with ⟨rfl, rfl⟩ | ⟨v, v', rfl, rfl, h⟩
  · simpa using h'
  · exact .inr ⟨v, v', rfl, rfl, h⟩

theorem Both.lastSome {V : Type} {S : Settings} : ∀ {os os' : List (Option (Val V))}, List.Forall₂ (Both S) os os' →
    Both S (lastSome os) (lastSome os')
  | _, _, .nil => .inl ⟨rfl, rfl⟩
  | _, _, .cons h hs => (Both.lastSome hs).or h

theorem Both.execOrder {V : Type} {S : Settings} (rev : Bool) {os os' : List (Option (Val V))}
    (h : List.Forall₂ (Both S) os os') : List.Forall₂ (Both S) (execOrder rev os) (execOrder rev os') := by
  cases rev
  · exact h
  · exact forall₂_reverse h

theorem active_unf {S : Settings} {tag n : String} (h : S.active tag n = true) : S.unfiltered.active tag n = true := by
  simp only [Settings.active, Bool.and_eq_true] at h
  simp [Settings.active, Settings.unfiltered, beq_iff_eq.1 h.1.1]

mutual
theorem Site.any_unf {S : Settings} : ∀ (s : Site), s.any S = true → s.any S.unfiltered = true
  | .sow tag name mode, h => active_unf h
  | .nest scope inner, h => by
    simp only [Site.any, Bool.and_eq_true] at h ⊢
    exact ⟨active_unf (tag := S.tag) h.1, anySite_unf inner h.2⟩
theorem anySite_unf {S : Settings} : ∀ (ss : List Site), anySite S ss = true → anySite S.unfiltered ss = true
  | [], h => h
  | s :: ss, h => by
    simp only [anySite, Bool.or_eq_true] at h ⊢
    exact h.imp (Site.any_unf s) (anySite_unf ss)
end

theorem Site.declares_unf {S : Settings} {n : String} {s : Site} (h : (s.declares S n).isSome) :
    (s.declares S.unfiltered n).isSome := by
  cases s with
  | sow tag name mode =>
    simp only [Site.declares] at h ⊢
    split at h
    · rename_i hh; rw [if_pos ⟨hh.1, active_unf hh.2⟩]; rfl
    · simp at h
  | nest scope inner =>
    simp only [Site.declares] at h ⊢
    split at h
    · rename_i hh; rw [if_pos ⟨hh.1, active_unf (tag := S.tag) hh.2.1, anySite_unf _ hh.2.2⟩]; rfl
    · simp at h

theorem declares_unf {S : Settings} {n : String} : ∀ {ss : List Site}, (declares S n ss).isSome →
    (declares S.unfiltered n ss).isSome
  | [], h => h
  | s :: ss, h => by
    simp only [declares, Option.isSome_or, Bool.or_eq_true] at h ⊢
    exact h.imp declares_unf Site.declares_unf

theorem declares_of_unfiltered {S : Settings} {n : String} (hn : ¬ S.filtered n) : ∀ {ss : List Site} {k : Mode},
    declares S.unfiltered n ss = some k → k ≠ .strict → declares S n ss = some k
  | [], _, h, _ => by simp [declares] at h
  | s :: ss, k, h, hk => by
    simp only [declares] at h ⊢
    cases hd : declares S.unfiltered n ss with
    | some k' =>
      rw [hd] at h
      simp only [Option.some_or, Option.some.injEq] at h
      subst h
      rw [declares_of_unfiltered hn hd hk]; rfl
    | none =>
      rw [hd] at h
      simp only [Option.none_or] at h
      have hs : s.declares S n = some k := by
        cases s with
        | sow tag name mode =>
          simp only [Site.declares] at h ⊢
          by_cases hh : name = n
          · subst hh; rw [active_unfiltered hn]; exact h
          · simp [hh] at h
        | nest scope inner =>
          simp only [Site.declares] at h
          split at h
          · simp at h; exact absurd h.symm hk
          · simp at h
      have h0 : declares S n ss = none := by
        rw [← Option.not_isSome_iff_eq_none]
        intro h1
        have := declares_unf h1
        rw [hd] at this; simp at this
      rw [h0, hs]; rfl

theorem Quiet.unf {V A B : Type} {S : Settings} (p : Prog V A B) (h : Quiet S.unfiltered p) : Quiet S p := by
  have key : ∀ tag name, S.unfiltered.active tag name = false → S.active tag name = false := by
    intro tag name h
    rw [Bool.eq_false_iff] at h ⊢
    exact fun h' => h (active_unf h')
  simp only [Quiet] at h ⊢
  induction p with
  | pure f => trivial
  | seq p q ihp ihq => exact ⟨ihp h.1, ihq h.2⟩
  | sow tag name mode pre pred post => exact key _ _ h
  | nest scope pre body post ih => exact ⟨trivial, ih h.2⟩
  | inline pre body post ih => exact ih h
  | call _ pre body post ih => exact ih h
  | cond j sel pre br post ih => exact fun i => ih i (h i)
  | scan rev pre body post ih => exact ih h
  | whileL pre test body post iht ihb => exact ⟨fun _ => iht (h.1 rfl), ihb h.2⟩

theorem Regular.unf {V A B : Type} {S : Settings} (p : Prog V A B) : ∀ {c : String → Bool},
    Regular S.unfiltered c p → Regular S c p := by
  induction p with
  | pure f => intro c h; trivial
  | seq p q ihp ihq => intro c h; exact ⟨ihp h.1, ihq h.2⟩
  | sow tag name mode pre pred post => intro c h ha; exact h (active_unf ha)
  | nest scope pre body post ih => intro c h; exact ⟨ih h.1, h.2⟩
  | inline pre body post ih => intro c h; exact ih h
  | call _ pre body post ih => intro c h; exact ih h
  | cond j sel pre br post ih => intro c h i; exact ih i (h i)
  | scan rev pre body post ih =>
    intro c h
    exact ⟨ih h.1, h.2.imp (fun h n hn => h n (declares_unf hn)) (fun h n hn => h n (declares_unf hn))⟩
  | whileL pre test body post iht ihb => intro c h; exact ⟨ihb h.1, Quiet.unf _ h.2⟩

theorem loopT_mem {V K : Type} {c : K → Except RErr (Bool × Log V)} {b : K → Except RErr (K × Log V)} :
    ∀ (n : Nat) (k : K) (r : K × List (Log V) × Log V), loopT c b n k = .ok r →
    ∀ l ∈ r.2.1, ∃ k k', b k = .ok (k', l) := by
  intro n
  induction n with
  | zero => intro k r h; simp [loopT] at h
  | succ n ih =>
    intro k r h
    simp only [loopT] at h
    rcases hck : c k with e | ⟨t, lt⟩ <;> rw [hck] at h
    · simp at h
    cases t
    · simp only [except_bind_ok, Bool.false_eq_true, if_false, except_pure, Except.ok.injEq] at h
      subst h
      intro l hl; simp at hl
    · simp only [except_bind_ok, if_true] at h
      rcases h1 : b k with e | s <;> rw [h1] at h
      · simp at h
      simp only [except_bind_ok] at h
      rcases h2 : loopT c b n s.1 with e | u <;> rw [h2] at h
      · simp at h
      simp only [except_bind_ok, except_pure, Except.ok.injEq] at h
      subst h
      intro l hl
      rcases List.mem_cons.1 hl with rfl | hl
      · exact ⟨k, s.1, h1⟩
      · exact ih _ _ h2 l hl

theorem loopT_tests {V K : Type} {S : Settings} {n : String} {c : K → Except RErr (Bool × Log V)}
    {b : K → Except RErr (K × Log V)} (hc : ∀ k r, c k = .ok r → collect S n r.2 = none) :
    ∀ (i : Nat) (k : K) (r : K × List (Log V) × Log V), loopT c b i k = .ok r → collect S n r.2.2 = none := by
  intro i
  induction i with
  | zero => intro k r h; simp [loopT] at h
  | succ i ih =>
    intro k r h
    simp only [loopT] at h
    rcases hck : c k with e | ⟨t, lt⟩ <;> rw [hck] at h
    · simp at h
    have h0 := hc k _ hck
    cases t
    · simp only [except_bind_ok, Bool.false_eq_true, if_false, except_pure, Except.ok.injEq] at h
      subst h
      exact h0
    · simp only [except_bind_ok, if_true] at h
      rcases h1 : b k with e | s <;> rw [h1] at h
      · simp at h
      simp only [except_bind_ok] at h
      rcases h2 : loopT c b i s.1 with e | u <;> rw [h2] at h
      · simp at h
      simp only [except_bind_ok, except_pure, Except.ok.injEq] at h
      subst h
      simp only [collect_append, h0, ih _ _ h2]
      rfl

theorem Both.iters {V : Type} {S T : Settings} {n : String} {ls : List (Log V)}
    (h : ∀ l ∈ ls, Both S (collect S n l) (collect T n l)) :
    List.Forall₂ (Both S) (collectIters S n ls) (collectIters T n ls) := by
  rw [collectIters_eq_map, collectIters_eq_map, List.forall₂_map_left_iff, List.forall₂_map_right_iff,
    List.forall₂_same]
  exact h

theorem Both.stack {V : Type} {S : Settings} {os os' : List (Option (Val V))} (h : List.Forall₂ (Both S) os os') :
    Pruned S (some (.stack (os.map (·.getD .zeros)))) (some (.stack (os'.map (·.getD .zeros)))) := by
  refine .stack _ _ (by simp [h.length_eq]) (fun i h1 h2 => ?_)
  simp only [List.getElem_map]
  rw [List.forall₂_iff_get] at h
  exact (h.2 i (by simpa using h1) (by simpa using h2)).getD

/-- What is collected with the lists and without them, in every execution of a program accepted in both ways. -/
theorem collect_pruned {V A B : Type} (S : Settings) (fuel : Nat) (p : Prog V A B) : ∀ {c : String → Bool},
    Regular S.unfiltered c p → ∀ {m0 m1 k0 k1 : Meta}, metaOf S p m0 = .ok m1 →
    metaOf S.unfiltered p k0 = .ok k1 → Fits c m0 → Fits c k0 →
    ∀ (a : A) (b : B) (l : Log V), trace fuel p a = .ok (b, l) → ∀ n, ¬ S.filtered n →
    ((declares S n (sites p)).isSome → Both S (collect S n l) (collect S.unfiltered n l)) ∧
    (declares S n (sites p) = none → (declares S.unfiltered n (sites p)).isSome →
      ∃ v, collect S.unfiltered n l = some v ∧ Pruned S none (some v)) := by
  induction p with
  | pure f => intro c _ m0 m1 k0 k1 _ _ _ _ a b l ht n hn; simp [sites, declares]
  | seq p q ihp ihq =>
    intro c hr m0 m1 k0 k1 hm hk hf hg a b l ht n hn
    simp only [metaOf] at hm hk
    rcases hmp : metaOf S p m0 with e | m <;> rw [hmp] at hm
    · simp at hm
    rcases hkp : metaOf S.unfiltered p k0 with e | k <;> rw [hkp] at hk
    · simp at hk
    simp only [except_bind_ok] at hm hk
    simp only [trace] at ht
    rcases h1 : trace fuel p a with e | ⟨b1, l1⟩ <;> rw [h1] at ht
    · simp at ht
    simp only [except_bind_ok] at ht
    rcases h2 : trace fuel q b1 with e | ⟨b2, l2⟩ <;> rw [h2] at ht
    · simp at ht
    simp only [except_bind_ok, except_pure, Except.ok.injEq, Prod.mk.injEq] at ht
    obtain ⟨rfl, rfl⟩ := ht
    have hfm : Fits c m := Fits.metaOf (Regular.unf _ hr.1) hmp hf
    have hfk : Fits c k := Fits.metaOf hr.1 hkp hg
    obtain ⟨ap, bp⟩ := ihp hr.1 hmp hkp hf hg a b1 l1 h1 n hn
    obtain ⟨aq, bq⟩ := ihq hr.2 hm hk hfm hfk b1 b2 l2 h2 n hn
    rw [sites, declares_append, declares_append, collect_append, collect_append]
    cases hUq : declares S.unfiltered n (sites q) with
    | none =>
      have hSq : declares S n (sites q) = none := by
        rw [← Option.not_isSome_iff_eq_none]
        intro h; have := declares_unf h; rw [hUq] at this; simp at this
      rw [hSq, collect_undeclared (Regular.unf _ hr.2) hm hfm h2 hSq, collect_undeclared hr.2 hk hfk h2 hUq]
      simpa using ⟨ap, bp⟩
    | some kq =>
      rw [hUq] at bq
      cases hUp : declares S.unfiltered n (sites p) with
      | none =>
        have hSp : declares S n (sites p) = none := by
          rw [← Option.not_isSome_iff_eq_none]
          intro h; have := declares_unf h; rw [hUp] at this; simp at this
        rw [hSp, collect_undeclared (Regular.unf _ hr.1) hmp hf h1 hSp, collect_undeclared hr.1 hkp hg h1 hUp]
        simp only [Option.or_none, Option.isSome_some]
        exact ⟨aq, fun h _ => bq h rfl⟩
      | some kp =>
        have hkn : k.get n = some kp := by rw [(metaOf_get _ p hkp).1 n, hUp]; rfl
        have hcl : kp.isClobber = true := by
          cases hc : kp.isClobber with
          | true => rfl
          | false => rw [metaOf_nonclobber hk hc hkn] at hUq; simp at hUq
        have hSp : declares S n (sites p) = some kp := declares_of_unfiltered hn hUp (by
          rintro rfl; simp [Mode.isClobber] at hcl)
        rw [hSp]
        refine ⟨fun _ => ?_, fun h => by cases hq : declares S n (sites q) <;> rw [hq] at h <;> simp at h⟩
        cases hSq : declares S n (sites q) with
        | some ks => exact (aq (by rw [hSq]; rfl)).or (ap (by rw [hSp]; rfl))
        | none =>
          exfalso
          have hs : kq = .strict := by
            by_contra h
            rw [declares_of_unfiltered hn hUq h] at hSq; simp at hSq
          rw [declares_eq_getLast?] at hUq
          rcases metaOf_occ q hk n with h | ⟨h, -⟩ | ⟨mode, -, h⟩
          · rw [h] at hUq; simp at hUq
          · have := h kq (List.mem_of_getLast? hUq)
            rw [hs] at this; simp [Mode.isClobber] at this
          · rw [hkn] at h; simp at h
  | sow tag name mode pre pred post =>
    intro c hr m0 m1 k0 k1 hm hk hf hg a b l ht n hn
    simp only [trace, Except.ok.injEq, Prod.mk.injEq] at ht
    obtain ⟨rfl, rfl⟩ := ht
    by_cases hh : name = n
    · subst hh
      have he := active_unfiltered (tag := tag) hn
      simp only [sites, declares, Site.declares, collect, Ev.collect, he]
      refine ⟨fun _ => .refl _ _, fun h1 h2 => ?_⟩
      rw [h1] at h2; simp at h2
    · simp [sites, declares, Site.declares, hh]
  | nest scope pre body post ih =>
    intro c hr m0 m1 k0 k1 hm hk hf hg a b l ht n hn
    simp only [metaOf] at hm hk
    rcases hmp : metaOf S body [] with e | m <;> rw [hmp] at hm
    · simp at hm
    rcases hkp : metaOf S.unfiltered body [] with e | k <;> rw [hkp] at hk
    · simp at hk
    simp only [trace] at ht
    rcases h1 : trace fuel body (pre a) with e | ⟨b1, l1⟩ <;> rw [h1] at ht <;> simp at ht
    obtain ⟨rfl, rfl⟩ := ht
    have hin := fun k hk => ih hr.1 hmp hkp (Fits.nil _) (Fits.nil _) _ b1 l1 h1 k hk
    by_cases hsn : scope = n
    · subst hsn
      have ha : S.active S.tag scope = true := by
        rw [← Bool.not_eq_false, ← S.filtered_iff]; exact hn
      have hb : S.unfiltered.active S.unfiltered.tag scope = true := active_unf (tag := S.tag) ha
      simp only [sites, declares, Site.declares, collect, Ev.collect, ha, hb, true_and, Option.none_or]
      cases hany : anySite S (sites body) with
      | true =>
        have hany' := anySite_unf _ hany
        simp only [hany', if_true]
        refine ⟨fun _ => .inr ⟨_, _, rfl, rfl, .dict _ _ ?_ ?_⟩, fun h => by simp at h⟩
        · intro k hk
          rw [S.filtered_iff] at hk
          rw [if_neg]
          intro h
          rw [declares_active h] at hk; simp at hk
        · intro k hk
          obtain ⟨hA, hB⟩ := hin k hk
          cases hd : declares S k (sites body) with
          | some mode =>
            rw [hd] at hA
            rw [if_pos (by rfl), if_pos (declares_unf (by rw [hd]; rfl))]
            exact (hA rfl).getD
          | none =>
            rw [if_neg (by simp)]
            by_cases hu : (declares S.unfiltered k (sites body)).isSome
            · obtain ⟨v, hv, hp⟩ := hB hd hu
              rw [if_pos hu, hv]; exact hp
            · rw [if_neg hu]; exact .refl _
      | false =>
        refine ⟨fun h => by simp at h, fun _ h => ?_⟩
        by_cases hany' : anySite S.unfiltered (sites body) = true
        · simp only [hany', if_true]
          refine ⟨_, rfl, .gone _ (fun k hk => ?_)⟩
          obtain ⟨hA, hB⟩ := hin k hk
          have hd : declares S k (sites body) = none := (anySite_false_iff S _).1 hany k
          by_cases hu : (declares S.unfiltered k (sites body)).isSome
          · obtain ⟨v, hv, hp⟩ := hB hd hu
            rw [if_pos hu, hv]; exact hp
          · rw [if_neg hu]; exact .refl _
        · simp [hany'] at h
    · simp [sites, declares, Site.declares, hsn]
  | inline pre body post ih =>
    intro c hr m0 m1 k0 k1 hm hk hf hg a b l ht n hn
    simp only [trace] at ht
    rcases h1 : trace fuel body (pre a) with e | ⟨b1, l1⟩ <;> rw [h1] at ht <;> simp at ht
    obtain ⟨rfl, rfl⟩ := ht
    exact ih hr hm hk hf hg _ _ _ h1 n hn
  | call _ pre body post ih =>
    intro c hr m0 m1 k0 k1 hm hk hf hg a b l ht n hn
    simp only [metaOf] at hm hk
    rcases hmp : metaOf S body [] with e | m <;> rw [hmp] at hm
    · simp at hm
    rcases hkp : metaOf S.unfiltered body [] with e | k <;> rw [hkp] at hk
    · simp at hk
    simp only [trace] at ht
    rcases h1 : trace fuel body (pre a) with e | ⟨b1, l1⟩ <;> rw [h1] at ht <;> simp at ht
    obtain ⟨rfl, rfl⟩ := ht
    exact ih hr hmp hkp (Fits.nil _) (Fits.nil _) _ _ _ h1 n hn
  | cond j sel pre br post ih =>
    intro c hr m0 m1 k0 k1 hm hk hf hg a b l ht n hn
    have names : ∀ (T : Settings) (m0 m1 : Meta), metaOf T (.cond j sel pre br post) m0 = .ok m1 →
        ∃ mi, metaOf T (br (sel a)) [] = .ok mi ∧
          ((declares T n (sites (br (sel a)))).isSome ↔ (declares T n (sites (br 0))).isSome) := by
      intro T m0 m1 hm
      simp only [metaOf] at hm
      rcases hp0 : metaOf T (br 0) [] with e | first <;> rw [hp0] at hm
      · simp at hm
      simp only [except_bind_ok] at hm
      rcases hmq : (List.finRange (j + 1)).mapM (fun i => metaOf T (br i) []) with e | ms <;>
        rw [hmq] at hm
      · simp at hm
      simp only [except_bind_ok] at hm
      rcases hcc : metaCond first ms with e | u <;> rw [hcc] at hm
      · simp at hm
      obtain ⟨mi, hmi, hb⟩ := metaBranch_of_metaOf_cond hmq hcc (sel a)
      refine ⟨mi, hmi, ?_⟩
      have := ((metaBranch_ok (metaOf_nil_keys hmi) hb) n).1
      rwa [metaOf_nil_get hmi, metaOf_nil_get hp0] at this
    obtain ⟨mi, hmi, hS⟩ := names S m0 m1 hm
    obtain ⟨ki, hki, hU⟩ := names S.unfiltered k0 k1 hk
    simp only [trace] at ht
    rcases h1 : trace fuel (br (sel a)) (pre a) with e | ⟨b1, l1⟩ <;> rw [h1] at ht <;> simp at ht
    obtain ⟨rfl, rfl⟩ := ht
    obtain ⟨hA, hB⟩ := ih (sel a) (hr _) hmi hki (Fits.nil _) (Fits.nil _) _ _ _ h1 n hn
    simp only [sites]
    refine ⟨fun h => hA (hS.2 h), fun h h' => hB ?_ (hU.2 h')⟩
    rw [← Option.not_isSome_iff_eq_none, hS, h]; simp
  | scan rev pre body post ih =>
    intro c hr m0 m1 k0 k1 hm hk hf hg a b l ht n hn
    simp only [metaOf] at hm hk
    rcases hmp : metaOf S body [] with e | m <;> rw [hmp] at hm
    · simp at hm
    rcases hkp : metaOf S.unfiltered body [] with e | k <;> rw [hkp] at hk
    · simp at hk
    simp only [except_bind_ok] at hm hk
    rcases hks : metaScan k with e | u <;> rw [hks] at hk
    · simp at hk
    simp only [trace] at ht
    rcases h1 : scanDir rev (fun kx => (trace fuel body kx).map (fun r => (r.1.1, (r.1.2, r.2))))
      (pre a).1 (pre a).2 with e | ⟨k', ys⟩ <;> rw [h1] at ht <;> simp at ht
    obtain ⟨rfl, rfl⟩ := ht
    simp only [sites]
    cases hd : declares S.unfiltered n (sites body) with
    | none =>
      refine ⟨fun h => ?_, fun _ h => by simp at h⟩
      have := declares_unf h
      rw [hd] at this; simp at this
    | some mode =>
      have hns : mode ≠ .strict := by
        rintro rfl
        exact metaScan_ok hks n (by rw [metaOf_nil_get hkp, hd])
      have hd' := declares_of_unfiltered hn hd hns
      refine ⟨fun _ => ?_, fun h => by rw [hd'] at h; simp at h⟩
      have hit : List.Forall₂ (Both S) (collectIters S n (ys.map (·.2))) (collectIters S.unfiltered n (ys.map (·.2))) := by
        refine Both.iters fun l hl => ?_
        obtain ⟨y, hy, rfl⟩ := List.mem_map.1 hl
        have hz := scanDir_zip rev _ _ _ h1
        obtain ⟨i, hi, rfl⟩ := List.getElem_of_mem hy
        obtain ⟨q, q', hq⟩ := (List.forall₂_iff_get.1 hz).2 i (by rw [hz.length_eq]; exact hi) hi
        simp only [List.get_eq_getElem] at hq
        rcases h2 : trace fuel body (q, (pre a).2[i]'(by have := hz.length_eq; simp only at this; omega)) with e | u <;>
          rw [h2] at hq <;> simp at hq
        have := (ih hr.1 hmp hkp (Fits.nil _) (Fits.nil _) _ u.1 u.2 h2 n hn).1 (by rw [hd']; rfl)
        rw [← hq.2]; exact this
      simp only [collect, Ev.collect, hd, hd', Option.none_or]
      cases mode with
      | append => exact .inr ⟨_, _, rfl, rfl, Both.stack hit⟩
      | clobber => exact .inr ⟨_, _, rfl, rfl, (Both.lastSome (Both.execOrder rev hit)).getD⟩
      | condClobber => exact Both.lastSome (Both.execOrder rev hit)
      | strict => exact absurd rfl hns
      | invalid => exact .refl _ _
  | whileL pre test body post iht ihb =>
    intro c hr m0 m1 k0 k1 hm hk hf hg a b l ht n hn
    simp only [metaOf] at hm hk
    rcases hmp : metaOf S body [] with e | m <;> rw [hmp] at hm
    · simp at hm
    rcases hkp : metaOf S.unfiltered body [] with e | k <;> rw [hkp] at hk
    · simp at hk
    simp only [except_bind_ok] at hm hk
    rcases hks : metaWhile k with e | u <;> rw [hks] at hk
    · simp at hk
    simp only [trace] at ht
    rcases h1 : loopT (fun k => trace fuel test k) (fun k => trace fuel body k) fuel (pre a) with e | r <;>
      rw [h1] at ht <;> simp at ht
    obtain ⟨rfl, rfl⟩ := ht
    simp only [sites]
    cases hd : declares S.unfiltered n (sites body) with
    | none =>
      refine ⟨fun h => ?_, fun _ h => by simp at h⟩
      have := declares_unf h
      rw [hd] at this; simp at this
    | some mode =>
      have hcl := metaWhile_ok hks n mode (by rw [metaOf_nil_get hkp, hd])
      have hd' := declares_of_unfiltered hn hd (by rintro rfl; simp [Mode.isClobber] at hcl)
      refine ⟨fun _ => ?_, fun h => by rw [hd'] at h; simp at h⟩
      have hit : List.Forall₂ (Both S) (collectIters S n r.2.1) (collectIters S.unfiltered n r.2.1) := by
        refine Both.iters fun l hl => ?_
        obtain ⟨q, q', hq⟩ := loopT_mem _ _ _ h1 l hl
        exact (ihb hr.1 hmp hkp (Fits.nil _) (Fits.nil _) _ _ _ hq n hn).1 (by rw [hd']; rfl)
      have t1 : collect S n r.2.2 = none :=
        loopT_tests (fun k s h => quiet_collect fuel test (Quiet.unf _ hr.2) k s h n) _ _ _ h1
      have t2 : collect S.unfiltered n r.2.2 = none :=
        loopT_tests (fun k s h => quiet_collect fuel test hr.2 k s h n) _ _ _ h1
      simp only [collect, Ev.collect, hd, hd', Option.none_or, t1, t2]
      cases mode with
      | append => simp [Mode.isClobber] at hcl
      | clobber => exact .inr ⟨_, _, rfl, rfl, (Both.lastSome hit).getD⟩
      | condClobber => exact Both.lastSome hit
      | strict => simp [Mode.isClobber] at hcl
      | invalid => exact .refl _ _

/-! ### C13 -/

/-- C13: reaping with an allowlist or a blocklist returns the output of the function and the dictionary that is reaped
without the lists, from which the filtered names are removed at every depth. -/
theorem reap_filtered_partial {V A B : Type} (S : Settings) (c : String → Bool) (f : Prog V A B)
    (hreg : Regular S.unfiltered c f) (g : Prog V A (B × Dict V)) (h : callAndReap S f = .ok g)
    (g' : Prog V A (B × Dict V)) (h' : callAndReap S.unfiltered f = .ok g') (fuel : Nat) (a : A) (r r' : B × Dict V)
    (hr : run fuel g a = .ok r) (hr' : run fuel g' a = .ok r') :
    r.1 = r'.1 ∧ (∀ n, S.filtered n → r.2 n = none) ∧ ∀ n, ¬ S.filtered n → Pruned S (r.2 n) (r'.2 n) := by
  refine ⟨?_, fun n hn => filtered_not_reaped S f g h n hn fuel a r hr, ?_⟩
  all_goals
    rw [reap_exact_partial S c f g hreg.unf h] at hr
    rw [reap_exact_partial S.unfiltered c f g' hreg h'] at hr'
    rcases ht : trace fuel f a with e | s <;> rw [ht] at hr hr' <;> simp at hr hr'
    subst hr hr'
  · rfl
  · intro n hn
    obtain ⟨m, hm, -⟩ := callAndReap_ok h
    obtain ⟨k, hk, -⟩ := callAndReap_ok h'
    obtain ⟨hA, hB⟩ := collect_pruned S fuel f hreg hm hk (Fits.nil _) (Fits.nil _) a s.1 s.2 ht n hn
    simp only [expected]
    cases hd : declares S n (sites f) with
    | some mode =>
      rw [hd] at hA
      rw [if_pos (by rfl), if_pos (declares_unf (by rw [hd]; rfl))]
      exact (hA rfl).getD
    | none =>
      rw [if_neg (by simp)]
      by_cases hu : (declares S.unfiltered n (sites f)).isSome
      · obtain ⟨v, hv, hp⟩ := hB hd hu
        rw [if_pos hu, hv]; exact hp
      · rw [if_neg hu]; exact .refl _

theorem leafAt_none {V : Type} {S : Settings} {D' : Dict V} : ∀ (path : List String), (∀ n ∈ path, ¬ S.filtered n) →
    (∀ n, ¬ S.filtered n → Pruned S none (D' n)) → leafAt D' path = none
  | [], _, _ => rfl
  | [n], hp, h => by
    have := h n (hp n (by simp))
    simp only [leafAt]
    generalize D' n = o at this
    cases this <;> rfl
  | s :: m :: p, hp, h => by
    have := h s (hp s (by simp))
    simp only [leafAt]
    generalize D' s = o at this
    cases this with
    | refl => rfl
    | gone d' h' => exact leafAt_none (m :: p) (fun n hn => hp n (List.mem_cons_of_mem _ hn)) h'

theorem leafAt_pruned {V : Type} {S : Settings} : ∀ (path : List String) {D D' : Dict V}, (∀ n ∈ path, ¬ S.filtered n) →
    (∀ n, ¬ S.filtered n → Pruned S (D n) (D' n)) → leafAt D path = leafAt D' path
  | [], _, _, _, _ => rfl
  | [n], D, D', hp, h => by
    have := h n (hp n (by simp))
    simp only [leafAt]
    generalize D n = o, D' n = o' at this
    cases this <;> rfl
  | s :: m :: p, D, D', hp, h => by
    have := h s (hp s (by simp))
    have hp' : ∀ n ∈ m :: p, ¬ S.filtered n := fun n hn => hp n (List.mem_cons_of_mem _ hn)
    simp only [leafAt]
    generalize D s = o, D' s = o' at this
    cases this with
    | refl => rfl
    | gone d' h' => exact (leafAt_none (m :: p) hp' h').symm
    | dict d d' _ h' => exact leafAt_pruned (m :: p) hp' h'
    | stack => rfl

/-- C13: a name that is not filtered, in scopes that are not filtered, is reaped as without the lists. -/
theorem reap_unfiltered_path_partial {V A B : Type} (S : Settings) (c : String → Bool) (f : Prog V A B)
    (hreg : Regular S.unfiltered c f) (g : Prog V A (B × Dict V)) (h : callAndReap S f = .ok g)
    (g' : Prog V A (B × Dict V)) (h' : callAndReap S.unfiltered f = .ok g') (fuel : Nat) (a : A) (r r' : B × Dict V)
    (hr : run fuel g a = .ok r) (hr' : run fuel g' a = .ok r') (path : List String)
    (hp : ∀ n ∈ path, ¬ S.filtered n) : leafAt r.2 path = leafAt r'.2 path :=
  leafAt_pruned path hp (reap_filtered_partial S c f hreg g h g' h' fuel a r r' hr hr').2.2

theorem AgreeOn.declares {V A B : Type} {S : Settings} (p : Prog V A B) : ∀ {P Q : Dict V}, AgreeOn S p P Q →
    ∀ {k : String} {mode : Mode}, declares S k (sites p) = some mode → mode ≠ .strict → P k = Q k := by
  induction p with
  | pure f => intro P Q _ k mode h; simp [sites, Harvest.declares] at h
  | seq p q ihp ihq =>
    intro P Q hA k mode h hm
    rw [sites, declares_append] at h
    cases hq : Harvest.declares S k (sites q) with
    | none => rw [hq] at h; exact ihp hA.1 (by simpa using h) hm
    | some m => rw [hq] at h; simp at h; subst h; exact ihq hA.2 hq hm
  | sow tag name mode pre pred post =>
    intro P Q hA k m h hm
    simp only [sites, Harvest.declares, Site.declares, Option.none_or] at h
    split at h
    · rename_i hh
      obtain ⟨rfl, ha⟩ := hh
      have ht : tag = S.tag := by
        simp only [Settings.active, Bool.and_eq_true] at ha
        exact beq_iff_eq.1 ha.1.1
      subst ht
      exact hA rfl (by rw [S.filtered_iff, ha]; simp)
    · simp at h
  | nest scope pre body post ih =>
    intro P Q hA k m h hm
    simp only [sites, Harvest.declares, Site.declares, Option.none_or] at h
    split at h
    · simp at h; exact absurd h.symm hm
    · simp at h
  | inline pre body post ih => intro P Q hA k m h hm; exact ih hA h hm
  | call _ pre body post ih => intro P Q hA k m h hm; exact ih hA h hm
  | cond j sel pre br post ih => intro P Q hA k m h hm; exact ih 0 (hA 0) h hm
  | scan rev pre body post ih => intro P Q hA k m h hm; exact ih hA h hm
  | whileL pre test body post iht ihb => intro P Q hA k m h hm; exact ihb hA h hm

theorem loopT_outputs {V K : Type} {c : K → Except RErr (Bool × Log V)} {b b' : K → Except RErr (K × Log V)}
    (h : ∀ k, (b k).map (·.1) = (b' k).map (·.1)) : ∀ (n : Nat) (k : K),
    (loopT c b n k).map (·.1) = (loopT c b' n k).map (·.1) := by
  intro n
  induction n with
  | zero => intro k; rfl
  | succ n ih =>
    intro k
    simp only [loopT]
    rcases c k with e | ⟨t, lt⟩
    · rfl
    cases t
    · rfl
    · simp only [except_bind_ok, if_true]
      have := h k
      rcases h1 : b k with e | s <;> rcases h2 : b' k with e' | s' <;> rw [h1, h2] at this <;> simp at this
      · subst this; rfl
      · simp only [except_bind_ok]
        rw [this]
        have := ih s'.1
        rcases h3 : loopT c b n s'.1 with e | s <;> rcases h4 : loopT c b' n s'.1 with e' | s'' <;>
          rw [h3, h4] at this <;> simp at this
        · subst this; rfl
        · simp [this]

theorem ptrace_agree {V A B : Type} {S : Settings} (fuel : Nat) (p : Prog V A B) :
    ∀ (P0 : Dict V) (st st' : List String), plantCheck S p P0 st = .ok st' → ScopesActive S p →
    ∀ (P Q : Dict V), AgreeOn S p P Q →
    ∀ a, (ptrace S fuel p P a).map (·.1) = (ptrace S fuel p Q a).map (·.1) := by
  simp only [ScopesActive]
  induction p with
  | pure f => intros; rfl
  | seq p q ihp ihq =>
    intro P0 st st' h hs P Q hpq a
    obtain ⟨st1, h1, h2⟩ := plantCheck_seq h
    simp only [ptrace]
    have e1 := ihp P0 _ _ h1 hs.1 P Q hpq.1 a
    rcases g1 : ptrace S fuel p P a with e | r <;> rcases g2 : ptrace S fuel p Q a with e' | r' <;>
      rw [g1, g2] at e1 <;> simp at e1
    · subst e1; rfl
    · simp only [except_bind_ok, e1]
      have e2 := ihq P0 _ _ h2 hs.2 P Q hpq.2 r'.1
      rcases g3 : ptrace S fuel q P r'.1 with e | s <;> rcases g4 : ptrace S fuel q Q r'.1 with e' | s' <;>
        rw [g3, g4] at e2 <;> simp at e2
      · subst e2; rfl
      · simp [e2]
  | sow tag name mode pre pred post =>
    intro P0 st st' h hs P Q hpq a
    simp only [ptrace]
    by_cases ha : S.active tag name = true
    · have ht : tag = S.tag := by
        have ha' := ha
        simp only [Settings.active, Bool.and_eq_true] at ha'
        exact beq_iff_eq.1 ha'.1.1
      subst ht
      rw [hpq rfl (by rw [S.filtered_iff, ha]; simp)]
    · simp [ha]
  | nest scope pre body post ih =>
    intro P0 st st' h hs P Q hpq a
    obtain ⟨st2, h2⟩ := plantCheck_nest h
    have := ih _ _ _ h2 hs.2 _ _ hpq (pre a)
    simp only [ptrace]
    rcases g1 : ptrace S fuel body (inScope P scope) (pre a) with e | r <;>
      rcases g2 : ptrace S fuel body (inScope Q scope) (pre a) with e' | r' <;> rw [g1, g2] at this <;> simp at this
    · subst this; rfl
    · simp [this]
  | inline pre body post ih =>
    intro P0 st st' h hs P Q hpq a
    have := ih P0 _ _ h hs P Q hpq (pre a)
    simp only [ptrace]
    rcases g1 : ptrace S fuel body P (pre a) with e | r <;>
      rcases g2 : ptrace S fuel body Q (pre a) with e' | r' <;> rw [g1, g2] at this <;> simp at this
    · subst this; rfl
    · simp [this]
  | call kind pre body post ih =>
    intro P0 st st' h hs P Q hpq a
    obtain ⟨st1, st2, h2⟩ := plantCheck_call h
    have := ih P0 _ _ h2 hs P Q hpq (pre a)
    simp only [ptrace]
    rcases g1 : ptrace S fuel body P (pre a) with e | r <;>
      rcases g2 : ptrace S fuel body Q (pre a) with e' | r' <;> rw [g1, g2] at this <;> simp at this
    · subst this; rfl
    · simp [this]
  | cond j sel pre br post ih =>
    intro P0 st st' h hs P Q hpq a
    obtain ⟨⟨st2, h2⟩, m, mi, -, -, hd⟩ := plantCheck_cond h (sel a)
    have := ih (sel a) P0 _ _ h2 (hs _) P Q (hpq _) (pre a)
    simp only [ptrace]
    rcases g1 : ptrace S fuel (br (sel a)) P (pre a) with e | r <;>
      rcases g2 : ptrace S fuel (br (sel a)) Q (pre a) with e' | r' <;> rw [g1, g2] at this <;> simp at this
    · subst this; rfl
    · simp [this]
  | scan rev pre body post ih =>
    intro P0 st st' h hs P Q hpq a
    obtain ⟨m, st2, hm, h2, hst⟩ := plantCheck_scan h
    rw [ptrace_congr fuel (.scan rev pre body post) P0 st st' h hs P Q]
    intro k hk
    obtain ⟨mode, hmode⟩ := Option.isSome_iff_exists.1 hk
    exact AgreeOn.declares body hpq hmode (fun h => hst k (h ▸ hmode))
  | whileL pre test body post iht ihb =>
    intro P0 st st' h hs P Q hpq a
    obtain ⟨m, st2, hm, h2⟩ := plantCheck_while h
    have := loopT_outputs (c := fun k => trace fuel test k) (fun k => ihb P0 _ _ h2 hs.2 P Q hpq k) fuel (pre a)
    simp only [ptrace]
    rcases g1 : loopT (fun k => trace fuel test k) (fun k => ptrace S fuel body P k) fuel (pre a) with e | r <;>
      rcases g2 : loopT (fun k => trace fuel test k) (fun k => ptrace S fuel body Q k) fuel (pre a) with e' | r' <;>
      rw [g1, g2] at this <;> simp at this
    · subst this; rfl
    · simp [this]

/-- C13: planting filtered names has no effect, at any depth of scopes. -/
theorem filtered_not_planted_nested_partial {V A B : Type} (S : Settings) (f : Prog V A B) (P Q : Dict V)
    (g g' : Prog V A B) (hg : plant S f P = .ok g) (hg' : plant S f Q = .ok g') (hs : ScopesActive S f)
    (hP : Plain P) (hQ : Plain Q) (h : AgreeOn S f P Q) (fuel : Nat) (a : A) :
    run fuel g a = run fuel g' a := by
  rw [plant_override_run S f P g hg hs hP, plant_override_run S f Q g' hg' hs hQ]
  obtain ⟨⟨st, hc⟩, -⟩ := plant_ok hg
  exact ptrace_agree fuel f P _ _ hc hs P Q h a

end Verif.Harvest
