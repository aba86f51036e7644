/-
Property theorem C09: reap followed by plant is a round trip.
-/
import Verif.Harvest.PropsPlant

namespace Verif.Harvest

/-- No sow that takes part in the harvest has a clobber mode ('clobber', 'cond_clobber'). -/
def NoClobber {V A B : Type} (S : Settings) (p : Prog V A B) : Prop :=
  AllSows false (fun tag name mode => S.active tag name = true → mode.isClobber = false) (fun _ => True) p

theorem NoClobber.declares {V A B : Type} {S : Settings} (p : Prog V A B) (h : NoClobber S p) (n : String)
    (k : Mode) (hd : Harvest.declares S n (sites p) = some k) : k.isClobber = false := by
  simp only [NoClobber] at h
  induction p with
  | pure f => simp [sites, Harvest.declares] at hd
  | seq p q ihp ihq =>
    rw [sites, declares_append] at hd
    cases hq : Harvest.declares S n (sites q) with
    | none => rw [hq] at hd; exact ihp h.1 (by simpa using hd)
    | some x => rw [hq] at hd; simp at hd; subst hd; exact ihq h.2 hq
  | sow tag name mode pre pred post =>
    simp only [sites, Harvest.declares, Site.declares, Option.none_or] at hd
    split at hd
    · rename_i hh
      simp at hd; subst hd; exact h hh.2
    · simp at hd
  | nest scope pre body post ih =>
    simp only [sites, Harvest.declares, Site.declares, Option.none_or] at hd
    split at hd
    · simp at hd; subst hd; rfl
    · simp at hd
  | inline pre body post ih => exact ih h hd
  | call _ pre body post ih => exact ih h hd
  | cond j sel pre br post ih => exact ih 0 (h 0) hd
  | scan rev pre body post ih => exact ih h hd
  | whileL pre test body post iht ihb => exact ihb h.2 hd

theorem exists_matches {V : Type} (m : Meta) : ∃ d : Reaps V, Matches m d := by
  refine ⟨fun n => (m.get n).map (fun k => ⟨.zeros, if k = .condClobber then some false else none, k⟩), ?_⟩
  intro n
  cases hg : m.get n with
  | none => simp [hg]
  | some k =>
    refine ⟨by simp [hg], fun r hr => ?_⟩
    simp [hg] at hr
    subst hr
    by_cases hk : k = .condClobber <;> simp [hk]

/-- A name that is not declared leaves nothing in the log. -/
theorem collect_undeclared {V A B : Type} {S : Settings} {c : String → Bool} {p : Prog V A B}
    (hr : Regular S c p) {m0 m1 : Meta} (hm : metaOf S p m0 = .ok m1) (hf : Fits c m0) {fuel : Nat} {a : A}
    {b : B} {l : Log V} (ht : trace fuel p a = .ok (b, l)) {n : String}
    (hd : declares S n (sites p) = none) : collect S n l = none := by
  obtain ⟨d, hdm⟩ := exists_matches (V := V) m0
  have := reapT_good S fuel p hr hm hf a d hdm
  rw [ht] at this
  rcases h1 : run fuel (reapT S p) (a, d) with e | s <;> rw [h1] at this <;> simp only [ExRel] at this
  exact (this.2.2 n).2 hd

theorem scanM_follow {K X X' Y Z W : Type} {f : K × X → Except RErr (K × Y)}
    {g : K × X' → Except RErr (K × Z)} {φ : Y → W} {ψ : Z → W} {R : X → X' → Y → Prop}
    (h : ∀ k x x' y k', R x x' y → f (k, x) = .ok (k', y) →
      ∃ z, g (k, x') = .ok (k', z) ∧ ψ z = φ y) :
    ∀ (xs : List X) (us : List X') (k k' : K) (ys : List Y), scanM f k xs = .ok (k', ys) →
      List.Forall₂ (fun xu y => R xu.1 xu.2 y) (xs.zip us) ys → xs.length = us.length →
      ∃ zs, scanM g k us = .ok (k', zs) ∧ zs.map ψ = ys.map φ
  | [], [], k, k', ys, hs, _, _ => by
    simp only [scanM, Except.ok.injEq, Prod.mk.injEq] at hs
    obtain ⟨rfl, rfl⟩ := hs
    exact ⟨[], rfl, rfl⟩
  | [], _ :: _, _, _, _, _, _, hl => by simp at hl
  | _ :: _, [], _, _, _, _, _, hl => by simp at hl
  | x :: xs, u :: us, k, k', ys, hs, hR, hl => by
    simp only [scanM] at hs
    rcases h1 : f (k, x) with e | r1 <;> rw [h1] at hs
    · simp at hs
    simp only [except_bind_ok] at hs
    rcases h2 : scanM f r1.1 xs with e | r2 <;> rw [h2] at hs
    · simp at hs
    simp only [except_bind_ok, except_pure, Except.ok.injEq, Prod.mk.injEq] at hs
    obtain ⟨rfl, rfl⟩ := hs
    simp only [List.zip_cons_cons, List.forall₂_cons] at hR
    obtain ⟨z, hz1, hz2⟩ := h k x u r1.2 r1.1 hR.1 h1
    obtain ⟨zs, hzs1, hzs2⟩ := scanM_follow h xs us r1.1 r2.1 r2.2 h2 hR.2 (by simpa using hl)
    refine ⟨z :: zs, ?_, by simp [hz2, hzs2]⟩
    simp only [scanM, hz1, except_bind_ok, hzs1, except_pure]

theorem scanDir_follow {K X X' Y Z W : Type} (rev : Bool) {f : K × X → Except RErr (K × Y)}
    {g : K × X' → Except RErr (K × Z)} {φ : Y → W} {ψ : Z → W} {R : X → X' → Y → Prop}
    (h : ∀ k x x' y k', R x x' y → f (k, x) = .ok (k', y) →
      ∃ z, g (k, x') = .ok (k', z) ∧ ψ z = φ y)
    (xs : List X) (us : List X') (k k' : K) (ys : List Y) (hs : scanDir rev f k xs = .ok (k', ys))
    (hR : List.Forall₂ (fun xu y => R xu.1 xu.2 y) (xs.zip us) ys) (hl : xs.length = us.length) :
      ∃ zs, scanDir rev g k us = .ok (k', zs) ∧ zs.map ψ = ys.map φ := by
  cases rev
  · exact scanM_follow h xs us k k' ys hs hR hl
  · simp only [scanDir, if_true] at hs ⊢
    rcases h1 : scanM f k xs.reverse with e | r1 <;> rw [h1] at hs <;> simp at hs
    obtain ⟨rfl, rfl⟩ := hs
    have hR' := forall₂_reverse hR
    rw [List.reverse_reverse, List.zip, List.reverse_zipWith hl] at hR'
    obtain ⟨zs, h2, h3⟩ := scanM_follow h xs.reverse us.reverse k r1.1 r1.2 h1 hR' (by simpa using hl)
    exact ⟨zs.reverse, by rw [h2]; rfl, by simp [List.map_reverse, h3]⟩

theorem loopT_follow {V K : Type} (c : K → Except RErr (Bool × Log V))
    (b b' : K → Except RErr (K × Log V))
    (hb : ∀ k r, b k = .ok r → ∃ l, b' k = .ok (r.1, l)) :
    ∀ (n : Nat) (k : K) r, loopT c b n k = .ok r → ∃ ls, loopT c b' n k = .ok (r.1, ls) := by
  intro n
  induction n with
  | zero => intro k r h; simp [loopT] at h
  | succ n ih =>
    intro k r h
    simp only [loopT] at h ⊢
    rcases hck : c k with e | ⟨t, lt⟩ <;> rw [hck] at h
    · simp at h
    · cases t
      · simp only [except_bind_ok, Bool.false_eq_true, if_false, except_pure, Except.ok.injEq] at h ⊢
        subst h
        exact ⟨_, rfl⟩
      · simp only [except_bind_ok, if_true] at h ⊢
        rcases h1 : b k with e | s <;> rw [h1] at h
        · simp at h
        simp only [except_bind_ok] at h
        rcases h2 : loopT c b n s.1 with e | u <;> rw [h2] at h
        · simp at h
        simp only [except_bind_ok, except_pure, Except.ok.injEq] at h
        subst h
        obtain ⟨l, hl⟩ := hb k s h1
        obtain ⟨ls, hls⟩ := ih _ _ h2
        simp only [hl, except_bind_ok, hls]
        exact ⟨_, rfl⟩

/-- Executing with the values of the log planted gives the same output. -/
theorem ptrace_log {V A B : Type} (S : Settings) (fuel : Nat) (p : Prog V A B) :
    NoClobber S p → ScopesActive S p → Regular S (fun _ => false) p →
    ∀ {m0 m1 : Meta}, metaOf S p m0 = .ok m1 → Fits (fun _ => false) m0 →
    ∀ (a : A) (b : B) (l : Log V), trace fuel p a = .ok (b, l) → ∀ (P : Dict V),
    (∀ n, (declares S n (sites p)).isSome → P n = some ((collect S n l).getD .zeros)) →
    ∃ l', ptrace S fuel p P a = .ok (b, l') := by
  simp only [ScopesActive, NoClobber]
  induction p with
  | pure f =>
    intro _ _ _ m0 m1 _ _ a b l ht P _
    simp only [trace] at ht
    simp only [ptrace]
    rcases hfa : f a with e | b' <;> rw [hfa] at ht <;> simp at ht
    exact ⟨[], by simp [ht.1]⟩
  | seq p q ihp ihq =>
    intro hc hs hr m0 m1 hm hf a b l ht P hP
    simp only [metaOf] at hm
    rcases hmp : metaOf S p m0 with e | m <;> rw [hmp] at hm
    · simp at hm
    simp only [except_bind_ok] at hm
    simp only [trace] at ht
    rcases h1 : trace fuel p a with e | ⟨b1, l1⟩ <;> rw [h1] at ht
    · simp at ht
    simp only [except_bind_ok] at ht
    rcases h2 : trace fuel q b1 with e | ⟨b2, l2⟩ <;> rw [h2] at ht
    · simp at ht
    simp only [except_bind_ok, except_pure, Except.ok.injEq, Prod.mk.injEq] at ht
    obtain ⟨rfl, rfl⟩ := ht
    have hfm : Fits (fun _ => false) m := Fits.metaOf hr.1 hmp hf
    have hexcl : ∀ n, (declares S n (sites p)).isSome → declares S n (sites q) = none := by
      intro n hn
      obtain ⟨k, hk⟩ := Option.isSome_iff_exists.1 hn
      exact metaOf_nonclobber hm (NoClobber.declares p hc.1 n k hk)
        (by rw [(metaOf_get S p hmp).1 n, hk]; rfl)
    obtain ⟨l1', hl1⟩ := ihp hc.1 hs.1 hr.1 hmp hf a b1 l1 h1 P (by
      intro n hn
      rw [hP n (by rw [sites, declares_append, Option.isSome_or, hn, Bool.or_true]), collect_append,
        collect_undeclared hr.2 hm hfm h2 (hexcl n hn), Option.none_or])
    obtain ⟨l2', hl2⟩ := ihq hc.2 hs.2 hr.2 hm hfm b1 b2 l2 h2 P (by
      intro n hn
      have hpn : declares S n (sites p) = none := by
        rw [← Option.not_isSome_iff_eq_none]
        intro h
        rw [hexcl n h] at hn; simp at hn
      rw [hP n (by rw [sites, declares_append, Option.isSome_or, hn, Bool.true_or]), collect_append,
        collect_undeclared hr.1 hmp hf h1 hpn, Option.or_none])
    exact ⟨l1' ++ l2', by simp only [ptrace, hl1, except_bind_ok, hl2, except_pure]⟩
  | sow tag name mode pre pred post =>
    intro hc hs hr m0 m1 hm hf a b l ht P hP
    simp only [trace, Except.ok.injEq, Prod.mk.injEq] at ht
    obtain ⟨rfl, rfl⟩ := ht
    simp only [ptrace]
    by_cases ha : S.active tag name = true
    · have hmode : mode ≠ .condClobber := by
        intro h; have := hc ha; rw [h] at this; simp [Mode.isClobber] at this
      have := hP name (by simp [sites, declares, Site.declares, ha])
      simp only [collect, Ev.collect, ha, hmode, true_and, false_imp_iff, and_self, if_true,
        Option.none_or, Option.getD_some] at this
      rw [if_pos ha, this]
      exact ⟨_, rfl⟩
    · rw [if_neg ha]
      split <;> exact ⟨_, rfl⟩
  | nest scope pre body post ih =>
    intro hc hs hr m0 m1 hm hf a b l ht P hP
    simp only [metaOf] at hm
    rcases hmp : metaOf S body [] with e | m <;> rw [hmp] at hm
    · simp at hm
    simp only [trace] at ht
    rcases h1 : trace fuel body (pre a) with e | ⟨b1, l1⟩ <;> rw [h1] at ht <;> simp at ht
    obtain ⟨rfl, rfl⟩ := ht
    obtain ⟨l', hl'⟩ := ih hc.2 hs.2 hr.1 hmp (Fits.nil _) _ b1 l1 h1 (inScope P scope) (by
      intro n hn
      have hany : anySite S (sites body) = true := (anySite_iff S _).2 ⟨n, hn⟩
      have := hP scope (by simp [sites, declares, Site.declares, hs.1, hany])
      simp only [collect, Ev.collect, hs.1, hany, and_self, if_true, Option.none_or,
        Option.getD_some] at this
      simp only [inScope, this, hn, if_true])
    simp only [ptrace, hl', except_map_ok]
    exact ⟨_, rfl⟩
  | inline pre body post ih =>
    intro hc hs hr m0 m1 hm hf a b l ht P hP
    simp only [trace] at ht
    rcases h1 : trace fuel body (pre a) with e | ⟨b1, l1⟩ <;> rw [h1] at ht <;> simp at ht
    obtain ⟨rfl, rfl⟩ := ht
    obtain ⟨l', hl'⟩ := ih hc hs hr hm hf _ b1 l1 h1 P hP
    simp only [ptrace, hl', except_map_ok]
    exact ⟨_, rfl⟩
  | call _ pre body post ih =>
    intro hc hs hr m0 m1 hm hf a b l ht P hP
    simp only [metaOf] at hm
    rcases hmp : metaOf S body [] with e | m <;> rw [hmp] at hm
    · simp at hm
    simp only [trace] at ht
    rcases h1 : trace fuel body (pre a) with e | ⟨b1, l1⟩ <;> rw [h1] at ht <;> simp at ht
    obtain ⟨rfl, rfl⟩ := ht
    obtain ⟨l', hl'⟩ := ih hc hs hr hmp (Fits.nil _) _ b1 l1 h1 P hP
    simp only [ptrace, hl', except_map_ok]
    exact ⟨_, rfl⟩
  | cond j sel pre br post ih =>
    intro hc hs hr m0 m1 hm hf a b l ht P hP
    simp only [metaOf] at hm
    rcases hp0 : metaOf S (br 0) [] with e | first <;> rw [hp0] at hm
    · simp at hm
    simp only [except_bind_ok] at hm
    rcases hmq : (List.finRange (j + 1)).mapM (fun i => metaOf S (br i) []) with e | ms <;>
      rw [hmq] at hm
    · simp at hm
    simp only [except_bind_ok] at hm
    rcases hcc : metaCond first ms with e | u <;> rw [hcc] at hm
    · simp at hm
    obtain ⟨mi, hmi, hb⟩ := metaBranch_of_metaOf_cond hmq hcc (sel a)
    simp only [trace] at ht
    rcases h1 : trace fuel (br (sel a)) (pre a) with e | ⟨b1, l1⟩ <;> rw [h1] at ht <;> simp at ht
    obtain ⟨rfl, rfl⟩ := ht
    obtain ⟨l', hl'⟩ := ih (sel a) (hc _) (hs _) (hr _) hmi (Fits.nil _) _ b1 l1 h1 P (by
      intro n hn
      apply hP
      have := ((metaBranch_ok (metaOf_nil_keys hmi) hb) n).1
      rw [metaOf_nil_get hmi, metaOf_nil_get hp0] at this
      exact this.1 hn)
    simp only [ptrace, hl', except_map_ok]
    exact ⟨_, rfl⟩
  | scan rev pre body post ih =>
    intro hc hs hr m0 m1 hm hf a b l ht P hP
    simp only [metaOf] at hm
    rcases hmp : metaOf S body [] with e | m <;> rw [hmp] at hm
    · simp at hm
    simp only [except_bind_ok] at hm
    rcases hms : metaScan m with e | u <;> rw [hms] at hm
    · simp at hm
    have happ : ∀ n, (declares S n (sites body)).isSome → declares S n (sites body) = some .append := by
      intro n hn
      obtain ⟨k, hk⟩ := Option.isSome_iff_exists.1 hn
      have h1 := NoClobber.declares body hc n k hk
      have h2 := metaScan_ok hms n
      rw [metaOf_nil_get hmp, hk] at h2
      have h3 := metaOf_valid body hmp n
      rw [hk] at h3 ⊢
      cases k <;> simp_all [Mode.isClobber]
    simp only [trace] at ht
    rcases h1 : scanDir rev (fun kx => (trace fuel body kx).map (fun r => (r.1.1, (r.1.2, r.2))))
      (pre a).1 (pre a).2 with e | ⟨k', ys⟩ <;> rw [h1] at ht <;> simp at ht
    obtain ⟨rfl, rfl⟩ := ht
    have hlen : (pre a).2.length = ys.length := (scanDir_zip rev _ _ _ h1).length_eq
    have hPn : ∀ n, (declares S n (sites body)).isSome →
        P n = some (.stack (ys.map (fun y => (collect S n y.2).getD .zeros))) := by
      intro n hn
      rw [hP n hn]
      simp [collect, Ev.collect, happ n hn, collectIters_eq_map]
    have hent : entriesOk S (sites body) P (pre a).2.length := by
      intro n v hn hv
      rw [hPn n (by rw [hn]; rfl)] at hv
      simp at hv
      subst hv
      simp [Val.hasEntries, hlen]
    obtain ⟨zs, hz1, hz2⟩ := scanDir_follow rev
      (f := fun kx => (trace fuel body kx).map (fun r => (r.1.1, (r.1.2, r.2))))
      (g := fun kx : _ × _ × Nat =>
          (ptrace S fuel body (iterPlant S (sites body) P kx.2.2) (kx.1, kx.2.1)).map
            (fun r => (r.1.1, (r.1.2, r.2))))
      (φ := (·.1)) (ψ := (·.1))
      (R := fun x u y => x = u.1 ∧ ∀ n, (declares S n (sites body)).isSome →
        iterPlant S (sites body) P u.2 n = some ((collect S n y.2).getD .zeros))
      (by
        rintro k x ⟨x', i⟩ y k' ⟨rfl, hR⟩ hk
        simp only at hR hk ⊢
        rcases h2 : trace fuel body (k, x) with e | s <;> rw [h2] at hk <;> simp at hk
        obtain ⟨rfl, rfl⟩ := hk
        obtain ⟨l', hl'⟩ := ih hc hs hr.1 hmp (Fits.nil _) _ s.1 s.2 h2 _ hR
        exact ⟨(s.1.2, l'), by rw [hl']; rfl, rfl⟩)
      _ (pre a).2.zipIdx _ _ _ h1
      (by
        rw [List.forall₂_iff_get]
        refine ⟨by simp [hlen], fun i h2 h3 => ?_⟩
        simp only [List.get_eq_getElem, List.getElem_zip, List.getElem_zipIdx, Nat.zero_add]
        refine ⟨trivial, fun n hn => ?_⟩
        simp only [iterPlant, happ n hn, if_true, hPn n hn, Option.bind_some, Val.entry]
        rw [List.getElem?_eq_getElem (by simpa using h3)]
        simp)
      (by simp)
    simp only [ptrace]
    rw [if_pos hent, hz1, except_map_ok, hz2]
    exact ⟨_, rfl⟩
  | whileL pre test body post iht ihb =>
    intro hc hs hr m0 m1 hm hf a b l ht P hP
    simp only [metaOf] at hm
    rcases hmp : metaOf S body [] with e | m <;> rw [hmp] at hm
    · simp at hm
    simp only [except_bind_ok] at hm
    rcases hms : metaWhile m with e | u <;> rw [hms] at hm
    · simp at hm
    have hnone : ∀ n, declares S n (sites body) = none := by
      intro n
      cases hk : declares S n (sites body) with
      | none => rfl
      | some k =>
        have h1 := NoClobber.declares body hc.2 n k hk
        have h2 := metaWhile_ok hms n k (by rw [metaOf_nil_get hmp, hk])
        rw [h1] at h2; simp at h2
    simp only [trace] at ht
    rcases h1 : loopT (fun k => trace fuel test k) (fun k => trace fuel body k) fuel (pre a) with e | r <;>
      rw [h1] at ht <;> simp at ht
    obtain ⟨rfl, rfl⟩ := ht
    obtain ⟨ls, hls⟩ := loopT_follow _ _ (fun k => ptrace S fuel body P k) (by
      intro k r hk
      exact ihb hc.2 hs.2 hr.1 hmp (Fits.nil _) k r.1 r.2 hk P (by intro n hn; rw [hnone n] at hn; simp at hn))
      _ _ _ h1
    simp only [ptrace, hls, except_map_ok]
    exact ⟨_, rfl⟩

/-- C09 (partial: no clobber sows, for which it is false, see the witness `roundtrip_clobber_witness`;
scope names not filtered; no dictionary stacked by a scan): planting the reaped dictionary back is accepted and
gives the same output. -/
theorem reap_plant_roundtrip_partial {V A B : Type} (S : Settings) (f : Prog V A B)
    (h : Prog V A (B × Dict V)) (hf : callAndReap S f = .ok h) (hc : NoClobber S f) (hs : ScopesActive S f)
    (hr : Regular S (fun _ => false) f) (fuel : Nat) (a : A) (b : B) (D : Dict V)
    (hrun : run fuel h a = .ok (b, D)) (hD : Plain D) :
    ∃ g, plant S f D = .ok g ∧ run fuel g a = .ok b ∧ run fuel f a = .ok b := by
  obtain ⟨g, hg⟩ := plant_accepts S f h hf D
  obtain ⟨m, hm, -⟩ := callAndReap_ok hf
  have hout := callAndReap_output S f h hf fuel a
  rw [hrun] at hout
  rw [reap_exact_partial S _ f h hr hf] at hrun
  rcases ht : trace fuel f a with e | ⟨b', l⟩ <;> rw [ht] at hrun <;> simp at hrun
  obtain ⟨rfl, rfl⟩ := hrun
  refine ⟨g, hg, ?_, hout.symm⟩
  rw [plant_override_run S f _ g hg hs hD]
  obtain ⟨l', hl'⟩ := ptrace_log S fuel f hc hs hr hm (Fits.nil _) a b' l ht (expected S f l)
    (by intro n hn; simp [expected, hn])
  rw [hl']; rfl

end Verif.Harvest
