/-
Planting some of the values that the execution itself produced does not change the execution (the
"consistency" of interventions), in terms of the specification `ptrace`.
-/
import Verif.Harvest.PropsNest
import Verif.Harvest.PropsRound

namespace Verif.Harvest

theorem anySite_append {S : Settings} (l r : List Site) :
    anySite S (l ++ r) = (anySite S l || anySite S r) := by
  induction l with
  | nil => simp [anySite]
  | cons s ss ih => simp [anySite, ih, Bool.or_assoc]

mutual
theorem Site.any_kept {V : Type} {S : Settings} : ∀ (s : Site),
    anySite S (Site.kept (V := V) S (fun _ => none) s) = s.any S
  | .sow tag name mode => by
    simp only [Site.kept, Site.any]
    by_cases ha : S.active tag name = true
    · simp [ha, anySite, Site.any]
    · simp only [ha]
      by_cases h2 : tag ≠ S.tag ∧ S.exclusive = false
      · simp [h2, anySite, Site.any, ha]
      · simp [h2, anySite]
  | .nest scope inner => by
    simp [Site.kept, anySite, Site.any, inScope_none, anySite_kept inner]
theorem anySite_kept {V : Type} {S : Settings} : ∀ (ss : List Site),
    anySite S (keptSites (V := V) S (fun _ => none) ss) = anySite S ss
  | [] => rfl
  | s :: ss => by
    rw [keptSites, anySite_append, Site.any_kept s, anySite_kept ss, anySite]
end

theorem declares_siteKept {V : Type} {S : Settings} {P : Dict V} {n : String} (hn : P n = none) (s : Site) :
    declares S n (Site.kept S P s) = s.declares S n := by
  cases s with
  | sow tag name mode =>
    simp only [Site.kept]
    by_cases ha : S.active tag name = true
    · by_cases hnn : name = n
      · subst hnn; simp [ha, hn, declares, Site.declares]
      · by_cases hp : (P name).isSome <;> simp [ha, hp, declares, Site.declares, hnn]
    · simp only [ha]
      by_cases h2 : tag ≠ S.tag ∧ S.exclusive = false
      · simp [h2, declares, Site.declares, ha]
      · simp [h2, declares, Site.declares, ha]
  | nest scope inner =>
    simp only [Site.kept, declares, Site.declares, Option.none_or]
    by_cases hnn : scope = n
    · subst hnn
      have : inScope P scope = fun _ => none := by simp [inScope, hn]
      rw [this, anySite_kept]
    · simp [hnn]

/-- What planting leaves of a name that is not planted. -/
theorem declares_keptSites {V : Type} {S : Settings} {P : Dict V} {n : String} (hn : P n = none)
    (ss : List Site) : declares S n (keptSites S P ss) = declares S n ss := by
  induction ss with
  | nil => rfl
  | cons s ss ih => rw [keptSites, declares_append, ih, declares_siteKept hn, declares]

mutual
/-- Dropping what the settings ignore does not change what is collected. -/
theorem Ev.collect_kept {V : Type} {S : Settings} {n : String} : ∀ (e : Ev V),
    collect S n (e.keptLog S) = e.collect S n
  | .sow tag name mode v pred => by
    simp only [Ev.keptLog]
    by_cases ha : S.active tag name = true
    · simp [ha, collect]
    · by_cases h2 : tag ≠ S.tag ∧ S.exclusive = false
      · simp [h2, collect]
      · simp [ha, h2, collect, Ev.collect]
  | .nest scope ss log => by
    simp only [Ev.keptLog, collect, Ev.collect, Option.none_or, anySite_kept,
      declares_keptSites (P := (fun _ => none : Dict V)) rfl, fun k => collect_kept (S := S) (n := k) log]
  | .scan rev ss iters => by
    simp only [Ev.keptLog, collect, Ev.collect, Option.none_or,
      declares_keptSites (P := (fun _ => none : Dict V)) rfl, collectIters_kept iters]
  | .loop ss iters tests => by
    simp only [Ev.keptLog, collect, Ev.collect, Option.none_or,
      declares_keptSites (P := (fun _ => none : Dict V)) rfl, collectIters_kept iters]
theorem collect_kept {V : Type} {S : Settings} {n : String} : ∀ (l : List (Ev V)),
    collect S n (keptLog S l) = collect S n l
  | [] => rfl
  | e :: es => by
    rw [keptLog, collect_append, collect_kept es, Ev.collect_kept e, collect]
theorem collectIters_kept {V : Type} {S : Settings} {n : String} : ∀ (ls : List (List (Ev V))),
    collectIters S n (keptIters S ls) = collectIters S n ls
  | [] => rfl
  | l :: ls => by
    simp only [keptIters, collectIters, collect_kept l, collectIters_kept ls]
end

theorem loopT_follow_log {V K W : Type} (φ : Log V → W) (c : K → Except RErr (Bool × Log V))
    (b b' : K → Except RErr (K × Log V))
    (hb : ∀ k r, b k = .ok r → ∃ l, b' k = .ok (r.1, l) ∧ φ l = φ r.2) :
    ∀ (n : Nat) (k : K) r, loopT c b n k = .ok r →
      ∃ ls, loopT c b' n k = .ok (r.1, ls, r.2.2) ∧ ls.map φ = r.2.1.map φ := by
  intro n
  induction n with
  | zero => intro k r h; simp [loopT] at h
  | succ n ih =>
    intro k r h
    simp only [loopT] at h ⊢
    rcases hck : c k with e | ⟨t, lt⟩ <;> rw [hck] at h
    · simp at h
    · cases t
      · simp only [except_bind_ok, Bool.false_eq_true, if_false, except_pure, Except.ok.injEq] at h ⊢
        subst h
        exact ⟨[], rfl, rfl⟩
      · simp only [except_bind_ok, if_true] at h ⊢
        rcases h1 : b k with e | s <;> rw [h1] at h
        · simp at h
        simp only [except_bind_ok] at h
        rcases h2 : loopT c b n s.1 with e | u <;> rw [h2] at h
        · simp at h
        simp only [except_bind_ok, except_pure, Except.ok.injEq] at h
        subst h
        obtain ⟨l, hl, hφ⟩ := hb k s h1
        obtain ⟨ls, hls, hφs⟩ := ih _ _ h2
        simp only [hl, except_bind_ok, hls]
        exact ⟨_, rfl, by simp [hφ, hφs]⟩

/-- What is collected for the names that are not planted. -/
def freeView {V : Type} (S : Settings) (P : Dict V) (l : Log V) : String → Option (Val V) :=
  fun n => if (P n).isSome then none else collect S n l

theorem freeView_eq {V : Type} {S : Settings} {P : Dict V} {l l' : Log V} :
    freeView S P l = freeView S P l' ↔ ∀ n, P n = none → collect S n l = collect S n l' := by
  constructor
  · intro h n hn
    have := congrFun h n
    simpa [freeView, hn] using this
  · intro h
    funext n
    simp only [freeView]
    cases hn : P n with
    | none => simp [h n hn]
    | some v => simp

/-- Planting some of the values of the log: same output, and the other names keep their values. -/
theorem ptrace_own {V A B : Type} (S : Settings) (fuel : Nat) (p : Prog V A B) :
    NoClobber S p → ScopesActive S p → Regular S (fun _ => false) p →
    ∀ {m0 m1 : Meta}, metaOf S p m0 = .ok m1 → Fits (fun _ => false) m0 →
    ∀ (a : A) (b : B) (l : Log V), trace fuel p a = .ok (b, l) → ∀ (P : Dict V),
    (∀ n, (declares S n (sites p)).isSome → P n = none ∨ P n = some ((collect S n l).getD .zeros)) →
    ∃ l', ptrace S fuel p P a = .ok (b, l') ∧ ∀ n, P n = none → collect S n l' = collect S n l := by
  simp only [ScopesActive, NoClobber]
  induction p with
  | pure f =>
    intro _ _ _ m0 m1 _ _ a b l ht P _
    simp only [trace] at ht
    simp only [ptrace]
    rcases hfa : f a with e | b' <;> rw [hfa] at ht <;> simp at ht
    exact ⟨[], by simp [ht.1], by simp [ht.2]⟩
  | seq p q ihp ihq =>
    intro hc hs hr m0 m1 hm hf a b l ht P hP
    simp only [metaOf] at hm
    rcases hmp : metaOf S p m0 with e | m <;> rw [hmp] at hm
    · simp at hm
    simp only [except_bind_ok] at hm
    simp only [trace] at ht
    rcases h1 : trace fuel p a with e | ⟨b1, l1⟩ <;> rw [h1] at ht
    · simp at ht
    simp only [except_bind_ok] at ht
    rcases h2 : trace fuel q b1 with e | ⟨b2, l2⟩ <;> rw [h2] at ht
    · simp at ht
    simp only [except_bind_ok, except_pure, Except.ok.injEq, Prod.mk.injEq] at ht
    obtain ⟨rfl, rfl⟩ := ht
    have hfm : Fits (fun _ => false) m := Fits.metaOf hr.1 hmp hf
    have hexcl : ∀ n, (declares S n (sites p)).isSome → declares S n (sites q) = none := by
      intro n hn
      obtain ⟨k, hk⟩ := Option.isSome_iff_exists.1 hn
      exact metaOf_nonclobber hm (NoClobber.declares p hc.1 n k hk)
        (by rw [(metaOf_get S p hmp).1 n, hk]; rfl)
    obtain ⟨l1', hl1, hv1⟩ := ihp hc.1 hs.1 hr.1 hmp hf a b1 l1 h1 P (by
      intro n hn
      refine (hP n (by rw [sites, declares_append, Option.isSome_or, hn, Bool.or_true])).imp_right ?_
      rw [collect_append, collect_undeclared hr.2 hm hfm h2 (hexcl n hn), Option.none_or]; exact id)
    obtain ⟨l2', hl2, hv2⟩ := ihq hc.2 hs.2 hr.2 hm hfm b1 b2 l2 h2 P (by
      intro n hn
      have hpn : declares S n (sites p) = none := by
        rw [← Option.not_isSome_iff_eq_none]
        intro h
        rw [hexcl n h] at hn; simp at hn
      refine (hP n (by rw [sites, declares_append, Option.isSome_or, hn, Bool.true_or])).imp_right ?_
      rw [collect_append, collect_undeclared hr.1 hmp hf h1 hpn, Option.or_none]; exact id)
    exact ⟨l1' ++ l2', by simp only [ptrace, hl1, except_bind_ok, hl2, except_pure], fun n hn => by
      rw [collect_append, collect_append, hv1 n hn, hv2 n hn]⟩
  | sow tag name mode pre pred post =>
    intro hc hs hr m0 m1 hm hf a b l ht P hP
    simp only [trace, Except.ok.injEq, Prod.mk.injEq] at ht
    obtain ⟨rfl, rfl⟩ := ht
    simp only [ptrace]
    by_cases ha : S.active tag name = true
    · have hmode : mode ≠ .condClobber := by
        intro h; have := hc ha; rw [h] at this; simp [Mode.isClobber] at this
      have := hP name (by simp [sites, declares, Site.declares, ha])
      simp only [collect, Ev.collect, ha, hmode, true_and, false_imp_iff, and_self, if_true,
        Option.none_or, Option.getD_some] at this
      rw [if_pos ha]
      rcases this with this | this
      · rw [this]
        exact ⟨_, rfl, fun _ _ => rfl⟩
      · rw [this]
        refine ⟨_, rfl, fun n hn => ?_⟩
        have : ¬ name = n := by rintro rfl; rw [this] at hn; simp at hn
        simp [collect, Ev.collect, this]
    · rw [if_neg ha]
      split
      · exact ⟨_, rfl, fun _ _ => rfl⟩
      · exact ⟨_, rfl, fun n _ => by simp [collect, Ev.collect, ha]⟩
  | nest scope pre body post ih =>
    intro hc hs hr m0 m1 hm hf a b l ht P hP
    simp only [metaOf] at hm
    rcases hmp : metaOf S body [] with e | m <;> rw [hmp] at hm
    · simp at hm
    simp only [trace] at ht
    rcases h1 : trace fuel body (pre a) with e | ⟨b1, l1⟩ <;> rw [h1] at ht <;> simp at ht
    obtain ⟨rfl, rfl⟩ := ht
    obtain ⟨l', hl', hv'⟩ := ih hc.2 hs.2 hr.1 hmp (Fits.nil _) _ b1 l1 h1 (inScope P scope) (by
      intro n hn
      have hany : anySite S (sites body) = true := (anySite_iff S _).2 ⟨n, hn⟩
      have := hP scope (by simp [sites, declares, Site.declares, hs.1, hany])
      simp only [collect, Ev.collect, hs.1, hany, and_self, if_true, Option.none_or,
        Option.getD_some] at this
      rcases this with this | this
      · left; simp only [inScope, this]
      · right; simp only [inScope, this, hn, if_true])
    simp only [ptrace, hl', except_map_ok]
    refine ⟨_, rfl, fun n hn => ?_⟩
    by_cases hsn : scope = n
    · subst hsn
      have hin : inScope P scope = fun _ => none := by simp [inScope, hn]
      rw [hin] at hv' ⊢
      simp only [collect, Ev.collect, anySite_kept, declares_keptSites (P := (fun _ => none : Dict V)) rfl,
        fun k => hv' k rfl]
    · simp [collect, Ev.collect, hsn]
  | inline pre body post ih =>
    intro hc hs hr m0 m1 hm hf a b l ht P hP
    simp only [trace] at ht
    rcases h1 : trace fuel body (pre a) with e | ⟨b1, l1⟩ <;> rw [h1] at ht <;> simp at ht
    obtain ⟨rfl, rfl⟩ := ht
    obtain ⟨l', hl', hv'⟩ := ih hc hs hr hm hf _ b1 l1 h1 P hP
    simp only [ptrace, hl', except_map_ok]
    exact ⟨_, rfl, hv'⟩
  | call _ pre body post ih =>
    intro hc hs hr m0 m1 hm hf a b l ht P hP
    simp only [metaOf] at hm
    rcases hmp : metaOf S body [] with e | m <;> rw [hmp] at hm
    · simp at hm
    simp only [trace] at ht
    rcases h1 : trace fuel body (pre a) with e | ⟨b1, l1⟩ <;> rw [h1] at ht <;> simp at ht
    obtain ⟨rfl, rfl⟩ := ht
    obtain ⟨l', hl', hv'⟩ := ih hc hs hr hmp (Fits.nil _) _ b1 l1 h1 P hP
    simp only [ptrace, hl', except_map_ok]
    exact ⟨_, rfl, hv'⟩
  | cond j sel pre br post ih =>
    intro hc hs hr m0 m1 hm hf a b l ht P hP
    simp only [metaOf] at hm
    rcases hp0 : metaOf S (br 0) [] with e | first <;> rw [hp0] at hm
    · simp at hm
    simp only [except_bind_ok] at hm
    rcases hmq : (List.finRange (j + 1)).mapM (fun i => metaOf S (br i) []) with e | ms <;>
      rw [hmq] at hm
    · simp at hm
    simp only [except_bind_ok] at hm
    rcases hcc : metaCond first ms with e | u <;> rw [hcc] at hm
    · simp at hm
    obtain ⟨mi, hmi, hb⟩ := metaBranch_of_metaOf_cond hmq hcc (sel a)
    simp only [trace] at ht
    rcases h1 : trace fuel (br (sel a)) (pre a) with e | ⟨b1, l1⟩ <;> rw [h1] at ht <;> simp at ht
    obtain ⟨rfl, rfl⟩ := ht
    obtain ⟨l', hl', hv'⟩ := ih (sel a) (hc _) (hs _) (hr _) hmi (Fits.nil _) _ b1 l1 h1 P (by
      intro n hn
      apply hP
      have := ((metaBranch_ok (metaOf_nil_keys hmi) hb) n).1
      rw [metaOf_nil_get hmi, metaOf_nil_get hp0] at this
      exact this.1 hn)
    simp only [ptrace, hl', except_map_ok]
    exact ⟨_, rfl, hv'⟩
  | scan rev pre body post ih =>
    intro hc hs hr m0 m1 hm hf a b l ht P hP
    simp only [metaOf] at hm
    rcases hmp : metaOf S body [] with e | m <;> rw [hmp] at hm
    · simp at hm
    simp only [except_bind_ok] at hm
    rcases hms : metaScan m with e | u <;> rw [hms] at hm
    · simp at hm
    have happ : ∀ n, (declares S n (sites body)).isSome → declares S n (sites body) = some .append := by
      intro n hn
      obtain ⟨k, hk⟩ := Option.isSome_iff_exists.1 hn
      have h1 := NoClobber.declares body hc n k hk
      have h2 := metaScan_ok hms n
      rw [metaOf_nil_get hmp, hk] at h2
      have h3 := metaOf_valid body hmp n
      rw [hk] at h3 ⊢
      cases k <;> simp_all [Mode.isClobber]
    simp only [trace] at ht
    rcases h1 : scanDir rev (fun kx => (trace fuel body kx).map (fun r => (r.1.1, (r.1.2, r.2))))
      (pre a).1 (pre a).2 with e | ⟨k', ys⟩ <;> rw [h1] at ht <;> simp at ht
    obtain ⟨rfl, rfl⟩ := ht
    have hlen : (pre a).2.length = ys.length := (scanDir_zip rev _ _ _ h1).length_eq
    have hPn : ∀ n, (declares S n (sites body)).isSome → P n = none ∨
        P n = some (.stack (ys.map (fun y => (collect S n y.2).getD .zeros))) := by
      intro n hn
      refine (hP n hn).imp_right (fun h => ?_)
      rw [h]
      simp [collect, Ev.collect, happ n hn, collectIters_eq_map]
    have hent : entriesOk S (sites body) P (pre a).2.length := by
      intro n v hn hv
      rcases hPn n (by rw [hn]; rfl) with h | h <;> rw [h] at hv
      · simp at hv
      simp at hv
      subst hv
      simp [Val.hasEntries, hlen]
    obtain ⟨zs, hz1, hz2⟩ := scanDir_follow rev
      (f := fun kx => (trace fuel body kx).map (fun r => (r.1.1, (r.1.2, r.2))))
      (g := fun kx : _ × _ × Nat =>
          (ptrace S fuel body (iterPlant S (sites body) P kx.2.2) (kx.1, kx.2.1)).map
            (fun r => (r.1.1, (r.1.2, r.2))))
      (φ := fun y => (y.1, freeView S P y.2)) (ψ := fun y => (y.1, freeView S P y.2))
      (R := fun x u y => x = u.1 ∧ ∀ n, (declares S n (sites body)).isSome →
        iterPlant S (sites body) P u.2 n = none ∨
        iterPlant S (sites body) P u.2 n = some ((collect S n y.2).getD .zeros))
      (by
        rintro k x ⟨x', i⟩ y k' ⟨rfl, hR⟩ hk
        simp only at hR hk ⊢
        rcases h2 : trace fuel body (k, x) with e | s <;> rw [h2] at hk <;> simp at hk
        obtain ⟨rfl, rfl⟩ := hk
        obtain ⟨l', hl', hv'⟩ := ih hc hs hr.1 hmp (Fits.nil _) _ s.1 s.2 h2 _ hR
        refine ⟨(s.1.2, l'), by rw [hl']; rfl, ?_⟩
        refine Prod.ext rfl (freeView_eq.2 fun n hn => hv' n ?_)
        simp [iterPlant, hn])
      _ (pre a).2.zipIdx _ _ _ h1
      (by
        rw [List.forall₂_iff_get]
        refine ⟨by simp [hlen], fun i h2 h3 => ?_⟩
        simp only [List.get_eq_getElem, List.getElem_zip, List.getElem_zipIdx, Nat.zero_add]
        refine ⟨trivial, fun n hn => ?_⟩
        simp only [iterPlant, happ n hn, if_true]
        rcases hPn n hn with h | h <;> rw [h]
        · left; rfl
        · right
          simp only [Option.bind_some, Val.entry]
          rw [List.getElem?_eq_getElem (by simpa using h3)]
          simp)
      (by simp)
    simp only [ptrace]
    rw [if_pos hent, hz1, except_map_ok]
    have e1 : zs.map (·.1) = ys.map (·.1) := by
      have := congrArg (List.map Prod.fst) hz2
      simpa [List.map_map, Function.comp_def] using this
    have e2 : zs.map (fun y => freeView S P y.2) = ys.map (fun y => freeView S P y.2) := by
      have := congrArg (List.map Prod.snd) hz2
      simpa [List.map_map, Function.comp_def] using this
    refine ⟨_, by rw [e1], fun n hn => ?_⟩
    have e3 : zs.map (fun y => collect S n y.2) = ys.map (fun y => collect S n y.2) := by
      have := congrArg (List.map (fun (v : String → Option (Val V)) => v n)) e2
      simpa [List.map_map, Function.comp_def, freeView, hn] using this
    have e4 : collectIters S n (zs.map (·.2)) = collectIters S n (ys.map (·.2)) := by
      rw [collectIters_eq_map, collectIters_eq_map, List.map_map, List.map_map]; exact e3
    simp only [collect, Ev.collect, declares_keptSites hn, e4]
  | whileL pre test body post iht ihb =>
    intro hc hs hr m0 m1 hm hf a b l ht P hP
    simp only [metaOf] at hm
    rcases hmp : metaOf S body [] with e | m <;> rw [hmp] at hm
    · simp at hm
    simp only [except_bind_ok] at hm
    rcases hms : metaWhile m with e | u <;> rw [hms] at hm
    · simp at hm
    have hnone : ∀ n, declares S n (sites body) = none := by
      intro n
      cases hk : declares S n (sites body) with
      | none => rfl
      | some k =>
        have h1 := NoClobber.declares body hc.2 n k hk
        have h2 := metaWhile_ok hms n k (by rw [metaOf_nil_get hmp, hk])
        rw [h1] at h2; simp at h2
    simp only [trace] at ht
    rcases h1 : loopT (fun k => trace fuel test k) (fun k => trace fuel body k) fuel (pre a) with e | r <;>
      rw [h1] at ht <;> simp at ht
    obtain ⟨rfl, rfl⟩ := ht
    obtain ⟨ls, hls, hφ⟩ := loopT_follow_log (freeView S P) _ _ (fun k => ptrace S fuel body P k) (by
      intro k r hk
      obtain ⟨l', hl', hv'⟩ := ihb hc.2 hs.2 hr.1 hmp (Fits.nil _) k r.1 r.2 hk P
        (by intro n hn; rw [hnone n] at hn; simp at hn)
      exact ⟨l', hl', freeView_eq.2 hv'⟩)
      _ _ _ h1
    simp only [ptrace, hls, except_map_ok]
    refine ⟨_, rfl, fun n hn => ?_⟩
    have e3 : ls.map (collect S n) = r.2.1.map (collect S n) := by
      have := congrArg (List.map (fun (v : String → Option (Val V)) => v n)) hφ
      simpa [List.map_map, Function.comp_def, freeView, hn] using this
    simp only [collect, Ev.collect, declares_keptSites hn, collectIters_eq_map, e3]

end Verif.Harvest
