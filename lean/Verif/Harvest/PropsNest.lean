/-
Property theorems C12 (nest gives each scope its own namespace) and C13 (allowlist and blocklist).
-/
import Verif.Harvest.PropsRound

namespace Verif.Harvest

/-! ### C12 -/

/-- The program `nest(f, scope=s)`. -/
def nestOf {V A B : Type} (s : String) (f : Prog V A B) : Prog V A B := .nest s id f (fun _ y => y)

/-- The dictionary `{s: D}`. -/
def singleton {V : Type} (s : String) (D : Dict V) : Dict V := fun n => if n = s then some (.dict D) else none

theorem metaOf_nestOf {V A B : Type} {S : Settings} {s : String} {f : Prog V A B}
    (hs : S.active S.tag s = true) {m : Meta} (hm : metaOf S f [] = .ok m) (m0 : Meta) (h0 : m0.get s = none) :
    metaOf S (nestOf s f) m0 = .ok (if m.isEmpty then m0 else m0.set s .strict) := by
  simp only [nestOf, metaOf, hm, except_bind_ok, dispatch_handle.2 hs, Meta.handle, h0]
  cases m.isEmpty <;> rfl

open Classical in
/-- C12 (partial: no `sow_cond` inside, for which the predicate is lost, see `nest_drops_pred_witness`):
`nest(f, s)` is accepted exactly when `f` is, and its dictionary is `{s: reap(f)}`, or empty if `f` sows
nothing. -/
theorem nest_reap_partial {V A B : Type} (S : Settings) (s : String) (hs : S.active S.tag s = true)
    (f : Prog V A B) (hreg : Regular S (fun _ => false) f) (h : Prog V A (B × Dict V))
    (hf : callAndReap S f = .ok h) :
    ∃ g, callAndReap S (nestOf s f) = .ok g ∧ ∀ fuel a,
      run fuel g a = (run fuel h a).map (fun r =>
        (r.1, if ∃ n, (r.2 n).isSome then singleton s r.2 else fun _ => none)) := by
  obtain ⟨m, hm, -⟩ := callAndReap_ok hf
  have hacc : ∃ g, callAndReap S (nestOf s f) = .ok g := by
    simp only [callAndReap, metaOf_nestOf hs hm [] rfl]
    exact ⟨_, rfl⟩
  obtain ⟨g, hg⟩ := hacc
  refine ⟨g, hg, fun fuel a => ?_⟩
  rw [reap_exact_partial S (fun _ => false) (nestOf s f) g ⟨hreg, rfl⟩ hg, reap_exact_partial S _ f h hreg hf]
  simp only [nestOf, trace, id]
  rcases trace fuel f a with e | ⟨b, l⟩
  · rfl
  · simp only [except_map_ok, Except.ok.injEq, Prod.mk.injEq, true_and]
    funext n
    by_cases hany : anySite S (sites f) = true
    · obtain ⟨k, hk⟩ := (anySite_iff S _).1 hany
      have hex : ∃ n, (expected S f l n).isSome := ⟨k, by simp [expected, hk]⟩
      rw [if_pos hex]
      simp only [expected, sites, declares, Site.declares, hs, hany, singleton, collect, Ev.collect]
      by_cases hn : n = s
      · subst hn; simp; rfl
      · have hn' : ¬ s = n := fun e => hn e.symm
        simp [hn, hn']
    · have hnone := (anySite_false_iff S (sites f)).1 (by simpa using hany)
      have hex : ¬ ∃ n, (expected S f l n).isSome := by
        rintro ⟨k, hk⟩
        simp [expected, hnone k] at hk
      rw [if_neg hex]
      simp [expected, sites, declares, Site.declares, hany]

/-- C12: rejection is inherited. -/
theorem nest_reap_rejected {V A B : Type} (S : Settings) (s : String) (f : Prog V A B) (e : Err)
    (hf : callAndReap S f = .error e) : callAndReap S (nestOf s f) = .error e := by
  simp only [callAndReap] at hf ⊢
  rcases hm : metaOf S f [] with e' | m <;> rw [hm] at hf <;> simp at hf
  subst hf
  simp only [nestOf, metaOf, hm]; rfl

/-- C12: planting `nest(f, s)` with `P` is planting `f` with `P.get(s, {})`. -/
theorem nest_plant {V A B : Type} (S : Settings) (s : String) (f : Prog V A B) (P : Dict V) :
    (∀ e, plant S (nestOf s f) P = .error e ↔ plant S f (inScope P s) = .error e) ∧
    ∀ g g', plant S (nestOf s f) P = .ok g → plant S f (inScope P s) = .ok g' →
      ∀ fuel a, run fuel g a = run fuel g' a := by
  constructor
  · intro e
    simp only [plant, nestOf, plantCheck, subPlants_eq]
    rcases plantCheck S f (inScope P s) [] with e' | st <;> simp
  · intro g g' hg hg' fuel a
    obtain ⟨-, rfl⟩ := plant_ok hg
    obtain ⟨-, rfl⟩ := plant_ok hg'
    simp only [nestOf, plantT, run, except_bind_ok, id, subPlants_eq]
    rcases run fuel (plantT S f (inScope P s)) (a, inScope P s) with e | r <;> rfl

open Classical in
/-- C12: no collision.  After any accepted `p` that does not declare the scope name `s`, the nested `f` is
accepted whatever names it sows; the entries of `p` are unchanged and the entry `s` is the dictionary of `f`. -/
theorem nest_no_collision_partial {V A B C : Type} (S : Settings) (s : String)
    (hs : S.active S.tag s = true) (p : Prog V A B) (f : Prog V B C) (c : String → Bool)
    (hcs : c s = false) (hregp : Regular S c p) (hreg : Regular S (fun _ => false) f)
    (hp : Prog V A (B × Dict V)) (hpa : callAndReap S p = .ok hp)
    (hf : Prog V B (C × Dict V)) (hfa : callAndReap S f = .ok hf)
    (hnew : declares S s (sites p) = none) :
    ∃ g, callAndReap S (.seq p (nestOf s f)) = .ok g ∧ ∀ fuel a r, run fuel g a = .ok r →
      ∃ rp rf, run fuel hp a = .ok rp ∧ run fuel hf rp.1 = .ok rf ∧ r.1 = rf.1 ∧
        (∀ n, n ≠ s → r.2 n = rp.2 n) ∧
        (r.2 s = if ∃ n, (rf.2 n).isSome then some (Val.dict rf.2) else none) := by
  obtain ⟨mp, hmp, -⟩ := callAndReap_ok hpa
  obtain ⟨mf, hmf, -⟩ := callAndReap_ok hfa
  have hacc : ∃ g, callAndReap S (.seq p (nestOf s f)) = .ok g := by
    simp only [callAndReap, metaOf, hmp, except_bind_ok]
    rw [metaOf_nestOf hs hmf mp (by rw [metaOf_nil_get hmp, hnew])]
    exact ⟨_, rfl⟩
  obtain ⟨g, hg⟩ := hacc
  refine ⟨g, hg, fun fuel a r hr => ?_⟩
  rw [reap_exact_partial S c (.seq p (nestOf s f)) g ⟨hregp, hreg, hcs⟩ hg] at hr
  simp only [reap_exact_partial S c p hp hregp hpa, reap_exact_partial S _ f hf hreg hfa]
  simp only [trace, nestOf, id] at hr
  rcases htp : trace fuel p a with e | ⟨b, lp⟩ <;> rw [htp] at hr
  · simp at hr
  simp only [except_bind_ok] at hr
  rcases htf : trace fuel f b with e | ⟨y, lf⟩ <;> rw [htf] at hr
  · simp at hr
  simp only [except_map_ok, except_bind_ok, except_pure, Except.ok.injEq] at hr
  subst hr
  refine ⟨(b, expected S p lp), (y, expected S f lf), rfl, by rw [htf]; rfl, rfl, ?_, ?_⟩
  · intro n hn
    have hn' : ¬ s = n := fun e => hn e.symm
    simp [expected, sites, declares_append, declares, Site.declares, hn', collect_append, collect, Ev.collect]
  · have hcol : collect S s lp = none := collect_undeclared hregp hmp (Fits.nil _) htp hnew
    by_cases hany : anySite S (sites f) = true
    · obtain ⟨k, hk⟩ := (anySite_iff S _).1 hany
      have hex : ∃ n, (expected S f lf n).isSome := ⟨k, by simp [expected, hk]⟩
      rw [if_pos hex]
      simp [expected, sites, declares_append, declares, Site.declares, hs, hany, collect_append, collect,
        Ev.collect]
      rfl
    · have hnone := (anySite_false_iff S (sites f)).1 (by simpa using hany)
      have hex : ¬ ∃ n, (expected S f lf n).isSome := by
        rintro ⟨k, hk⟩
        simp [expected, hnone k] at hk
      rw [if_neg hex]
      simp [expected, sites, declares_append, declares, Site.declares, hany, hnew]

/-! ### C13 -/

theorem declares_active {S : Settings} {n : String} {ss : List Site} (h : (declares S n ss).isSome) :
    S.active S.tag n = true := by
  induction ss with
  | nil => simp [declares] at h
  | cons s ss ih =>
    rcases declares_cons_isSome.1 h with h | h
    · exact ih h
    · cases s with
      | sow tag name mode =>
        simp only [Site.declares] at h
        split at h
        · rename_i hh
          obtain ⟨rfl, ha⟩ := hh
          have : tag = S.tag := by
            simp only [Settings.active, Bool.and_eq_true, beq_iff_eq] at ha
            exact ha.1.1
          rw [← this]; exact ha
        · simp at h
      | nest scope inner =>
        simp only [Site.declares] at h
        split at h
        · rename_i hh
          obtain ⟨rfl, ha, -⟩ := hh
          exact ha
        · simp at h

/-- The name is filtered out by the lists. -/
def Settings.filtered (S : Settings) (n : String) : Prop :=
  n ∈ S.blocklist ∨ ∃ l, S.allowlist = some l ∧ n ∉ l

theorem Settings.filtered_iff (S : Settings) (n : String) : S.filtered n ↔ S.active S.tag n = false := by
  simp only [filtered, active, beq_self_eq_true, Bool.true_and]
  cases S.allowlist <;> simp
  by_cases h : n ∈ S.blocklist <;> simp [h]

/-- C13: a filtered name is never reaped. -/
theorem filtered_not_reaped {V A B : Type} (S : Settings) (f : Prog V A B) (g : Prog V A (B × Dict V))
    (h : callAndReap S f = .ok g) (n : String) (hn : S.filtered n) (fuel : Nat) (a : A) (r : B × Dict V)
    (hr : run fuel g a = .ok r) : r.2 n = none := by
  have := reap_keys S f g h fuel a r hr n
  rw [S.filtered_iff] at hn
  cases hd : declares S n (sites f) with
  | none => rw [hd] at this; simpa using this
  | some k =>
    have := declares_active (S := S) (n := n) (ss := sites f) (by rw [hd]; rfl)
    rw [hn] at this; simp at this

/-- C13: planting a filtered name has no effect. -/
theorem filtered_not_planted {V A B : Type} (S : Settings) (f : Prog V A B) (P Q : Dict V)
    (g g' : Prog V A B) (hg : plant S f P = .ok g) (hg' : plant S f Q = .ok g') (hs : ScopesActive S f)
    (hP : Plain P) (hQ : Plain Q) (h : ∀ n, ¬ S.filtered n → P n = Q n) (fuel : Nat) (a : A) :
    run fuel g a = run fuel g' a := by
  rw [plant_override_run S f P g hg hs hP, plant_override_run S f Q g' hg' hs hQ]
  obtain ⟨⟨st, hc⟩, -⟩ := plant_ok hg
  rw [ptrace_congr fuel f P _ _ hc hs P Q (fun k hk => h k (by
    rw [S.filtered_iff, declares_active hk]; simp))]

/-- The same settings without lists. -/
def Settings.unfiltered (S : Settings) : Settings := { S with blocklist := [], allowlist := none }

/-- No nested scope in the program. -/
def NoNest {V A B : Type} (p : Prog V A B) : Prop := AllSows true (fun _ _ _ => True) (fun _ => False) p

mutual
/-- No nested scope in the event. -/
def Ev.noNest {V : Type} : Ev V → Prop
  | .sow .. => True
  | .nest .. => False
  | .scan _ ss iters => siteNoNest ss ∧ noNestIters iters
  | .loop ss iters tests => siteNoNest ss ∧ noNestIters iters ∧ logNoNest tests
def logNoNest {V : Type} : List (Ev V) → Prop
  | [] => True
  | e :: es => e.noNest ∧ logNoNest es
def noNestIters {V : Type} : List (List (Ev V)) → Prop
  | [] => True
  | l :: ls => logNoNest l ∧ noNestIters ls
def siteNoNest : List Site → Prop
  | [] => True
  | .sow .. :: ss => siteNoNest ss
  | .nest .. :: _ => False
end

theorem active_unfiltered {S : Settings} {n tag : String} (hn : ¬ S.filtered n) :
    S.active tag n = S.unfiltered.active tag n := by
  rw [S.filtered_iff] at hn
  simp only [Settings.active, Settings.unfiltered, beq_self_eq_true, Bool.true_and, Bool.not_eq_false] at hn ⊢
  rw [Bool.and_assoc, hn]
  simp

theorem declares_unfiltered {S : Settings} {n : String} (hn : ¬ S.filtered n) : ∀ {ss : List Site},
    siteNoNest ss → declares S n ss = declares S.unfiltered n ss
  | [], _ => rfl
  | .sow tag name mode :: ss, h => by
    simp only [declares, declares_unfiltered hn (ss := ss) h, Site.declares]
    by_cases hh : name = n
    · subst hh; rw [active_unfiltered hn]
    · simp [hh]
  | .nest .. :: ss, h => by simp [siteNoNest] at h

mutual
theorem Ev.collect_unfiltered {V : Type} {S : Settings} {n : String} (hn : ¬ S.filtered n) : ∀ (e : Ev V),
    e.noNest → e.collect S n = e.collect S.unfiltered n
  | .sow tag name mode v pred, _ => by
    simp only [Ev.collect]
    by_cases hh : name = n
    · subst hh; rw [active_unfiltered hn]
    · simp [hh]
  | .nest .., h => by simp [Ev.noNest] at h
  | .scan rev ss iters, h => by
    simp only [Ev.collect, declares_unfiltered hn h.1, collectIters_unfiltered hn iters h.2]
  | .loop ss iters tests, h => by
    simp only [Ev.collect, declares_unfiltered hn h.1, collectIters_unfiltered hn iters h.2.1,
      collect_unfiltered hn tests h.2.2]
theorem collect_unfiltered {V : Type} {S : Settings} {n : String} (hn : ¬ S.filtered n) : ∀ (l : List (Ev V)),
    logNoNest l → collect S n l = collect S.unfiltered n l
  | [], _ => rfl
  | e :: es, h => by
    simp only [collect, collect_unfiltered hn es h.2, Ev.collect_unfiltered hn e h.1]
theorem collectIters_unfiltered {V : Type} {S : Settings} {n : String} (hn : ¬ S.filtered n) :
    ∀ (ls : List (List (Ev V))), noNestIters ls → collectIters S n ls = collectIters S.unfiltered n ls
  | [], _ => rfl
  | l :: ls, h => by
    simp only [collectIters, collect_unfiltered hn l h.1, collectIters_unfiltered hn ls h.2]
end

theorem siteNoNest_append {l r : List Site} (hl : siteNoNest l) (hr : siteNoNest r) : siteNoNest (l ++ r) := by
  induction l with
  | nil => exact hr
  | cons s l ih => cases s with
    | sow tag name mode => exact ih hl
    | nest scope inner => simp [siteNoNest] at hl

theorem logNoNest_append {V : Type} {l r : Log V} (hl : logNoNest l) (hr : logNoNest r) :
    logNoNest (l ++ r) := by
  induction l with
  | nil => exact hr
  | cons s l ih => exact ⟨hl.1, ih hl.2⟩

theorem noNestIters_iff {V : Type} {ls : List (Log V)} : noNestIters ls ↔ ∀ l ∈ ls, logNoNest l := by
  induction ls with
  | nil => simp [noNestIters]
  | cons l ls ih => simp [noNestIters, ih]

theorem NoNest.sites {V A B : Type} (p : Prog V A B) (h : NoNest p) : siteNoNest (sites p) := by
  simp only [NoNest] at h
  induction p with
  | pure f => trivial
  | seq p q ihp ihq => exact siteNoNest_append (ihp h.1) (ihq h.2)
  | sow tag name mode pre pred post => trivial
  | nest scope pre body post ih => exact h.1.elim
  | inline pre body post ih => exact ih h
  | call _ pre body post ih => exact ih h
  | cond j sel pre br post ih => exact ih 0 (h 0)
  | scan rev pre body post ih => exact ih h
  | whileL pre test body post iht ihb => exact ihb h.2

theorem NoNest.log {V A B : Type} (fuel : Nat) (p : Prog V A B) (h : NoNest p) : ∀ (a : A) r,
    trace fuel p a = .ok r → logNoNest r.2 := by
  simp only [NoNest] at h
  induction p with
  | pure f =>
    intro a r ht
    simp only [trace] at ht
    rcases hf : f a with e | b <;> rw [hf] at ht <;> simp at ht
    subst ht; trivial
  | seq p q ihp ihq =>
    intro a r ht
    simp only [trace] at ht
    rcases h1 : trace fuel p a with e | r1 <;> rw [h1] at ht
    · simp at ht
    simp only [except_bind_ok] at ht
    rcases h2 : trace fuel q r1.1 with e | r2 <;> rw [h2] at ht
    · simp at ht
    simp only [except_bind_ok, except_pure, Except.ok.injEq] at ht
    subst ht
    exact logNoNest_append (ihp h.1 a r1 h1) (ihq h.2 _ r2 h2)
  | sow tag name mode pre pred post =>
    intro a r ht
    simp only [trace, Except.ok.injEq] at ht
    subst ht; exact ⟨trivial, trivial⟩
  | nest scope pre body post ih => exact h.1.elim
  | inline pre body post ih | call _ pre body post ih =>
    intro a r ht
    simp only [trace] at ht
    rcases h1 : trace fuel body (pre a) with e | r1 <;> rw [h1] at ht <;> simp at ht
    subst ht; exact ih h _ _ h1
  | cond j sel pre br post ih =>
    intro a r ht
    simp only [trace] at ht
    rcases h1 : trace fuel (br (sel a)) (pre a) with e | r1 <;> rw [h1] at ht <;> simp at ht
    subst ht; exact ih _ (h _) _ _ h1
  | scan rev pre body post ih =>
    intro a r ht
    simp only [trace] at ht
    rcases h1 : scanDir rev (fun kx => (trace fuel body kx).map (fun r => (r.1.1, (r.1.2, r.2))))
      (pre a).1 (pre a).2 with e | s <;> rw [h1] at ht <;> simp at ht
    subst ht
    refine ⟨⟨NoNest.sites body h, noNestIters_iff.2 ?_⟩, trivial⟩
    intro l hl
    obtain ⟨y, hy, rfl⟩ := List.mem_map.1 hl
    have := scanDir_zip rev _ _ _ h1
    obtain ⟨i, hi, rfl⟩ := List.getElem_of_mem hy
    have := (List.forall₂_iff_get.1 this).2 i (by rw [this.length_eq]; exact hi) hi
    obtain ⟨k, k', hk⟩ := this
    simp only [List.get_eq_getElem] at hk
    rcases h2 : trace fuel body (k, (pre a).2[i]'(by have := (scanDir_zip rev _ _ _ h1).length_eq; omega)) with e | u <;>
      rw [h2] at hk <;> simp at hk
    have := ih h _ _ h2
    rw [← hk.2]; exact this
  | whileL pre test body post iht ihb =>
    intro a r ht
    simp only [trace] at ht
    rcases h1 : loopT (fun k => trace fuel test k) (fun k => trace fuel body k) fuel (pre a) with e | s <;>
      rw [h1] at ht <;> simp at ht
    subst ht
    have key : ∀ n k s, loopT (fun k => trace fuel test k) (fun k => trace fuel body k) n k = .ok s →
        noNestIters s.2.1 ∧ logNoNest s.2.2 := by
      intro n
      induction n with
      | zero => intro k s hs; simp [loopT] at hs
      | succ n ih =>
        intro k s hs
        simp only [loopT] at hs
        rcases h2 : trace fuel test k with e | t <;> rw [h2] at hs
        · simp at hs
        have ht := iht (h.1 rfl) _ _ h2
        simp only [except_bind_ok] at hs
        split at hs
        · rcases h3 : trace fuel body k with e | u <;> rw [h3] at hs
          · simp at hs
          simp only [except_bind_ok] at hs
          rcases h4 : loopT (fun k => trace fuel test k) (fun k => trace fuel body k) n u.1 with e | v <;>
            rw [h4] at hs
          · simp at hs
          simp only [except_bind_ok, except_pure, Except.ok.injEq] at hs
          subst hs
          have := ih _ _ h4
          exact ⟨⟨ihb h.2 _ _ h3, this.1⟩, logNoNest_append ht this.2⟩
        · simp only [except_pure, Except.ok.injEq] at hs
          subst hs
          exact ⟨trivial, ht⟩
    have := key _ _ _ h1
    exact ⟨⟨NoNest.sites body h.2, this⟩, trivial⟩

/-- C13 (partial: no nested scopes, `Regular`): names that are not filtered are reaped as without the lists. -/
theorem unfiltered_same_partial {V A B : Type} (S : Settings) (c : String → Bool) (f : Prog V A B)
    (hn : NoNest f) (hreg : Regular S c f) (hreg' : Regular S.unfiltered c f)
    (g : Prog V A (B × Dict V)) (h : callAndReap S f = .ok g)
    (g' : Prog V A (B × Dict V)) (h' : callAndReap S.unfiltered f = .ok g') (n : String)
    (hf : ¬ S.filtered n) (fuel : Nat) (a : A) (r r' : B × Dict V)
    (hr : run fuel g a = .ok r) (hr' : run fuel g' a = .ok r') : r.1 = r'.1 ∧ r.2 n = r'.2 n := by
  rw [reap_exact_partial S c f g hreg h] at hr
  rw [reap_exact_partial S.unfiltered c f g' hreg' h'] at hr'
  rcases ht : trace fuel f a with e | s <;> rw [ht] at hr hr' <;> simp at hr hr'
  subst hr hr'
  refine ⟨rfl, ?_⟩
  simp only [expected, declares_unfiltered hf (NoNest.sites f hn),
    collect_unfiltered hf _ (NoNest.log fuel f hn a s ht)]

end Verif.Harvest
