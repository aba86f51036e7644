/-
C19: `block`.
-/
import Verif.Ppl.Props
import Verif.Harvest.PropsTags

namespace Verif.Ppl

open Verif.Harvest

/-- The settings used by `block`. -/
def blockS (names : List String) : Settings := { rvS with blocklist := names }

theorem rvS_tag : rvS.tag = rvTag := rfl
theorem blockS_tag (names : List String) : (blockS names).tag = rvTag := rfl
theorem blockS_exclusive (names : List String) : (blockS names).exclusive = false := rfl

theorem blockS_unfiltered (names : List String) : (blockS names).unfiltered = rvS := rfl

theorem blockS_active (names : List String) (tag n : String) :
    (blockS names).active tag n = (decide (tag = rvTag) && decide (n ∉ names)) := by
  simp [Settings.active, blockS, rvS, Bool.beq_eq_decide_eq]

/-- Planting nothing does not change what a program computes. -/
theorem run_plantT_none {V A B : Type} (S : Settings) (fuel : Nat) (p : Prog V A B) :
    (∃ st st', plantCheck S p (fun _ => none) st = .ok st') → ∀ (a : A),
    run fuel (plantT S p (fun _ => none)) (a, fun _ => none) =
      (run fuel p a).map (fun r => (r, fun _ => none)) := by
  induction p with
  | pure f =>
    intro _ a
    simp only [plantT, run]
  | seq p q ihp ihq =>
    rintro ⟨st, st', h⟩ a
    obtain ⟨st1, h1, h2⟩ := plantCheck_seq h
    simp only [plantT, run, ihp ⟨_, _, h1⟩]
    rcases run fuel p a with e | r
    · rfl
    · simp only [except_map_ok, except_bind_ok]
      exact ihq ⟨_, _, h2⟩ r
  | sow tag name mode pre pred post =>
    rintro - a
    simp only [plantT]
    cases hd : S.dispatch tag name <;> simp [run]
  | nest scope pre body post ih =>
    rintro ⟨st, st', h⟩ a
    obtain ⟨st2, h2⟩ := plantCheck_nest h
    simp only [plantT, run, subPlants_eq, inScope_none]
    rw [ih ⟨_, _, h2⟩]
    rcases run fuel body (pre a) with e | r <;> rfl
  | inline pre body post ih =>
    rintro ⟨st, st', h⟩ a
    simp only [plantT, run]
    rw [ih ⟨_, _, h⟩]
    rcases run fuel body (pre a) with e | r <;> rfl
  | call kind pre body post ih =>
    rintro ⟨st, st', h⟩ a
    obtain ⟨st1, st2, h2⟩ := plantCheck_call h
    simp only [plantT, run]
    rw [ih ⟨_, _, h2⟩]
    rcases run fuel body (pre a) with e | r <;> rfl
  | cond j sel pre br post ih =>
    rintro ⟨st, st', h⟩ a
    obtain ⟨⟨st2, h2⟩, -⟩ := plantCheck_cond h (sel a)
    simp only [plantT, run]
    rw [ih _ ⟨_, _, h2⟩]
    rcases run fuel (br (sel a)) (pre a) with e | r <;> rfl
  | scan rev pre body post ih =>
    rintro ⟨st, st', h⟩ a
    obtain ⟨mb, st2, hm, h2, -⟩ := plantCheck_scan h
    rw [scanPlants_none] at h2
    simp only [plantT, scanPlants_none, run, allIterPlants, appendNames_none,
      clobberPlants_none, iterPlants, except_bind_ok, except_pure]
    rw [scanDir_forall2 rev _ (fun kx => run fuel body kx) (fun u v => u = (v, fun _ => none)) ?_ _ (pre a).2 _ ?_]
    · rcases scanDir rev _ _ _ with e | r <;> rfl
    · rintro k x x' rfl
      simp only
      rw [ih ⟨_, _, h2⟩]
      rcases run fuel body (k, x') with e | r <;> rfl
    · rw [List.forall₂_iff_get]
      exact ⟨by simp, fun i h1 h2 => by simp⟩
  | whileL pre test body post iht ihb =>
    rintro ⟨st, st', h⟩ a
    obtain ⟨mb, st2, hm, h2⟩ := plantCheck_while h
    simp only [plantT, run, except_bind_ok]
    have key := fun (b' : (_ × Dict V) → Except RErr (_ × Dict V)) hb =>
      loopM_conj (fun k => run fuel test k) (fun k => run fuel body k)
        (fun k => (k, (fun _ => none : Dict V)))
        (fun k => run fuel test k.fst) b' (fun _ => rfl) hb fuel (pre a)
    rw [key]
    · rcases loopM _ _ fuel _ with e | r <;> rfl
    · intro k
      rw [ihb ⟨_, _, h2⟩]

/-- C19: a blocked program computes the same output. -/
theorem block_output {V A B : Type} (f : Prog V A B) (names : List String) (g : Prog V A B)
    (h : block f names = .ok g) (fuel : Nat) (a : A) : run fuel g a = run fuel f a := by
  obtain ⟨⟨st, hc⟩, rfl⟩ := plant_ok h
  simp only [run, except_bind_ok, run_plantT_none _ fuel f ⟨_, _, hc⟩]
  rcases run fuel f a with e | r <;> rfl

mutual
/-- Scope names in the log are not blocked, and the tests of loops sow no random variable. -/
def evOpen {V : Type} (names : List String) : Ev V → Prop
  | .sow .. => True
  | .nest scope ss log => (blockS names).active rvTag scope = true ∧ sitesScopes (blockS names) ss ∧ logOpen names log
  | .scan _ ss iters => sitesScopes (blockS names) ss ∧ itersOpen names iters
  | .loop ss iters tests => sitesScopes (blockS names) ss ∧ itersOpen names iters ∧
      ∀ n, collect rvS n tests = none ∧ collect (blockS names) n tests = none
def logOpen {V : Type} (names : List String) : List (Ev V) → Prop
  | [] => True
  | e :: es => evOpen names e ∧ logOpen names es
def itersOpen {V : Type} (names : List String) : List (List (Ev V)) → Prop
  | [] => True
  | l :: ls => logOpen names l ∧ itersOpen names ls
end

theorem logOpen_append {V : Type} {names : List String} {l r : Log V} (hl : logOpen names l)
    (hr : logOpen names r) : logOpen names (l ++ r) := by
  induction l with
  | nil => exact hr
  | cons s l ih => exact ⟨hl.1, ih hl.2⟩

theorem itersOpen_iff {V : Type} {names : List String} {ls : List (Log V)} :
    itersOpen names ls ↔ ∀ l ∈ ls, logOpen names l := by
  induction ls with
  | nil => simp [itersOpen]
  | cons l ls ih => simp [itersOpen, ih]

theorem rv_any_block {V : Type} (names : List String) : ∀ ss : List Site, sitesScopes (blockS names) ss →
    anySite rvS (keptSites (V := V) (blockS names) (fun _ => none) ss) = anySite (blockS names) ss
  | [], _ => rfl
  | .sow tag name mode :: ss, h => by
    simp only [sitesScopes] at h
    rw [keptSites, anySite_append, rv_any_block names ss h, anySite]
    congr 1
    simp only [Site.kept, blockS_active, Site.any]
    by_cases ht : tag = rvTag
    · by_cases hn : name ∈ names <;> simp [ht, hn, anySite, Site.any, rvS_active, blockS_tag, blockS_exclusive]
    · simp [ht, anySite, Site.any, rvS_active, blockS_tag, blockS_exclusive]
  | .nest scope inner :: ss, h => by
    simp only [sitesScopes] at h
    rw [keptSites, anySite_append, rv_any_block names ss h.2.2, anySite]
    congr 1
    simp only [Site.kept, inScope_none, anySite, Site.any, rv_any_block names inner h.2.1, h.1]
    simp [rvS_active, rvS_tag]

theorem rv_declares_block {V : Type} (names : List String) (n : String) : ∀ ss : List Site,
    sitesScopes (blockS names) ss →
    declares rvS n (keptSites (V := V) (blockS names) (fun _ => none) ss) = declares (blockS names) n ss
  | [], _ => rfl
  | .sow tag name mode :: ss, h => by
    simp only [sitesScopes] at h
    rw [keptSites, declares_append, rv_declares_block names n ss h, declares]
    congr 1
    simp only [Site.kept, blockS_active, Site.declares]
    by_cases ht : tag = rvTag
    · by_cases hn : name ∈ names <;> simp [ht, hn, declares, Site.declares, rvS_active, blockS_tag, blockS_exclusive]
    · simp [ht, declares, Site.declares, rvS_active, blockS_tag, blockS_exclusive]
  | .nest scope inner :: ss, h => by
    simp only [sitesScopes] at h
    rw [keptSites, declares_append, rv_declares_block names n ss h.2.2, declares]
    congr 1
    simp only [Site.kept, inScope_none, declares, Site.declares, rv_any_block names inner h.2.1, h.1,
      Option.none_or]
    simp [rvS_active, rvS_tag]

mutual
theorem evOpen.collect {V : Type} {names : List String} {n : String} : ∀ (e : Ev V), evOpen names e →
    Harvest.collect rvS n (e.keptLog (blockS names)) = e.collect (blockS names) n
  | .sow tag name mode v pred, _ => by
    simp only [Ev.keptLog, blockS_active, Ev.collect]
    by_cases ht : tag = rvTag
    · by_cases hn : name ∈ names <;>
        simp [ht, hn, Harvest.collect, Ev.collect, rvS_active, blockS_tag, blockS_exclusive]
    · simp [ht, Harvest.collect, Ev.collect, rvS_active, blockS_tag, blockS_exclusive]
  | .nest scope ss log, h => by
    simp only [evOpen] at h
    have ha : (blockS names).active (blockS names).tag scope = true := h.1
    have hb : rvS.active rvS.tag scope = true := by simp [rvS_active, rvS_tag]
    simp only [Ev.keptLog, Harvest.collect, Ev.collect, Option.none_or, ha, hb, rv_any_block names ss h.2.1,
      rv_declares_block names _ ss h.2.1, fun k => logOpen.collect (n := k) log h.2.2]
  | .scan rev ss iters, h => by
    simp only [evOpen] at h
    simp only [Ev.keptLog, Harvest.collect, Ev.collect, Option.none_or,
      rv_declares_block names _ ss h.1, itersOpen.collect iters h.2]
  | .loop ss iters tests, h => by
    simp only [evOpen] at h
    simp only [Ev.keptLog, Harvest.collect, Ev.collect, Option.none_or,
      rv_declares_block names _ ss h.1, itersOpen.collect iters h.2.1, (h.2.2 n).1, (h.2.2 n).2]
theorem logOpen.collect {V : Type} {names : List String} {n : String} : ∀ (l : List (Ev V)), logOpen names l →
    Harvest.collect rvS n (keptLog (blockS names) l) = Harvest.collect (blockS names) n l
  | [], _ => rfl
  | e :: es, h => by
    rw [keptLog, collect_append, logOpen.collect es h.2, evOpen.collect e h.1, Harvest.collect]
theorem itersOpen.collect {V : Type} {names : List String} {n : String} : ∀ (ls : List (List (Ev V))),
    itersOpen names ls →
    collectIters rvS n (keptIters (blockS names) ls) = collectIters (blockS names) n ls
  | [], _ => rfl
  | l :: ls, h => by
    simp only [keptIters, collectIters, logOpen.collect l h.1, itersOpen.collect ls h.2]
end

/-- No nested scope has a blocked name. -/
def OpenScopes {V A B : Type} (names : List String) (f : Prog V A B) : Prop :=
  AllSows false (fun _ _ _ => True) (fun s => s ∉ names) f

theorem OpenScopes.active {V A B : Type} {names : List String} {f : Prog V A B} (h : OpenScopes names f) :
    ScopesActive (blockS names) f := by
  simp only [OpenScopes, ScopesActive] at h ⊢
  refine AllSows.imp (fun _ _ _ _ => trivial) (fun s hs => ?_) f h
  simp [blockS_active, hs]
  rfl

theorem quiet_block {V A B : Type} {names : List String} {f : Prog V A B} (h : Quiet rvS f) :
    Quiet (blockS names) f := by
  simp only [Quiet] at h ⊢
  refine AllSows.imp (fun t n _ hs => ?_) (fun s hs => trivial) f h
  rw [rvS_active] at hs
  rw [blockS_active]; simp at hs; simp [hs]

theorem log_open {V A B : Type} {names : List String} (fuel : Nat) (p : Prog V A B) (hf : RvProg p)
    (h : ScopesActive (blockS names) p) : ∀ (a : A) r,
    Harvest.trace fuel p a = .ok r → logOpen names r.2 := by
  simp only [ScopesActive] at h
  induction p with
  | pure f =>
    intro a r ht
    simp only [Harvest.trace] at ht
    rcases hf : f a with e | b <;> rw [hf] at ht <;> simp at ht
    subst ht; trivial
  | seq p q ihp ihq =>
    intro a r ht
    simp only [Harvest.trace] at ht
    rcases h1 : Harvest.trace fuel p a with e | r1 <;> rw [h1] at ht
    · simp at ht
    simp only [except_bind_ok] at ht
    rcases h2 : Harvest.trace fuel q r1.1 with e | r2 <;> rw [h2] at ht
    · simp at ht
    simp only [except_bind_ok, except_pure, Except.ok.injEq] at ht
    subst ht
    exact logOpen_append (ihp hf.1 h.1 a r1 h1) (ihq hf.2 h.2 _ r2 h2)
  | sow tag name mode pre pred post =>
    intro a r ht
    simp only [Harvest.trace, Except.ok.injEq] at ht
    subst ht; exact ⟨trivial, trivial⟩
  | nest scope pre body post ih =>
    intro a r ht
    simp only [Harvest.trace] at ht
    rcases h1 : Harvest.trace fuel body (pre a) with e | r1 <;> rw [h1] at ht <;> simp at ht
    subst ht
    exact ⟨⟨h.1, ScopesActive.sites body h.2, ih hf h.2 _ _ h1⟩, trivial⟩
  | inline pre body post ih | call _ pre body post ih =>
    intro a r ht
    simp only [Harvest.trace] at ht
    rcases h1 : Harvest.trace fuel body (pre a) with e | r1 <;> rw [h1] at ht <;> simp at ht
    subst ht; exact ih hf h _ _ h1
  | cond j sel pre br post ih =>
    intro a r ht
    simp only [Harvest.trace] at ht
    rcases h1 : Harvest.trace fuel (br (sel a)) (pre a) with e | r1 <;> rw [h1] at ht <;> simp at ht
    subst ht; exact ih _ (hf _) (h _) _ _ h1
  | scan rev pre body post ih =>
    intro a r ht
    simp only [Harvest.trace] at ht
    rcases h1 : scanDir rev (fun kx => (Harvest.trace fuel body kx).map (fun r => (r.1.1, (r.1.2, r.2))))
      (pre a).1 (pre a).2 with e | s <;> rw [h1] at ht <;> simp at ht
    subst ht
    refine ⟨⟨ScopesActive.sites body h, itersOpen_iff.2 ?_⟩, trivial⟩
    intro l hl
    obtain ⟨y, hy, rfl⟩ := List.mem_map.1 hl
    have := scanDir_zip rev _ _ _ h1
    obtain ⟨i, hi, rfl⟩ := List.getElem_of_mem hy
    have := (List.forall₂_iff_get.1 this).2 i (by rw [this.length_eq]; exact hi) hi
    obtain ⟨k, k', hk⟩ := this
    simp only [List.get_eq_getElem] at hk
    rcases h2 : Harvest.trace fuel body
      (k, (pre a).2[i]'(by have := (scanDir_zip rev _ _ _ h1).length_eq; omega)) with e | u <;>
      rw [h2] at hk <;> simp at hk
    have := ih hf h _ _ h2
    rw [← hk.2]; exact this
  | whileL pre test body post iht ihb =>
    intro a r ht
    simp only [Harvest.trace] at ht
    rcases h1 : loopT (fun k => Harvest.trace fuel test k) (fun k => Harvest.trace fuel body k) fuel (pre a)
      with e | s <;> rw [h1] at ht <;> simp at ht
    subst ht
    have key : ∀ n k s, loopT (fun k => Harvest.trace fuel test k) (fun k => Harvest.trace fuel body k) n k
        = .ok s → itersOpen names s.2.1 ∧
          ∀ n, collect rvS n s.2.2 = none ∧ collect (blockS names) n s.2.2 = none := by
      intro n
      induction n with
      | zero => intro k s hs; simp [loopT] at hs
      | succ n ih =>
        intro k s hs
        simp only [loopT] at hs
        rcases h2 : Harvest.trace fuel test k with e | t <;> rw [h2] at hs
        · simp at hs
        have ht1 := quiet_collect fuel test hf.1 _ _ h2
        have ht2 := quiet_collect fuel test (quiet_block (names := names) hf.1) _ _ h2
        simp only [except_bind_ok] at hs
        split at hs
        · rcases h3 : Harvest.trace fuel body k with e | u <;> rw [h3] at hs
          · simp at hs
          simp only [except_bind_ok] at hs
          rcases h4 : loopT (fun k => Harvest.trace fuel test k) (fun k => Harvest.trace fuel body k) n u.1
            with e | v <;> rw [h4] at hs
          · simp at hs
          simp only [except_bind_ok, except_pure, Except.ok.injEq] at hs
          subst hs
          obtain ⟨i1, i2⟩ := ih _ _ h4
          refine ⟨⟨ihb hf.2 h.2 _ _ h3, i1⟩, fun m => ?_⟩
          simp [collect_append, ht1 m, ht2 m, (i2 m).1, (i2 m).2]
        · simp only [except_pure, Except.ok.injEq] at hs
          subst hs
          exact ⟨trivial, fun m => ⟨ht1 m, ht2 m⟩⟩
    obtain ⟨k1, k2⟩ := key _ _ _ h1
    exact ⟨⟨ScopesActive.sites body h.2, k1, k2⟩, trivial⟩

theorem regular_block_plantT {V A B : Type} (names : List String) (f : Prog V A B) (hf : RvProg f) :
    Regular rvS (fun _ => false) (plantT (blockS names) f (fun _ => none)) := by
  induction f with
  | pure f => trivial
  | seq p q ihp ihq => exact ⟨ihp hf.1, ihq hf.2⟩
  | sow tag name mode pre pred post =>
    simp only [plantT]
    have key : tag = rvTag → (mode = .condClobber ↔ (fun _ => false) name = true) := by
      intro hh; rcases hf hh with h | h <;> rw [h] <;> simp
    cases (blockS names).dispatch tag name
    · trivial
    · intro ha; rw [rvS_active] at ha; exact key (by simpa using ha)
    · intro ha; rw [rvS_active] at ha; exact key (by simpa using ha)
  | nest s pre body post ih => exact ⟨ih hf, rfl⟩
  | inline pre body post ih => exact ih hf
  | call _ pre body post ih => exact ih hf
  | cond j sel pre br post ih => exact fun i => ih i (hf i)
  | scan rev pre body post ih =>
    have := ih hf
    simp only [plantT, scanPlants_none]
    exact ⟨trivial, ⟨trivial, this, trivial⟩, .inr fun _ _ => rfl⟩
  | whileL pre test body post iht ihb => exact ⟨ihb hf.2, trivial, hf.1⟩

/-- The trace of a blocked program, in terms of the log of `f`. -/
theorem trace_block_log {V A B : Type} (f : Prog V A B) (hf : RvProg f) (names : List String)
    (ho : OpenScopes names f) (g : Prog V A B) (h : block f names = .ok g)
    (t : Prog V A (B × Dict V)) (ht : trace g = .ok t) (fuel : Nat) (a : A) :
    run fuel t a = (Harvest.trace fuel f a).map (fun r => (r.1, expected (blockS names) f r.2)) := by
  have hg := h
  obtain ⟨⟨st, hc⟩, hgeq⟩ := plant_ok h
  have hs := ho.active
  have hsites : sites g = keptSites (blockS names) (fun _ => none : Dict V) (sites f) := by
    subst hgeq
    have := sites_plantT f _ _ _ hc hs
    simp only [sites, List.nil_append, List.append_nil]
    exact this
  have hreg : Regular rvS (fun _ => false) g := by
    have hplain := regular_block_plantT names f hf
    subst hgeq
    exact ⟨trivial, hplain, trivial⟩
  rw [reap_exact_partial rvS _ g t hreg ht,
    (plant_nothing (blockS names) f (fun _ => none) g hg hs Plain.none (fun _ _ => rfl) fuel a).2]
  rcases htr : Harvest.trace fuel f a with e | ⟨b, l⟩
  · rfl
  · simp only [except_map_ok, Except.ok.injEq, Prod.mk.injEq, true_and]
    funext n
    simp only [expected, hsites, rv_declares_block names n _ (ScopesActive.sites f hs),
      logOpen.collect l (log_open fuel f hf hs a _ htr)]

theorem regular_block {V A B : Type} (names : List String) (f : Prog V A B) (hf : RvProg f) :
    Regular (blockS names) (fun _ => false) f := by
  induction f with
  | pure f => trivial
  | seq p q ihp ihq => exact ⟨ihp hf.1, ihq hf.2⟩
  | sow tag name mode pre pred post =>
    intro ha
    rw [blockS_active] at ha
    simp at ha
    rcases hf ha.1 with h | h <;> rw [h] <;> simp
  | nest s pre body post ih => exact ⟨ih hf, rfl⟩
  | inline pre body post ih => exact ih hf
  | call _ pre body post ih => exact ih hf
  | cond j sel pre br post ih => exact fun i => ih i (hf i)
  | scan rev pre body post ih => exact ⟨ih hf, .inr fun _ _ => rfl⟩
  | whileL pre test body post iht ihb => exact ⟨ihb hf.2, quiet_block hf.1⟩

/-- C19: the latents of a blocked program are those of `f` harvested with the names on the blocklist, at every
level of nesting (no scope name is blocked). -/
theorem trace_block {V A B : Type} (f : Prog V A B) (hf : RvProg f) (names : List String)
    (ho : OpenScopes names f) (g : Prog V A B) (h : block f names = .ok g)
    (t : Prog V A (B × Dict V)) (ht : trace g = .ok t)
    (t' : Prog V A (B × Dict V)) (ht' : callAndReap (blockS names) f = .ok t') (fuel : Nat) (a : A) :
    run fuel t a = run fuel t' a := by
  have hreg := regular_block names f hf
  rw [trace_block_log f hf names ho g h t ht, reap_exact_partial _ _ f t' hreg ht']

theorem openScopes_of_noNest {V A B : Type} (names : List String) (f : Prog V A B) (hn : NoNest f) :
    OpenScopes names f := by
  simp only [OpenScopes, NoNest] at hn ⊢
  induction f with
  | pure f => trivial
  | seq p q ihp ihq => exact ⟨ihp hn.1, ihq hn.2⟩
  | sow => trivial
  | nest s pre body post ih => exact hn.1.elim
  | inline pre body post ih => exact ih hn
  | call _ pre body post ih => exact ih hn
  | cond j sel pre br post ih => exact fun i => ih i (hn i)
  | scan rev pre body post ih => exact ih hn
  | whileL pre test body post iht ihb => exact ⟨by simp, ihb hn.2⟩

/-- C19 (functions without nested scopes): `joint_sample(block(f, names))` is `joint_sample(f)` without the
names, and the output is the same. -/
theorem trace_block_names {V A B : Type} (f : Prog V A B) (hf : RvProg f) (hn : NoNest f)
    (names : List String) (g : Prog V A B) (h : block f names = .ok g)
    (t : Prog V A (B × Dict V)) (ht : trace g = .ok t)
    (t0 : Prog V A (B × Dict V)) (ht0 : trace f = .ok t0) (fuel : Nat) (a : A) :
    run fuel t a = (run fuel t0 a).map (fun r => (r.1, fun n => if n ∈ names then none else r.2 n)) := by
  have ho := openScopes_of_noNest names f hn
  rw [trace_block_log f hf names ho g h t ht, trace_exact f hf t0 ht0]
  rcases htr : Harvest.trace fuel f a with e | ⟨b, l⟩
  · rfl
  · simp only [except_map_ok, Except.ok.injEq, Prod.mk.injEq, true_and]
    funext n
    by_cases hmem : n ∈ names
    · simp only [hmem, if_true, expected]
      cases hd : declares (blockS names) n (sites f) with
      | none => simp
      | some k =>
        have := declares_active (S := blockS names) (n := n) (ss := sites f) (by rw [hd]; rfl)
        rw [blockS_active] at this
        simp [hmem] at this
    · have hnf : ¬ (blockS names).filtered n := by
        simp [Settings.filtered, blockS, rvS, hmem]
      simp only [hmem, if_false, expected, declares_unfiltered hnf (NoNest.sites f hn),
        collect_unfiltered hnf _ (NoNest.log fuel f hn a _ htr), blockS_unfiltered]

end Verif.Ppl
