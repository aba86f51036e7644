/-
Property theorems C07, C08 and C14 about `plant` and `harvest`.
-/
import Verif.Harvest.LemmasPlant
import Verif.Harvest.PropsReap

namespace Verif.Harvest

/-! ### C07 -/

theorem plant_ok {V A B : Type} {S : Settings} {f : Prog V A B} {P : Dict V} {g : Prog V A B}
    (h : plant S f P = .ok g) : (∃ st, plantCheck S f P [] = .ok st) ∧
      g = .seq (.pure (fun a => .ok (a, P))) (.seq (plantT S f P) (.pure (fun r => .ok r.1))) := by
  simp only [plant] at h
  rcases hc : plantCheck S f P [] with e | st <;> rw [hc] at h <;> simp at h
  exact ⟨⟨st, rfl⟩, h.symm⟩

/-- C07: the planted function executes as `f` with the outputs of the planted sows replaced (the log is the
sequence of the sows that remain). -/
theorem plant_override {V A B : Type} (S : Settings) (f : Prog V A B) (P : Dict V) (g : Prog V A B)
    (h : plant S f P = .ok g) (hs : ScopesActive S f) (hP : Plain P) (fuel : Nat) (a : A) :
    trace fuel g a = ptrace S fuel f P a := by
  obtain ⟨⟨st, hc⟩, rfl⟩ := plant_ok h
  simp only [trace, except_map_ok, except_bind_ok,
    trace_plantT fuel f P _ _ hc hs P hP (fun k => Shape.reflO _)]
  rcases ptrace S fuel f P a with e | r <;> simp

/-- C07, output only. -/
theorem plant_override_run {V A B : Type} (S : Settings) (f : Prog V A B) (P : Dict V) (g : Prog V A B)
    (h : plant S f P = .ok g) (hs : ScopesActive S f) (hP : Plain P) (fuel : Nat) (a : A) :
    run fuel g a = (ptrace S fuel f P a).map (·.1) := by
  rw [run_eq_trace, plant_override S f P g h hs hP]

/-! ### C08 -/

theorem keptLog_append {V : Type} (S : Settings) (l r : Log V) :
    keptLog S (l ++ r) = keptLog S l ++ keptLog S r := by
  induction l with
  | nil => simp [keptLog]
  | cons e es ih => simp [keptLog, ih]

theorem keptIters_eq_map {V : Type} (S : Settings) (ls : List (Log V)) :
    keptIters S ls = ls.map (keptLog S) := by
  induction ls with
  | nil => simp [keptIters]
  | cons l ls ih => simp [keptIters, ih]

theorem inScope_none {V : Type} (s : String) : inScope (fun _ => none : Dict V) s = fun _ => none := rfl

theorem iterPlant_none {V : Type} (S : Settings) (ss : List Site) (i : Nat) :
    iterPlant S ss (fun _ => none : Dict V) i = fun _ => none := by
  funext k; simp [iterPlant]

theorem loopT_map {V K : Type} (φ : Log V → Log V)
    (c : K → Except RErr (Bool × Log V)) (b b' : K → Except RErr (K × Log V))
    (hb : ∀ k, b' k = (b k).map (fun s => (s.1, φ s.2))) (n : Nat) (k : K) :
    loopT c b' n k = (loopT c b n k).map (fun s => (s.1, s.2.1.map φ, s.2.2)) := by
  induction n generalizing k with
  | zero => rfl
  | succ n ih =>
    simp only [loopT, hb]
    rcases c k with e | ⟨t, lt⟩
    · rfl
    · cases t
      · rfl
      · simp only [except_bind_ok, if_true]
        rcases b k with e | r
        · rfl
        · simp only [except_map_ok, except_bind_ok, ih]
          rcases loopT c b n r.1 with e | s <;> rfl

theorem scanM_zipIdx {K X Y : Type} (f : K × X → Except RErr (K × Y)) (g : K × X × Nat → Except RErr (K × Y))
    (h : ∀ k x i, g (k, x, i) = f (k, x)) (rev : Bool) (xs : List X) (k : K) :
    scanDir rev g k xs.zipIdx = scanDir rev f k xs := by
  apply scanDir_forall2 rev g f (fun u v => u.1 = v)
  · rintro k ⟨x, i⟩ x' rfl; exact h _ _ _
  · rw [List.forall₂_iff_get]
    exact ⟨by simp, fun i h1 h2 => by simp⟩

theorem ptrace_none {V A B : Type} (S : Settings) (fuel : Nat) (p : Prog V A B) (a : A) :
    ptrace S fuel p (fun _ => none) a = (trace fuel p a).map (fun r => (r.1, keptLog S r.2)) := by
  induction p with
  | pure f => simp only [ptrace, trace]; rcases f a with e | b <;> simp [keptLog]
  | seq p q ihp ihq =>
    simp only [ptrace, trace, ihp]
    rcases trace fuel p a with e | r
    · rfl
    · simp only [except_map_ok, except_bind_ok, ihq]
      rcases trace fuel q r.1 with e | s
      · rfl
      · simp [keptLog_append]
  | sow tag name mode pre pred post =>
    simp only [ptrace, trace, except_map_ok, keptLog, Ev.keptLog, List.append_nil]
    by_cases h1 : S.active tag name = true
    · simp [h1]
    · by_cases h2 : tag ≠ S.tag ∧ S.exclusive = false <;> simp [h1, h2]
  | nest scope pre body post ih =>
    simp only [ptrace, trace, inScope_none, ih]
    rcases trace fuel body (pre a) with e | r <;> simp [keptLog, Ev.keptLog]
  | inline pre body post ih | call _ pre body post ih =>
    simp only [ptrace, trace, ih]
    rcases trace fuel body (pre a) with e | r <;> rfl
  | cond n sel pre br post ih =>
    simp only [ptrace, trace, ih]
    rcases trace fuel (br (sel a)) (pre a) with e | r <;> rfl
  | scan rev pre body post ih =>
    have he : entriesOk S (sites body) (fun _ => none : Dict V) (pre a).2.length := by
      intro n v _ hv; simp at hv
    simp only [ptrace, trace, iterPlant_none, ih]
    rw [if_pos he]
    rw [scanM_zipIdx (fun kx => ((trace fuel body kx).map (fun r => (r.1, keptLog S r.2))).map
      (fun r => (r.1.1, (r.1.2, r.2)))) _ (fun _ _ _ => rfl)]
    rw [scanDir_map rev (fun kx => (trace fuel body kx).map (fun r => (r.1.1, (r.1.2, r.2)))) _
      (fun y => (y.1, keptLog S y.2))]
    · rcases scanDir rev _ _ _ with e | r
      · rfl
      · simp [keptLog, Ev.keptLog, keptIters_eq_map, Function.comp_def]
    · intro kx
      rcases trace fuel body kx with e | r <;> rfl
  | whileL pre test body post iht ihb =>
    simp only [ptrace, trace]
    rw [loopT_map (keptLog S) (fun k => trace fuel test k) (fun k => trace fuel body k) _ (fun k => ihb k)]
    rcases loopT _ _ _ _ with e | r
    · rfl
    · simp [keptLog, Ev.keptLog, keptIters_eq_map]

theorem Plain.none {V : Type} : Plain (fun _ => Option.none : Dict V) := fun _ => .none

/-- C08: planting only names that `f` does not sow (in particular nothing) changes neither the result nor
the sows that are not blocked. -/
theorem plant_nothing {V A B : Type} (S : Settings) (f : Prog V A B) (P : Dict V) (g : Prog V A B)
    (h : plant S f P = .ok g) (hs : ScopesActive S f) (hP : Plain P)
    (hnone : ∀ n, (declares S n (sites f)).isSome → P n = none) (fuel : Nat) (a : A) :
    run fuel g a = run fuel f a ∧
    trace fuel g a = (trace fuel f a).map (fun r => (r.1, keptLog S r.2)) := by
  have h1 : trace fuel g a = (trace fuel f a).map (fun r => (r.1, keptLog S r.2)) := by
    rw [plant_override S f P g h hs hP]
    obtain ⟨⟨st, hc⟩, -⟩ := plant_ok h
    rw [ptrace_congr fuel f P _ _ hc hs P (fun _ => none) hnone, ptrace_none]
  refine ⟨?_, h1⟩
  rw [run_eq_trace, run_eq_trace, h1]
  rcases trace fuel f a with e | r <;> rfl

theorem appendNames_none {V : Type} (m : Meta) : appendNames m (fun _ => none : Dict V) = [] := by
  simp [appendNames]

theorem clobberPlants_none {V : Type} (m : Meta) :
    clobberPlants m (fun _ => none : Dict V) = fun _ => none := by
  funext k; simp only [clobberPlants]; split
  · split <;> rfl
  · rfl

theorem scanPlants_none {V : Type} (m : Meta) :
    scanPlants m (fun _ => none : Dict V) = fun _ => none := by
  funext k; simp [scanPlants]

theorem metaOf_plantT_none {V A B : Type} (S : Settings) (p : Prog V A B) :
    (∃ st st', plantCheck S p (fun _ => none) st = .ok st') →
    ∀ m, metaOf S (plantT S p (fun _ => none)) m = metaOf S p m := by
  induction p with
  | pure f => intro _ m; rfl
  | seq p q ihp ihq =>
    rintro ⟨st, st', h⟩ m
    obtain ⟨st1, h1, h2⟩ := plantCheck_seq h
    simp only [plantT, metaOf, ihp ⟨_, _, h1⟩]
    congr 1
    funext m'
    exact ihq ⟨_, _, h2⟩ m'
  | sow tag name mode pre pred post =>
    rintro ⟨st, st', h⟩ m
    simp only [plantCheck] at h
    split at h
    · simp at h
    rename_i hinv
    simp only [plantT]
    cases hd : S.dispatch tag name <;> simp [metaOf, hd, hinv]
  | nest scope pre body post ih =>
    rintro ⟨st, st', h⟩ m
    obtain ⟨st2, h2⟩ := plantCheck_nest h
    simp only [plantT, metaOf, subPlants_eq, inScope_none, ih ⟨_, _, h2⟩]
  | inline pre body post ih =>
    rintro ⟨st, st', h⟩ m
    simp only [plantT, metaOf]; exact ih ⟨_, _, h⟩ m
  | call kind pre body post ih =>
    rintro ⟨st, st', h⟩ m
    obtain ⟨st1, st2, h2⟩ := plantCheck_call h
    simp only [plantT, metaOf, ih ⟨_, _, h2⟩]
  | cond j sel pre br post ih =>
    rintro ⟨st, st', h⟩ m
    have : ∀ i, metaOf S (plantT S (br i) (fun _ => none)) [] = metaOf S (br i) [] := by
      intro i
      obtain ⟨⟨st2, h2⟩, -⟩ := plantCheck_cond h i
      exact ih i ⟨_, _, h2⟩ []
    simp only [plantT, metaOf, this]
  | scan rev pre body post ih =>
    rintro ⟨st, st', h⟩ m
    obtain ⟨mb, st2, hm, h2, -⟩ := plantCheck_scan h
    rw [scanPlants_none] at h2
    simp only [plantT, metaOf, scanPlants_none, ih ⟨_, _, h2⟩, except_bind_ok]
    rcases metaOf S body [] with e | mb <;> rfl
  | whileL pre test body post iht ihb =>
    rintro ⟨st, st', h⟩ m
    obtain ⟨mb, st2, hm, h2⟩ := plantCheck_while h
    simp only [plantT, metaOf, ihb ⟨_, _, h2⟩]

theorem metaD_congr {V W A B C D : Type} {S : Settings} {p : Prog V A B} {q : Prog W C D}
    (h : metaOf S p [] = metaOf S q []) : metaD S p = metaD S q := by simp [metaD, h]

theorem loopM_conj {K C : Type} (c : K → Except RErr Bool) (b : K → Except RErr K) (φ : K → C)
    (c' : C → Except RErr Bool) (b' : C → Except RErr C)
    (hc : ∀ k, c' (φ k) = c k) (hb : ∀ k, b' (φ k) = (b k).map φ) (n : Nat) (k : K) :
    loopM c' b' n (φ k) = (loopM c b n k).map φ := by
  induction n generalizing k with
  | zero => rfl
  | succ n ih =>
    simp only [loopM, hc, hb]
    rcases c k with e | t
    · rfl
    · cases t
      · rfl
      · simp only [except_bind_ok, if_true]
        rcases b k with e | r
        · rfl
        · simp only [except_map_ok, except_bind_ok, ih]

/-- Reaping after planting nothing is reaping. -/
theorem run_reapT_plantT_none {V A B : Type} (S : Settings) (fuel : Nat) (p : Prog V A B) :
    (∃ st st', plantCheck S p (fun _ => none) st = .ok st') → ∀ (a : A) (d : Reaps V),
    run fuel (reapT S (plantT S p (fun _ => none))) ((a, fun _ => none), d) =
      (run fuel (reapT S p) (a, d)).map (fun r => ((r.1, fun _ => none), r.2)) := by
  induction p with
  | pure f =>
    intro _ a d
    simp only [plantT, reapT, run]
    rcases f a with e | b <;> rfl
  | seq p q ihp ihq =>
    rintro ⟨st, st', h⟩ a d
    obtain ⟨st1, h1, h2⟩ := plantCheck_seq h
    simp only [plantT, reapT, run, ihp ⟨_, _, h1⟩]
    rcases run fuel (reapT S p) (a, d) with e | r
    · rfl
    · simp only [except_map_ok, except_bind_ok]
      exact ihq ⟨_, _, h2⟩ r.1 r.2
  | sow tag name mode pre pred post =>
    rintro - a d
    simp only [plantT]
    cases hd : S.dispatch tag name <;> simp [reapT, hd, run]
  | nest scope pre body post ih =>
    rintro ⟨st, st', h⟩ a d
    obtain ⟨st2, h2⟩ := plantCheck_nest h
    have hm := metaOf_plantT_none S body ⟨_, _, h2⟩ []
    simp only [plantT, reapT, run, subPlants_eq, inScope_none, metaD_congr hm]
    rw [ih ⟨_, _, h2⟩]
    rcases run fuel (reapT S body) (pre a, fun _ => none) with e | r <;> rfl
  | inline pre body post ih =>
    rintro ⟨st, st', h⟩ a d
    simp only [plantT, reapT, run]
    rw [ih ⟨_, _, h⟩]
    rcases run fuel (reapT S body) (pre a, d) with e | r <;> rfl
  | call kind pre body post ih =>
    rintro ⟨st, st', h⟩ a d
    obtain ⟨st1, st2, h2⟩ := plantCheck_call h
    have hm := metaOf_plantT_none S body ⟨_, _, h2⟩ []
    simp only [plantT, reapT, run, metaD_congr hm]
    rw [ih ⟨_, _, h2⟩]
    rcases run fuel (reapT S body) (pre a, fun _ => none) with e | r <;> rfl
  | cond j sel pre br post ih =>
    rintro ⟨st, st', h⟩ a d
    obtain ⟨⟨st2, h2⟩, -⟩ := plantCheck_cond h (sel a)
    obtain ⟨⟨st3, h3⟩, -⟩ := plantCheck_cond h 0
    have hm := metaOf_plantT_none S (br 0) ⟨_, _, h3⟩ []
    simp only [plantT, reapT, run, metaD_congr hm]
    rw [ih _ ⟨_, _, h2⟩]
    rcases run fuel (reapT S (br (sel a))) (pre a, fun _ => none) with e | r <;> rfl
  | scan rev pre body post ih =>
    rintro ⟨st, st', h⟩ a d
    obtain ⟨mb, st2, hm, h2, -⟩ := plantCheck_scan h
    rw [scanPlants_none] at h2
    have hmp := metaOf_plantT_none S body ⟨_, _, h2⟩ []
    have hmd : metaD S (Prog.seq (Prog.pure (V := V)
        (fun kx : _ × _ × Dict V => Except.ok ((kx.1, kx.2.1), kx.2.2)))
        ((plantT S body (fun _ => none)).seq (Prog.pure (fun r => Except.ok r.1)))) = metaD S body := by
      apply metaD_congr
      simp only [metaOf, except_bind_ok, hmp, hm]
    simp only [plantT, scanPlants_none, reapT, run, hmd, allIterPlants, appendNames_none,
      clobberPlants_none, iterPlants, except_bind_ok, except_pure, except_map_ok]
    rw [scanDir_forall2 rev _ (fun kx => do
            let r ←
              Except.map (fun y => (y, kx.fst.snd)) (run fuel (reapT S body) ((kx.fst.fst, kx.snd), fun x => none))
            Except.ok
                ((r.fst.fst.fst, carryStep (fun x => leakedMode (metaD S body)) r.snd r.fst.snd), r.fst.fst.snd,
                  r.fst.snd)) (fun u v => u = (v, fun _ => none)) ?_ _ (pre a).2 _ ?_]
    · rcases scanDir rev _ _ _ with e | r <;> rfl
    · rintro k x x' rfl
      simp only
      rw [ih ⟨_, _, h2⟩]
      rcases run fuel (reapT S body) ((k.1, x'), fun _ => none) with e | r <;> rfl
    · rw [List.forall₂_iff_get]
      exact ⟨by simp, fun i h1 h2 => by simp⟩
  | whileL pre test body post iht ihb =>
    rintro ⟨st, st', h⟩ a d
    obtain ⟨mb, st2, hm, h2⟩ := plantCheck_while h
    have hmp := metaOf_plantT_none S body ⟨_, _, h2⟩ []
    simp only [plantT, reapT, run, metaD_congr hmp, except_bind_ok]
    have key := fun (b' : (_ × Dict V) × Reaps V → Except RErr ((_ × Dict V) × Reaps V)) hb =>
      loopM_conj (fun k => run fuel test k.1) (fun k => do
            let r ← Except.map (fun y => (y, k.snd)) (run fuel (reapT S body) (k.fst, fun x => none))
            Except.ok (r.fst.fst, carryStep (metaD S body).get r.snd r.fst.snd))
        (fun k : _ × Reaps V => ((k.1, (fun _ => none : Dict V)), k.2))
        (fun k => run fuel test k.fst.fst) b' (fun _ => rfl) hb fuel (pre a, carryInit (metaD S body))
    simp only at key
    rw [key]
    · rcases loopM _ _ fuel _ with e | r <;> rfl
    · intro k
      rw [ihb ⟨_, _, h2⟩]
      rcases run fuel (reapT S body) (k.1, fun _ => none) with e | r <;> rfl

/-- C08: reaping after planting nothing gives what reaping gives. -/
theorem reap_plant_nothing {V A B : Type} (S : Settings) (f : Prog V A B) (g : Prog V A B)
    (hg : plant S f (fun _ => none) = .ok g) (h : Prog V A (B × Dict V)) (hf : callAndReap S f = .ok h) :
    ∃ h', callAndReap S g = .ok h' ∧ ∀ fuel a, run fuel h' a = run fuel h a := by
  obtain ⟨⟨st, hc⟩, rfl⟩ := plant_ok hg
  obtain ⟨m, hm, -⟩ := callAndReap_ok hf
  have hmm := metaOf_plantT_none S f ⟨_, _, hc⟩ []
  have hacc : ∃ h', callAndReap S (.seq (.pure (fun a => .ok (a, fun _ => none)))
      (.seq (plantT S f (fun _ => none)) (.pure (fun r => .ok r.1)))) = .ok h' := by
    simp only [callAndReap, metaOf, except_bind_ok, hmm, hm]
    exact ⟨_, rfl⟩
  obtain ⟨h', hh'⟩ := hacc
  refine ⟨h', hh', fun fuel a => ?_⟩
  rw [run_callAndReap hh', run_callAndReap hf]
  simp only [reapT, run, except_bind_ok, except_map_ok]
  rw [run_reapT_plantT_none S fuel f ⟨_, _, hc⟩]
  rcases run fuel (reapT S f) (a, fun _ => none) with e | r <;> rfl

/-! ### Acceptance: what `reap` accepts, `plant` accepts -/

theorem metaOf_nonclobber {V A B : Type} {S : Settings} {p : Prog V A B} {m0 m1 : Meta}
    (h : metaOf S p m0 = .ok m1) {n : String} {k : Mode} (hk : k.isClobber = false)
    (hn : m0.get n = some k) : declares S n (sites p) = none := by
  rw [← occurrences_eq_nil_iff]
  rcases metaOf_occ p h n with h | ⟨-, h⟩ | ⟨mode, -, h⟩
  · exact h
  · have := h k hn; rw [hk] at this; simp at this
  · rw [hn] at h; simp at h

/-- Names planted so far are declared with a non-clobber mode. -/
theorem plantCheck_of_metaOf {V A B : Type} (S : Settings) (p : Prog V A B) :
    ∀ {m0 m1 : Meta}, metaOf S p m0 = .ok m1 → ∀ (P : Dict V) (st : List String),
    (∀ n ∈ st, declares S n (sites p) = none) →
    ∃ st', plantCheck S p P st = .ok st' ∧
      ∀ n ∈ st', n ∈ st ∨ ∃ k, k.isClobber = false ∧ declares S n (sites p) = some k := by
  induction p with
  | pure f => intro m0 m1 hm P st hst; exact ⟨st, rfl, fun n hn => .inl hn⟩
  | seq p q ihp ihq =>
    intro m0 m1 hm P st hst
    simp only [metaOf] at hm
    rcases hmp : metaOf S p m0 with e | m <;> rw [hmp] at hm
    · simp at hm
    simp only [except_bind_ok] at hm
    have hst' : ∀ n ∈ st, declares S n (sites q) = none ∧ declares S n (sites p) = none := by
      intro n hn
      have := hst n hn
      rw [sites, declares_append, Option.or_eq_none_iff] at this
      exact this
    obtain ⟨st1, h1, hst1⟩ := ihp hmp P st (fun n hn => (hst' n hn).2)
    have hq : ∀ n ∈ st1, declares S n (sites q) = none := by
      intro n hn
      rcases hst1 n hn with h | ⟨k, hk, h⟩
      · exact (hst' n h).1
      · exact metaOf_nonclobber hm hk (by rw [(metaOf_get S p hmp).1 n, h]; rfl)
    obtain ⟨st2, h2, hst2⟩ := ihq hm P st1 hq
    refine ⟨st2, by simp only [plantCheck, h1, except_bind_ok, h2], fun n hn => ?_⟩
    rcases hst2 n hn with h | ⟨k, hk, h⟩
    · rcases hst1 n h with h' | ⟨k, hk, h'⟩
      · exact .inl h'
      · exact .inr ⟨k, hk, by rw [sites, declares_append, hq n h]; simpa using h'⟩
    · exact .inr ⟨k, hk, by rw [sites, declares_append, h]; rfl⟩
  | sow tag name mode pre pred post =>
    intro m0 m1 hm P st hst
    simp only [metaOf] at hm
    split at hm
    · simp at hm
    rename_i hinv
    simp only [plantCheck, hinv, if_false]
    cases hd : S.dispatch tag name with
    | drop => exact ⟨st, rfl, fun n hn => .inl hn⟩
    | forward => exact ⟨st, rfl, fun n hn => .inl hn⟩
    | handle =>
      have ha := dispatch_handle.1 hd
      have hnot : st.contains name = false := by
        rw [← Bool.not_eq_true]
        intro h
        have := hst name (by simpa using h)
        simp [sites, declares, Site.declares, ha] at this
      simp only [hnot, Bool.false_eq_true, if_false]
      by_cases hc : ((P name).isSome && !mode.isClobber) = true
      · refine ⟨name :: st, by rw [if_pos hc], fun n hn => ?_⟩
        rcases List.mem_cons.1 hn with rfl | hn
        · refine .inr ⟨mode, ?_, by simp [sites, declares, Site.declares, ha]⟩
          cases hmc : mode.isClobber <;> simp [hmc] at hc ⊢
        · exact .inl hn
      · exact ⟨st, by rw [if_neg hc], fun n hn => .inl hn⟩
  | nest scope pre body post ih =>
    intro m0 m1 hm P st hst
    simp only [metaOf] at hm
    rcases hmp : metaOf S body [] with e | m <;> rw [hmp] at hm
    · simp at hm
    obtain ⟨st2, h2, -⟩ := ih hmp (subPlants P scope) [] (by simp)
    exact ⟨st, by simp only [plantCheck, h2]; rfl, fun n hn => .inl hn⟩
  | inline pre body post ih => intro m0 m1 hm P st hst; exact ih hm P st hst
  | call kind pre body post ih =>
    intro m0 m1 hm P st hst
    simp only [metaOf] at hm
    rcases hmp : metaOf S body [] with e | m <;> rw [hmp] at hm
    · simp at hm
    obtain ⟨st2, h2, -⟩ := ih hmp P [] (by simp)
    cases kind
    case customJvp => exact ih hmp P st hst
    all_goals exact ⟨st, by simp only [plantCheck, h2]; rfl, fun n hn => .inl hn⟩
  | cond j sel pre br post ih =>
    intro m0 m1 hm P st hst
    simp only [metaOf] at hm
    rcases hp0 : metaOf S (br 0) [] with e | m <;> rw [hp0] at hm
    · simp at hm
    simp only [except_bind_ok] at hm
    rcases hmq : (List.finRange (j + 1)).mapM (fun i => metaOf S (br i) []) with e | ms <;>
      rw [hmq] at hm
    · simp at hm
    simp only [except_bind_ok] at hm
    rcases hc : metaCond m ms with e | u <;> rw [hc] at hm
    · simp at hm
    have hall : ∀ l : List (Fin (j+1)), ∃ ps, l.mapM (fun i => plantCheck S (br i) P []) = .ok ps := by
      intro l
      induction l with
      | nil => exact ⟨[], rfl⟩
      | cons i l ihl =>
        obtain ⟨ps, hps⟩ := ihl
        obtain ⟨mi, -, hmi⟩ := mapM_ok_mem hmq i (by simp)
        obtain ⟨st2, h2, -⟩ := ih i hmi P [] (by simp)
        exact ⟨st2 :: ps, by rw [List.mapM_cons, h2, hps]; rfl⟩
    obtain ⟨ps, hps⟩ := hall (List.finRange (j + 1))
    exact ⟨st, by simp only [plantCheck, hp0, except_bind_ok, hmq, hc, hps]; rfl, fun n hn => .inl hn⟩
  | scan rev pre body post ih =>
    intro m0 m1 hm P st hst
    simp only [metaOf] at hm
    rcases hmp : metaOf S body [] with e | m <;> rw [hmp] at hm
    · simp at hm
    simp only [except_bind_ok] at hm
    rcases hms : metaScan m with e | u <;> rw [hms] at hm
    · simp at hm
    obtain ⟨st2, h2, -⟩ := ih hmp (scanPlants m P) [] (by simp)
    have hnone : m.find? (fun e => e.2 == .strict) = none := by
      unfold metaScan at hms
      split at hms
      · simp at hms
      · assumption
    exact ⟨st, by simp only [plantCheck, hmp, except_bind_ok, hnone, h2]; rfl, fun n hn => .inl hn⟩
  | whileL pre test body post iht ihb =>
    intro m0 m1 hm P st hst
    simp only [metaOf] at hm
    rcases hmp : metaOf S body [] with e | m <;> rw [hmp] at hm
    · simp at hm
    simp only [except_bind_ok] at hm
    rcases hms : metaWhile m with e | u <;> rw [hms] at hm
    · simp at hm
    obtain ⟨st2, h2, -⟩ := ihb hmp P [] (by simp)
    exact ⟨st, by simp only [plantCheck, hmp, except_bind_ok, hms, h2]; rfl, fun n hn => .inl hn⟩

/-- Whatever `reap` accepts, `plant` accepts with any plants. -/
theorem plant_accepts {V A B : Type} (S : Settings) (f : Prog V A B) (h : Prog V A (B × Dict V))
    (hf : callAndReap S f = .ok h) (P : Dict V) : ∃ g, plant S f P = .ok g := by
  obtain ⟨m, hm, -⟩ := callAndReap_ok hf
  obtain ⟨st, hst, -⟩ := plantCheck_of_metaOf S f hm P [] (by simp)
  simp only [plant, hst]
  exact ⟨_, rfl⟩

/-! ### C14 -/

theorem declares_kept {V : Type} {S : Settings} : ∀ (ss : List Site) (P : Dict V) (n : String),
    (declares S n (keptSites S P ss)).isSome → (declares S n ss).isSome
  | [], _, _, h => by simp [keptSites, declares] at h
  | .sow tag name mode :: ss, P, n, h => by
    rw [keptSites, declares_append, Option.isSome_or] at h
    rw [declares_cons_isSome]
    rcases Bool.or_eq_true_iff.1 h with h | h
    · exact .inl (declares_kept ss P n h)
    · right
      simp only [Site.kept] at h
      split at h
      · split at h
        · simp [declares] at h
        · simpa [declares] using h
      · split at h
        · simpa [declares] using h
        · simp [declares] at h
  | .nest scope inner :: ss, P, n, h => by
    rw [keptSites, declares_append, Option.isSome_or] at h
    rw [declares_cons_isSome]
    rcases Bool.or_eq_true_iff.1 h with h | h
    · exact .inl (declares_kept ss P n h)
    · right
      simp only [Site.kept, declares, Option.none_or, Site.declares] at h ⊢
      split at h
      · rename_i hc
        obtain ⟨h1, h2, h3⟩ := hc
        obtain ⟨k, hk⟩ := (anySite_iff S _).1 h3
        have := (anySite_iff S inner).2 ⟨k, declares_kept inner _ k hk⟩
        simp [h1, this]
        rw [← h1]; exact h2
      · simp at h

theorem regular_plantT {V A B : Type} {S : Settings} (p : Prog V A B) : ∀ {c} (P : Dict V)
    (st st' : List String), plantCheck S p P st = .ok st' → ScopesActive S p → Regular S c p →
    Regular S c (plantT S p P) := by
  simp only [ScopesActive]
  induction p with
  | pure f => intros; trivial
  | seq p q ihp ihq =>
    intro c P st st' h hs hr
    obtain ⟨st1, h1, h2⟩ := plantCheck_seq h
    exact ⟨ihp P _ _ h1 hs.1 hr.1, ihq P _ _ h2 hs.2 hr.2⟩
  | sow tag name mode pre pred post =>
    intro c P st st' h hs hr
    simp only [plantT]
    cases hd : S.dispatch tag name with
    | drop => trivial
    | forward => exact hr
    | handle =>
      simp only
      split
      · trivial
      · exact hr
  | nest scope pre body post ih =>
    intro c P st st' h hs hr
    obtain ⟨st2, h2⟩ := plantCheck_nest h
    exact ⟨ih _ _ _ h2 hs.2 hr.1, hr.2⟩
  | inline pre body post ih => intro c P st st' h hs hr; exact ih P _ _ h hs hr
  | call kind pre body post ih =>
    intro c P st st' h hs hr
    obtain ⟨st1, st2, h2⟩ := plantCheck_call h
    exact ih P _ _ h2 hs hr
  | cond j sel pre br post ih =>
    intro c P st st' h hs hr i
    obtain ⟨⟨st2, h2⟩, -⟩ := plantCheck_cond h i
    exact ih i P _ _ h2 (hs i) (hr i)
  | scan rev pre body post ih =>
    intro c P st st' h hs hr
    have hsites := sites_plantT (.scan rev pre body post) _ _ _ h hs
    obtain ⟨m, st2, hm, h2, -⟩ := plantCheck_scan h
    simp only [plantT, sites, List.nil_append, List.append_nil, metaD_of_ok hm] at hsites
    simp only [plantT, Regular, metaD_of_ok hm, sites, List.nil_append, List.append_nil, hsites, true_and,
      and_true]
    refine ⟨ih _ _ _ h2 hs hr.1, ?_⟩
    rcases hr.2 with h | h
    · exact .inl (fun n hn => h n (declares_kept _ _ n hn))
    · exact .inr (fun n hn => h n (declares_kept _ _ n hn))
  | whileL pre test body post iht ihb =>
    intro c P st st' h hs hr
    obtain ⟨m, st2, hm, h2⟩ := plantCheck_while h
    refine ⟨ihb P _ _ h2 hs.2 hr.1, ?_⟩
    exact ⟨trivial, hr.2⟩

/-- C14 (partial: `Regular`): `harvest` returns the output of the planted execution and the dictionary of the
sows that remain in it. -/
theorem harvest_split_partial {V A B : Type} (S : Settings) (c : String → Bool) (f : Prog V A B) (P : Dict V)
    (h : Prog V A (B × Dict V)) (hh : harvest S f P = .ok h) (hs : ScopesActive S f) (hP : Plain P)
    (hreg : Regular S c f) (fuel : Nat) (a : A) :
    run fuel h a = (ptrace S fuel f P a).map (fun r => (r.1, fun n =>
      if (declares S n (keptSites S P (sites f))).isSome then some ((collect S n r.2).getD .zeros)
      else none)) := by
  simp only [harvest] at hh
  rcases hg : plant S f P with e | g <;> rw [hg] at hh
  · simp at hh
  simp only [except_bind_ok] at hh
  obtain ⟨⟨st, hc⟩, hgeq⟩ := plant_ok hg
  have hreg' : Regular S c g := by
    subst hgeq
    exact ⟨trivial, regular_plantT f P _ _ hc hs hreg, trivial⟩
  have hsites : sites g = keptSites S P (sites f) := by
    subst hgeq
    simp [sites, sites_plantT f P _ _ hc hs]
  rw [reap_exact_partial S c g h hreg' hh, plant_override S f P g hg hs hP]
  congr 1
  funext r
  congr 1
  funext n
  simp only [expected, hsites]

/-- No nested scope called `n` in this list of sites sows anything (a scope without sows is harmless:
`random_variable(f, name=n)` wraps the call of `f` in such a scope). -/
def notScope (S : Settings) (n : String) (ss : List Site) : Prop :=
  ∀ inner, Site.nest n inner ∈ ss → anySite S inner = false

/-- C14: a planted name is not reaped. -/
theorem harvest_planted_absent {V A B : Type} (S : Settings) (f : Prog V A B) (P : Dict V)
    (h : Prog V A (B × Dict V)) (hh : harvest S f P = .ok h) (hs : ScopesActive S f)
    (fuel : Nat) (a : A) (r : B × Dict V) (hr : run fuel h a = .ok r) (n : String) (v : Val V)
    (hn : P n = some v) (hns : notScope S n (sites f)) : r.2 n = none := by
  simp only [harvest] at hh
  rcases hg : plant S f P with e | g <;> rw [hg] at hh
  · simp at hh
  simp only [except_bind_ok] at hh
  obtain ⟨⟨st, hc⟩, hgeq⟩ := plant_ok hg
  have hsites : sites g = keptSites S P (sites f) := by
    subst hgeq
    simp [sites, sites_plantT f P _ _ hc hs]
  have hk := reap_keys S g h hh fuel a r hr n
  rw [hsites] at hk
  rw [← Option.not_isSome_iff_eq_none, hk]
  generalize sites f = ss at hns
  clear hk hsites
  induction ss with
  | nil => simp [keptSites, declares]
  | cons s ss ih =>
    rw [keptSites, declares_append, Option.isSome_or]
    have h1 := ih (fun inner h => hns inner (List.mem_cons_of_mem _ h))
    rw [Bool.not_eq_true] at h1
    rw [h1, Bool.false_or]
    cases s with
    | sow tag name mode =>
      simp only [Site.kept]
      by_cases hnn : name = n
      · subst hnn
        split
        · simp [hn, declares]
        · rename_i ha
          split <;> simp [declares, Site.declares, ha]
      · split
        · split <;> simp [declares, Site.declares, hnn]
        · split <;> simp [declares, Site.declares, hnn]
    | nest scope inner =>
      by_cases hsn : scope = n
      · subst hsn
        have := hns inner (by simp)
        have h2 : anySite S (keptSites S (inScope P scope) inner) = false := by
          rw [anySite_false_iff] at this ⊢
          intro k
          rw [← Option.not_isSome_iff_eq_none]
          intro hk
          have := declares_kept inner _ k hk
          simp_all
        simp [Site.kept, declares, Site.declares, h2]
      · simp [Site.kept, declares, Site.declares, hsn]

end Verif.Harvest
