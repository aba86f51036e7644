import Verif.Harvest.PropsTags
import Verif.Harvest.PropsPlant
import Verif.Harvest.PropsTagsPlant

/-! C57: oryx/util/summary.py. -/
namespace Verif.Harvest.Summary

open Verif.Harvest

/-- The settings of `harvest(f, tag=SUMMARY)` (summary.py:19, 44; harvest.py:1585-1593: no lists, not exclusive). -/
def settings : Settings := ⟨"summary", [], none, false⟩

/-- `summary(value, name=..., mode=...)` (summary.py:22-32). -/
def summary {V : Type} (name : String) (mode : Mode) : Prog V (Val V) (Val V) :=
  .sow "summary" name mode (fun v => v) (fun _ => false) (fun _ v => v)

/-- `get_summaries(f)` (summary.py:35-44): `functools.partial(harvest(f, tag=SUMMARY), {})`. -/
def getSummaries {V A B : Type} (f : Prog V A B) : Except Err (Prog V A (B × Dict V)) :=
  harvest settings f (fun _ => none)

theorem scopes {V A B : Type} (f : Prog V A B) : ScopesActive settings f := by
  unfold ScopesActive
  induction f with
  | pure => trivial
  | seq p q ih1 ih2 => exact ⟨ih1, ih2⟩
  | sow => trivial
  | nest s pre body post ih => exact ⟨by simp [Settings.active, settings], ih⟩
  | inline pre body post ih => exact ih
  | call k pre body post ih => exact ih
  | cond k sel pre br post ih => exact ih
  | scan rev pre body post ih => exact ih
  | whileL pre test body post iht ihb => exact ⟨fun h => by simp at h, ihb⟩

/-- Outside of `get_summaries`, `summary` returns the value. -/
theorem summary_id {V : Type} (name : String) (mode : Mode) (fuel : Nat) (v : Val V) :
    run fuel (summary name mode) v = .ok v := rfl

theorem getSummaries_reap {V A B : Type} (f : Prog V A B) (g : Prog V A (B × Dict V)) (h : getSummaries f = .ok g) :
    ∃ g', callAndReap settings f = .ok g' ∧ ∀ fuel a, run fuel g a = run fuel g' a := by
  simp only [getSummaries, harvest] at h
  rcases hp : plant settings f (fun _ => none) with e | p <;> rw [hp] at h
  · simp at h
  simp only [except_bind_ok] at h
  obtain ⟨⟨st, hc⟩, hpeq⟩ := plant_ok hp
  have hmm := metaOf_plantT_none settings f ⟨_, _, hc⟩ []
  obtain ⟨m, hm, -⟩ := callAndReap_ok h
  have hf : ∃ g', callAndReap settings f = .ok g' := by
    rcases hmf : metaOf settings f [] with e | m'
    · exfalso
      rw [hmf] at hmm
      rw [hpeq] at hm
      simp only [metaOf, except_bind_ok, hmm] at hm
      simp at hm
    · simp only [callAndReap, hmf]; exact ⟨_, rfl⟩
  obtain ⟨g', hg'⟩ := hf
  obtain ⟨h', hh', heq⟩ := reap_plant_nothing settings f p hp g' hg'
  rw [hh'] at h
  obtain rfl := Except.ok.inj h
  exact ⟨g', hg', heq⟩

/-- C57.  `get_summaries(f)` computes the output of `f`, and fails in the same way. -/
theorem get_summaries_output {V A B : Type} (f : Prog V A B) (g : Prog V A (B × Dict V)) (h : getSummaries f = .ok g)
    (fuel : Nat) (a : A) : (run fuel g a).map (·.1) = run fuel f a := by
  obtain ⟨g', hg', heq⟩ := getSummaries_reap f g h
  rw [heq, callAndReap_output settings f g' hg']

/-- C57.  A function is accepted by `get_summaries` if and only if `call_and_reap` accepts it. -/
theorem get_summaries_accepts {V A B : Type} (f : Prog V A B) :
    (∃ g, getSummaries f = .ok g) ↔ ∃ g, callAndReap settings f = .ok g := by
  constructor
  · rintro ⟨g, h⟩
    obtain ⟨g', hg', -⟩ := getSummaries_reap f g h
    exact ⟨g', hg'⟩
  · rintro ⟨g', hg'⟩
    obtain ⟨p, hp⟩ := plant_accepts settings f g' hg' (fun _ => none)
    obtain ⟨h', hh', -⟩ := reap_plant_nothing settings f p hp g' hg'
    refine ⟨h', ?_⟩
    simp only [getSummaries, harvest, hp, except_bind_ok, hh']

mutual
/-- Something at the site is tagged with the word `summary`. -/
def _root_.Verif.Harvest.Site.summarized : Site → Bool
  | .sow tag _ _ => tag == "summary"
  | .nest _ inner => summarized inner
/-- Something at one of the sites is tagged with the word `summary`. -/
def summarized : List Site → Bool
  | [] => false
  | s :: ss => s.summarized || summarized ss
end

/-- `n` is the name of a summary, or of a nested scope with summaries in it. -/
def IsSummary (n : String) (ss : List Site) : Prop :=
  (∃ mode, Site.sow "summary" n mode ∈ ss) ∨ ∃ inner, Site.nest n inner ∈ ss ∧ summarized inner = true

theorem active_iff (tag name : String) : settings.active tag name = (tag == "summary") := by
  simp [Settings.active, settings]

mutual
theorem Site.any_summarized : ∀ s : Site, s.any settings = s.summarized
  | .sow tag name mode => by rw [Site.any, Site.summarized, active_iff]
  | .nest scope inner => by
    rw [Site.any, Site.summarized, active_iff, any_summarized inner]
    simp [settings]
theorem any_summarized : ∀ ss : List Site, anySite settings ss = summarized ss
  | [] => rfl
  | s :: ss => by rw [anySite, summarized, Site.any_summarized s, any_summarized ss]
end

theorem declares_iff (n : String) (ss : List Site) : (declares settings n ss).isSome = true ↔ IsSummary n ss := by
  induction ss with
  | nil => simp [declares, IsSummary]
  | cons s ss ih =>
    have : (s.declares settings n).isSome = true ↔ IsSummary n [s] := by
      cases s with
      | sow tag name mode =>
        simp only [Site.declares, active_iff, IsSummary, List.mem_singleton]
        constructor
        · intro h
          split at h
          · rename_i hc
            obtain ⟨rfl, ht⟩ := hc
            exact .inl ⟨mode, by rw [eq_of_beq ht]⟩
          · simp at h
        · rintro (⟨m, h⟩ | ⟨i, h, -⟩)
          · cases h; simp
          · cases h
      | nest scope inner =>
        simp only [Site.declares, active_iff, any_summarized, IsSummary, List.mem_singleton]
        constructor
        · intro h
          split at h
          · rename_i hc
            obtain ⟨rfl, -, ht⟩ := hc
            exact .inr ⟨inner, rfl, ht⟩
          · simp at h
        · rintro (⟨m, h⟩ | ⟨i, h, h2⟩)
          · cases h
          · cases h; simp [settings, h2]
    rw [declares]
    rw [Option.isSome_or, Bool.or_eq_true, ih, this]
    simp only [IsSummary, List.mem_cons, List.not_mem_nil, or_false]
    constructor
    · rintro ((⟨m, h⟩ | ⟨i, h, h2⟩) | (⟨m, h⟩ | ⟨i, h, h2⟩))
      · exact .inl ⟨m, .inr h⟩
      · exact .inr ⟨i, .inr h, h2⟩
      · exact .inl ⟨m, .inl h⟩
      · exact .inr ⟨i, .inl h, h2⟩
    · rintro (⟨m, h | h⟩ | ⟨i, h | h, h2⟩)
      · exact .inr (.inl ⟨m, h⟩)
      · exact .inl (.inl ⟨m, h⟩)
      · exact .inr (.inr ⟨i, h, h2⟩)
      · exact .inl (.inr ⟨i, h, h2⟩)

/-- C57.  The dictionary has an entry for exactly the names that `f` tags with `summary`, in whatever calls and control
flow. -/
theorem get_summaries_keys {V A B : Type} (f : Prog V A B) (g : Prog V A (B × Dict V)) (h : getSummaries f = .ok g)
    (fuel : Nat) (a : A) (r : B × Dict V) (hr : run fuel g a = .ok r) (n : String) :
    (r.2 n).isSome = true ↔ IsSummary n (sites f) := by
  obtain ⟨g', hg', heq⟩ := getSummaries_reap f g h
  rw [heq] at hr
  rw [reap_keys settings f g' hg' fuel a r hr n, declares_iff]

/-- C57.  What `summary` is called with is what `get_summaries` returns: after any function `f` that does not use the
`summary` tag itself. -/
theorem get_summaries_of_summary {V A : Type} (f : Prog V A (Val V)) (name : String) (mode : Mode)
    (hm : mode ≠ .invalid) (hmc : mode ≠ .condClobber) (hf : AllSows false (fun tag _ m => tag ≠ "summary" ∧ m ≠ .invalid) (fun _ => True) f) :
    ∃ g, getSummaries (.seq f (summary name mode)) = .ok g ∧ ∀ fuel a,
      (run fuel g a).map (fun r => (r.1, r.2 name)) = (run fuel f a).map (fun v => (v, some v)) := by
  have hmeta : ∀ m, metaOf settings f m = .ok m := fun m => metaOf_foreign (S := settings) f hf m
  have hacc : ∃ g', callAndReap settings (.seq f (summary name mode)) = .ok g' := by
    simp only [callAndReap, metaOf, hmeta, except_bind_ok, summary, if_neg hm]
    exact ⟨_, rfl⟩
  obtain ⟨g', hg'⟩ := hacc
  obtain ⟨g, hg⟩ := (get_summaries_accepts _).2 ⟨g', hg'⟩
  refine ⟨g, hg, fun fuel a => ?_⟩
  obtain ⟨g'', hg'', heq⟩ := getSummaries_reap _ g hg
  rw [heq, run_callAndReap hg'']
  simp only [reapT, summary]
  have hd : settings.dispatch "summary" name = .handle := by simp [Settings.dispatch, settings]
  simp only [hd, run]
  have hout : (run fuel (reapT settings f) (a, fun _ => none)).map (·.1) = run fuel f a := by
    obtain ⟨gf, hgf⟩ : ∃ gf, callAndReap settings f = .ok gf := by
      simp only [callAndReap, hmeta]; exact ⟨_, rfl⟩
    rw [← callAndReap_output settings f gf hgf, run_callAndReap hgf]
    rcases run fuel (reapT settings f) (a, fun _ => none) with e | r <;> rfl
  rw [← hout]
  rcases run fuel (reapT settings f) (a, fun _ => none) with e | r
  · rfl
  · simp [Reaps.handle, newReap, hmc, selectFromPred]

/-- C57 (for programs satisfying `Regular`; `summary` itself cannot sow conditionally, so what remains is that no test
of a while loop has summaries and that nothing else sows conditionally with this tag).  The values are those that the
log of the execution dictates. -/
theorem get_summaries_values_partial {V A B : Type} (c : String → Bool) (f : Prog V A B) (g : Prog V A (B × Dict V))
    (hreg : Regular settings c f) (h : getSummaries f = .ok g) (fuel : Nat) (a : A) :
    run fuel g a = (trace fuel f a).map (fun r => (r.1, expected settings f r.2)) := by
  obtain ⟨g', hg', heq⟩ := getSummaries_reap f g h
  rw [heq, reap_exact_partial settings c f g' hreg hg']

/-- C57.  Sows with other tags are not summaries: a function without summaries gives the empty dictionary. -/
theorem get_summaries_other_tags {V A B : Type} (f : Prog V A B) (hf : summarized (sites f) = false)
    (g : Prog V A (B × Dict V)) (h : getSummaries f = .ok g) (fuel : Nat) (a : A) (r : B × Dict V)
    (hr : run fuel g a = .ok r) (n : String) : r.2 n = none := by
  have := get_summaries_keys f g h fuel a r hr n
  rcases hn : r.2 n with _ | v
  · rfl
  · rw [hn] at this
    have hs := (declares_iff n (sites f)).2 (this.1 rfl)
    have := (anySite_iff settings (sites f)).2 ⟨n, hs⟩
    rw [any_summarized, hf] at this
    simp at this

/-- C57.  The sows with other tags stay where they are: `reap` with another tag accepts or rejects what `get_summaries`
returns as it does `f`, with the same output and the same dictionary. -/
theorem get_summaries_leaves_tags {V A B : Type} (f : Prog V A B) (g : Prog V A (B × Dict V)) (h : getSummaries f = .ok g)
    (S' : Settings) (ht : S'.tag ≠ "summary") :
    (∀ e, callAndReap S' g = .error e ↔ callAndReap S' f = .error e) ∧
    ∀ g', callAndReap S' f = .ok g' → ∃ gg, callAndReap S' g = .ok gg ∧ ∀ fuel a,
      (run fuel gg a).map (fun r => (r.1.1, r.2)) = run fuel g' a ∧
      (run fuel gg a).map (·.1) = run fuel g a :=
  harvest_tags_isolated settings S' ht rfl f g h

/-- Two summaries, one of them in a loop. -/
example : ∃ g d, getSummaries (V := Nat) (.seq (summary "x" .strict)
      (.scan false (fun v => (v, [1, 2, 3])) (.seq (.pure (fun kx : Val Nat × Nat => .ok (kx.1, kx.2)))
        (.sow "summary" "y" .append (fun kx => .leaf kx.2) (fun _ => false) (fun kx _ => (kx.1, ())))) (fun _ k _ => k))) = .ok g ∧
    run 5 g (.leaf 7) = .ok (.leaf 7, d) ∧ d "x" = some (.leaf 7) ∧ d "y" = some (.stack [.leaf 1, .leaf 2, .leaf 3]) ∧
    d "z" = none := ⟨_, _, rfl, rfl, rfl, rfl, rfl⟩

end Verif.Harvest.Summary
