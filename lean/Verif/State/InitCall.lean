/-
C21: a freshly initialised module computes what the function computes.
-/
import Verif.State.Props

namespace Verif.State

open Verif.Harvest

theorem any_reap_var (ss : List Site) : anySite reapS ss = anySite varS ss := by
  induction ss using anySite.induct (motive_1 := fun s => Site.any reapS s = Site.any varS s) <;>
    simp_all [anySite, Site.any, reapS, varS, Settings.active]

theorem declares_reap_var' (n : String) (ss : List Site) : declares reapS n ss = declares varS n ss :=
  declares_reap_var n ss

mutual
theorem ev_collect_reap_var {V : Type} (n : String) : (e : Ev V) → e.collect reapS n = e.collect varS n
  | .sow .. => by simp only [Ev.collect]; rfl
  | .nest scope ss log => by
    have h1 : ∀ k, collect reapS k log = collect varS k log := fun k => collect_reap_var k log
    simp only [Ev.collect, any_reap_var, declares_reap_var', h1]
    rfl
  | .scan rev ss iters => by
    simp only [Ev.collect, declares_reap_var', iters_reap_var n iters]
  | .loop ss iters tests => by
    simp only [Ev.collect, declares_reap_var', iters_reap_var n iters, collect_reap_var n tests]
theorem collect_reap_var {V : Type} (n : String) : (l : List (Ev V)) → collect reapS n l = collect varS n l
  | [] => rfl
  | e :: es => by simp only [collect, ev_collect_reap_var n e, collect_reap_var n es]
theorem iters_reap_var {V : Type} (n : String) : (ls : List (List (Ev V))) →
    collectIters reapS n ls = collectIters varS n ls
  | [] => rfl
  | l :: ls => by simp only [collectIters, collect_reap_var n l, iters_reap_var n ls]
end

theorem metaOf_reap_var {V A B : Type} (p : Prog V A B) : ∀ m, metaOf reapS p m = metaOf varS p m := by
  have hd : ∀ t n, (reapS.dispatch t n = .handle) ↔ (varS.dispatch t n = .handle) := by
    intro t n
    simp only [Settings.dispatch, reapS, varS]
    by_cases h : t = variableTag <;> simp [h]
  have hm : ∀ (t n : String) (x y : Except Err Meta),
      (match reapS.dispatch t n with | .handle => x | _ => y) =
      (match varS.dispatch t n with | .handle => x | _ => y) := by
    intro t n x y
    have := hd t n
    rcases h1 : reapS.dispatch t n <;> rcases h2 : varS.dispatch t n <;> rw [h1, h2] at this <;> simp at this ⊢
  induction p with
  | pure f => intro m; rfl
  | seq p q ihp ihq =>
    intro m; simp only [metaOf, ihp]
    rcases metaOf varS p m with e | m'
    · rfl
    · simp [ihq]
  | sow tag name mode pre pred post => intro m; simp only [metaOf]; split; rfl; exact hm tag name _ _
  | nest s pre body post ih =>
    intro m; simp only [metaOf, ih]
    rcases metaOf varS body [] with e | m'
    · rfl
    · simp only [except_bind_ok]
      split
      · rfl
      · exact hm variableTag s (m.handle s .strict) (.ok m)
  | inline pre body post ih => intro m; simp only [metaOf, ih]
  | call _ pre body post ih => intro m; simp only [metaOf, ih]
  | cond j sel pre br post ih => intro m; simp only [metaOf, ih]
  | scan rev pre body post ih => intro m; simp only [metaOf, ih]
  | whileL pre test body post iht ihb => intro m; simp only [metaOf, ihb]

theorem regular_reap_var {V A B : Type} {c : String → Bool} (p : Prog V A B) :
    Regular varS c p → Regular reapS c p := by
  induction p generalizing c with
  | pure f => exact id
  | seq p q ihp ihq => exact fun h => ⟨ihp h.1, ihq h.2⟩
  | sow => exact id
  | nest s pre body post ih => exact fun h => ⟨ih h.1, h.2⟩
  | inline pre body post ih => exact ih
  | call _ pre body post ih => exact ih
  | cond j sel pre br post ih => exact fun h i => ih i (h i)
  | scan rev pre body post ih =>
    intro h; refine ⟨ih h.1, ?_⟩; simp only [declares_reap_var']; exact h.2
  | whileL pre test body post iht ihb => exact fun h => ⟨ihb h.1, h.2⟩

/-- C21: calling a freshly initialised module gives the output that the function itself has with the
initialisation key, provided the key is only used to initialise variables (`hkey`: with all the variables
given, the key does not matter; trivially true when initialised with `PRNGKey(0)`). -/
theorem init_then_call {V K X Y : Type} (fuel : Nat) (key0 : K) (f : Prog V (K × X) Y)
    (name : Option String) (key : K) (x : X) (m : FModule V X Y)
    (h : functionInit fuel key0 f name key x = .ok m) (c : String → Bool) (hreg : Regular asgS c f)
    (hv : NoClobber varS f) (hvr : Regular varS (fun _ => false) f) (hp : Plain m.variables)
    (hasg : ∀ n, (declares asgS n (sites f)).isSome → (m.variables n).isSome)
    (hkey : key = key0 ∨ ptrace varS fuel f m.variables (key, x) = ptrace varS fuel f m.variables (key0, x)) :
    ∃ y, run fuel f (key, x) = .ok y ∧ m.call fuel x = .ok y := by
  obtain ⟨y, log, ht, hvars⟩ := init_variables fuel key0 f name key x m h _ (regular_reap_var f hvr)
  obtain ⟨r, g, st, h', j, me, h1, -⟩ := functionInit_ok h
  simp only [reap] at h1
  rcases hc : callAndReap reapS f with e | t <;> rw [hc] at h1 <;> simp at h1
  obtain ⟨mv, hmv, -⟩ := callAndReap_ok hc
  rw [metaOf_reap_var] at hmv
  obtain ⟨l', hl', -⟩ := ptrace_own varS fuel f hv (scopes_of_none _ _ f) hvr hmv (Fits.nil _) (key, x) y log ht
    m.variables (by
      intro n hn
      right
      rw [hvars]
      simp only [expected, declares_reap_var', hn, if_true, collect_reap_var])
  refine ⟨y, by rw [run_eq_trace, ht]; rfl, ?_⟩
  have hl0 : ptrace varS fuel f m.variables (key0, x) = .ok (y, l') := by
    rcases hkey with rfl | hkey
    · exact hl'
    · rw [← hkey, hl']
  obtain ⟨-, hok⟩ := callAndUpdate_spec fuel key0 f name key x m h c hreg m.variables hp
    (fun n => Shape.reflO _) fuel x
  have := (hok y l' hl0).2 hasg
  have hm : m.replace m.variables = m := rfl
  rw [hm] at this
  simp only [FModule.call, this, except_map_ok]

end Verif.State
