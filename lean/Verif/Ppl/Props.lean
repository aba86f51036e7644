/-
C16-C20: trace, joint_sample, block, intervene, conditional, graph_replace.
-/
import Verif.Ppl.Model
import Verif.Ppl.Own
import Verif.Harvest.Examples

namespace Verif.Ppl

open Verif.Harvest

/-- A probabilistic program: its random variables are sown with `strict` (as `random_variable` does) or
`append`, and none is sown in the test of a while loop. -/
def RvProg {V : Type} : {A B : Type} → Prog V A B → Prop
  | _, _, .pure _ => True
  | _, _, .seq p q => RvProg p ∧ RvProg q
  | _, _, .sow tag _ mode _ _ _ => tag = rvTag → mode = .strict ∨ mode = .append
  | _, _, .nest _ _ body _ => RvProg body
  | _, _, .inline _ body _ => RvProg body
  | _, _, .call _ _ body _ => RvProg body
  | _, _, .cond _ _ _ br _ => ∀ i, RvProg (br i)
  | _, _, .scan _ _ body _ => RvProg body
  | _, _, .whileL _ test body _ => Quiet rvS test ∧ RvProg body

theorem rvS_active (tag n : String) : rvS.active tag n = decide (tag = rvTag) := by
  simp [Settings.active, rvS, Bool.beq_eq_decide_eq]

theorem RvProg.scopes {V A B : Type} (f : Prog V A B) : ScopesActive rvS f := by
  simp only [ScopesActive]
  induction f with
  | pure f => trivial
  | seq p q ihp ihq => exact ⟨ihp, ihq⟩
  | sow => trivial
  | nest s pre body post ih => exact ⟨by simp only [rvS_active]; simp [rvS], ih⟩
  | inline pre body post ih => exact ih
  | call _ pre body post ih => exact ih
  | cond j sel pre br post ih => exact ih
  | scan rev pre body post ih => exact ih
  | whileL pre test body post iht ihb => exact ⟨by simp, ihb⟩

theorem RvProg.noClobber {V A B : Type} (f : Prog V A B) (h : RvProg f) : NoClobber rvS f := by
  simp only [NoClobber]
  induction f with
  | pure f => trivial
  | seq p q ihp ihq => exact ⟨ihp h.1, ihq h.2⟩
  | sow tag name mode pre pred post =>
    intro ha
    rw [rvS_active] at ha
    rcases h (by simpa using ha) with h | h <;> rw [h] <;> rfl
  | nest s pre body post ih => exact ⟨trivial, ih h⟩
  | inline pre body post ih => exact ih h
  | call _ pre body post ih => exact ih h
  | cond j sel pre br post ih => exact fun i => ih i (h i)
  | scan rev pre body post ih => exact ih h
  | whileL pre test body post iht ihb => exact ⟨by simp, ihb h.2⟩

theorem RvProg.regular {V A B : Type} (f : Prog V A B) (h : RvProg f) : Regular rvS (fun _ => false) f := by
  induction f with
  | pure f => trivial
  | seq p q ihp ihq => exact ⟨ihp h.1, ihq h.2⟩
  | sow tag name mode pre pred post =>
    intro ha
    rw [rvS_active] at ha
    rcases h (by simpa using ha) with h | h <;> rw [h] <;> simp
  | nest s pre body post ih => exact ⟨ih h, rfl⟩
  | inline pre body post ih => exact ih h
  | call _ pre body post ih => exact ih h
  | cond j sel pre br post ih => exact fun i => ih i (h i)
  | scan rev pre body post ih => exact ⟨ih h, .inr fun _ _ => rfl⟩
  | whileL pre test body post iht ihb => exact ⟨ihb h.2, h.1⟩

/-! ### C16 -/

/-- C16: `trace(f)` computes the output of `f` and the dictionary of the values that the named random variables
took in that very execution. -/
theorem trace_exact {V A B : Type} (f : Prog V A B) (hf : RvProg f) (t : Prog V A (B × Dict V))
    (h : trace f = .ok t) (fuel : Nat) (a : A) :
    run fuel t a = (Harvest.trace fuel f a).map (fun r => (r.1, expected rvS f r.2)) :=
  reap_exact_partial rvS _ f t hf.regular h fuel a

/-- C16: `joint_sample(f)` is the second component of `trace(f)`. -/
theorem jointSample_snd {V A B : Type} (f : Prog V A B) (t : Prog V A (B × Dict V))
    (h : trace f = .ok t) : ∃ j, jointSample f = .ok j ∧ ∀ fuel a, run fuel j a = (run fuel t a).map (·.2) := by
  simp only [trace] at h
  simp only [jointSample, reap, h, except_map_ok]
  refine ⟨_, rfl, fun fuel a => ?_⟩
  simp only [run]
  rcases run fuel t a with e | r <;> rfl

/-- C16: fixing all latents to the values of the trace reproduces the output. -/
theorem trace_replay {V A B : Type} (f : Prog V A B) (hf : RvProg f) (t : Prog V A (B × Dict V))
    (h : trace f = .ok t) (fuel : Nat) (a : A) (b : B) (D : Dict V) (hr : run fuel t a = .ok (b, D))
    (hD : Plain D) :
    ∃ g, intervene f D = .ok g ∧ run fuel g a = .ok b ∧ run fuel f a = .ok b :=
  reap_plant_roundtrip_partial rvS f t h hf.noClobber (RvProg.scopes f) hf.regular fuel a b D hr hD

/-! ### C17 -/

/-- The latents and the output of the intervened program: `trace(intervene(f, **obs))`. -/
def traceDo {V A B : Type} (f : Prog V A B) (obs : Dict V) : Except Err (Prog V A (B × Dict V)) := do
  let g ← intervene f obs
  trace g

theorem traceDo_eq {V A B : Type} (f : Prog V A B) (obs : Dict V) : traceDo f obs = harvest rvS f obs := rfl

/-- C17: the observed variables are fixed: the intervened program executes like `f` where the observed
variables have the observed values. -/
theorem intervene_fixes {V A B : Type} (f : Prog V A B) (obs : Dict V) (hobs : Plain obs) (g : Prog V A B)
    (h : intervene f obs = .ok g) (fuel : Nat) (a : A) :
    run fuel g a = (ptrace rvS fuel f obs a).map (·.1) :=
  plant_override_run rvS f obs g h (RvProg.scopes f) hobs fuel a

/-- C17: an observed variable is no longer a latent. -/
theorem intervene_removed {V A B : Type} (f : Prog V A B) (obs : Dict V) (t : Prog V A (B × Dict V))
    (h : traceDo f obs = .ok t) (fuel : Nat) (a : A) (r : B × Dict V) (hr : run fuel t a = .ok r)
    (n : String) (v : Val V) (hn : obs n = some v) (hs : notScope rvS n (sites f)) : r.2 n = none :=
  harvest_planted_absent rvS f obs t h (RvProg.scopes f) fuel a r hr n v hn hs

/-- C17, consistency: intervening with values that the variables take anyway changes neither the output nor
the other latents. -/
theorem intervene_consistent {V A B : Type} (f : Prog V A B) (hf : RvProg f)
    (t : Prog V A (B × Dict V)) (ht : trace f = .ok t) (fuel : Nat) (a : A) (b : B) (D : Dict V)
    (hr : run fuel t a = .ok (b, D)) (own : Dict V) (hown : ∀ n, own n = none ∨ own n = D n) (hp : Plain own)
    (t' : Prog V A (B × Dict V)) (ht' : traceDo f own = .ok t') :
    ∃ D', run fuel t' a = .ok (b, D') ∧ ∀ n, own n = none → D' n = D n := by
  have hx := hr
  rw [trace_exact f hf t ht] at hx
  rcases htr : Harvest.trace fuel f a with e | ⟨b', l⟩ <;> rw [htr] at hx <;> simp at hx
  obtain ⟨rfl, rfl⟩ := hx
  obtain ⟨m, hm, -⟩ := callAndReap_ok ht
  obtain ⟨l', hl', hv⟩ := ptrace_own rvS fuel f hf.noClobber (RvProg.scopes f) hf.regular hm (Fits.nil _) a b' l
    htr own (by
      intro n hn
      rcases hown n with h | h
      · exact .inl h
      · right; rw [h]; simp [expected, hn])
  rw [harvest_split_partial rvS _ f own t' ht' (RvProg.scopes f) hp hf.regular, hl']
  refine ⟨_, rfl, fun n hn => ?_⟩
  simp only [declares_keptSites hn, hv n hn, expected]

/-- `n` does not depend on the variables fixed by `obs` when run on `a`: whatever values they are given, the
intervened executions that succeed agree on `n`. -/
def IndependentOf {V A B : Type} (fuel : Nat) (f : Prog V A B) (obs : Dict V) (n : String) (a : A) : Prop :=
  ∀ P Q : Dict V, Plain P → Plain Q → (∀ k, (P k).isSome = (obs k).isSome) →
    (∀ k, (Q k).isSome = (obs k).isSome) →
    ∀ t t', traceDo f P = .ok t → traceDo f Q = .ok t' → ∀ r r', run fuel t a = .ok r → run fuel t' a = .ok r' →
      r.2 n = r'.2 n

/-- C17: a variable that does not depend on the observed ones keeps, under the same key, the value it has
without the intervention. -/
theorem intervene_independent {V A B : Type} (f : Prog V A B) (hf : RvProg f)
    (t : Prog V A (B × Dict V)) (ht : trace f = .ok t) (fuel : Nat) (a : A) (r : B × Dict V)
    (hr : run fuel t a = .ok r) (hD : Plain r.2) (obs : Dict V) (hobs : Plain obs)
    (hdecl : ∀ k, (obs k).isSome → (r.2 k).isSome)
    (t' : Prog V A (B × Dict V)) (ht' : traceDo f obs = .ok t') (r' : B × Dict V)
    (hr' : run fuel t' a = .ok r')
    (own : Dict V) (hown : own = fun k => if (obs k).isSome then r.2 k else none)
    (t'' : Prog V A (B × Dict V)) (ht'' : traceDo f own = .ok t'')
    (n : String) (hn : obs n = none) (hind : IndependentOf fuel f obs n a) : r'.2 n = r.2 n := by
  obtain ⟨b, D⟩ := r
  have hplain : Plain own := by
    intro k; rw [hown]; simp only; split
    · exact hD k
    · exact .none
  obtain ⟨D', hD', hv⟩ := intervene_consistent f hf t ht fuel a b D hr own
    (by intro k; rw [hown]; simp only; split <;> simp) hplain t'' ht''
  rw [hind obs own hobs hplain (fun _ => rfl) (by
    intro k; rw [hown]; simp only; split
    · rename_i h; rw [hdecl k h, h]
    · rename_i h; simp at h; simp [h]) t' t'' ht' ht'' _ _ hr' hD']
  exact hv n (by rw [hown]; simp [hn])

/-- C17: the variables sampled before the first observed one keep their values. -/
theorem intervene_upstream {V A B C : Type} (p : Prog V A B) (q : Prog V B C) (hf : RvProg (.seq p q))
    (t : Prog V A (C × Dict V)) (ht : trace (.seq p q) = .ok t) (fuel : Nat) (a : A) (r : C × Dict V)
    (hr : run fuel t a = .ok r) (obs : Dict V) (hobs : Plain obs)
    (hp : ∀ n, (declares rvS n (sites p)).isSome → obs n = none)
    (t' : Prog V A (C × Dict V)) (ht' : traceDo (.seq p q) obs = .ok t') (r' : C × Dict V)
    (hr' : run fuel t' a = .ok r') (n : String) (hn : (declares rvS n (sites p)).isSome) :
    r'.2 n = r.2 n := by
  have hs := RvProg.scopes (V := V) (.seq p q)
  have hreg := hf.regular
  rw [trace_exact _ hf t ht] at hr
  obtain ⟨m, hm, -⟩ := callAndReap_ok ht
  have ht2 := ht'
  rw [traceDo_eq] at ht2
  rw [harvest_split_partial rvS _ _ obs t' ht2 hs hobs hreg] at hr'
  -- the static side
  simp only [harvest] at ht2
  rcases hg : plant rvS (.seq p q) obs with e | g <;> rw [hg] at ht2
  · simp at ht2
  simp only [except_bind_ok] at ht2
  obtain ⟨⟨st, hc⟩, rfl⟩ := plant_ok hg
  obtain ⟨m', hm', -⟩ := callAndReap_ok ht2
  obtain ⟨st1, hc1, hc2⟩ := plantCheck_seq hc
  simp only [metaOf, plantT, except_bind_ok] at hm' hm
  rcases hmp : metaOf rvS p [] with e | mp <;> rw [hmp] at hm
  · simp at hm
  simp only [except_bind_ok] at hm
  rcases hmp' : metaOf rvS (plantT rvS p obs) [] with e | mp' <;> rw [hmp'] at hm'
  · simp at hm'
  simp only [except_bind_ok] at hm'
  rcases hmq' : metaOf rvS (plantT rvS q obs) mp' with e | mq' <;> rw [hmq'] at hm'
  · simp at hm'
  -- the dynamic side
  simp only [Harvest.trace] at hr
  rcases h1 : Harvest.trace fuel p a with e | ⟨b1, l1⟩ <;> rw [h1] at hr
  · simp at hr
  simp only [except_bind_ok] at hr
  rcases h2 : Harvest.trace fuel q b1 with e | ⟨b2, l2⟩ <;> rw [h2] at hr
  · simp at hr
  simp only [except_bind_ok, except_pure, except_map_ok, Except.ok.injEq] at hr
  subst hr
  have e1 : ptrace rvS fuel p obs a = .ok (b1, keptLog rvS l1) := by
    rw [ptrace_congr fuel p obs _ _ hc1 hs.1 obs (fun _ => none) hp, ptrace_none, h1]; rfl
  simp only [ptrace, e1, except_bind_ok] at hr'
  rcases h3 : ptrace rvS fuel q obs b1 with e | ⟨b2', l2'⟩ <;> rw [h3] at hr'
  · simp at hr'
  simp only [except_bind_ok, except_pure, except_map_ok, Except.ok.injEq] at hr'
  subst hr'
  -- `n` is declared by `p` only
  have hmode : ∃ k : Mode, k.isClobber = false ∧ declares rvS n (sites p) = some k := by
    obtain ⟨k, hk⟩ := Option.isSome_iff_exists.1 hn
    exact ⟨k, NoClobber.declares p hf.noClobber.1 n k hk, hk⟩
  obtain ⟨k, hk, hdk⟩ := hmode
  have hq : declares rvS n (sites q) = none :=
    metaOf_nonclobber hm hk (by rw [metaOf_nil_get hmp, hdk])
  have hnone : obs n = none := hp n hn
  have hq' : declares rvS n (sites (plantT rvS q obs)) = none := by
    rw [sites_plantT q obs _ _ hc2 hs.2, declares_keptSites hnone, hq]
  have c2 : collect rvS n l2 = none :=
    collect_undeclared hreg.2 hm (Fits.metaOf hreg.1 hmp (Fits.nil _)) h2 hq
  have h3' : Harvest.trace fuel (plantT rvS q obs) (b1, obs) = .ok ((b2', obs), l2') := by
    rw [trace_plantT fuel q obs _ _ hc2 hs.2 obs hobs (fun _ => Shape.reflO _), h3]; rfl
  have c2' : collect rvS n l2' = none :=
    collect_undeclared (regular_plantT q obs _ _ hc2 hs.2 hreg.2) hmq'
      (Fits.metaOf (regular_plantT p obs _ _ hc1 hs.1 hreg.1) hmp' (Fits.nil _)) h3' hq'
  simp only [expected, declares_keptSites hnone, collect_append, c2, c2', Option.none_or, collect_kept]

/-! ### C18 -/

theorem dictOf_get {V : Type} (l : List (String × Val V)) (d : Dict V) (n : String) :
    l.foldl (fun d e => fun k => if k = e.1 then some e.2 else d k) d n =
      ((l.filter (fun e => e.1 = n)).getLast?.map (·.2)).or (d n) := by
  induction l generalizing d with
  | nil => simp
  | cons e l ih =>
    rw [List.foldl_cons, ih]
    by_cases h : e.1 = n
    · subst h
      simp only [if_true, List.filter_cons, decide_true, List.getLast?_cons]
      cases (l.filter (fun e' => e'.1 = e.1)).getLast? <;> simp
    · have h' : ¬ n = e.1 := fun x => h x.symm
      simp [h, h']

/-- C18: with at least one argument per name, the last arguments are the conditions, in the order of the names,
and the rest are the arguments of the intervened program. -/
theorem conditional_eq_intervene {V B : Type} (f : Prog V (List (Val V)) B) (names : List String)
    (own vals : List (Val V)) (hlen : vals.length = names.length) (P : Dict V)
    (hP : ∀ n, P n = (((names.zip vals).filter (fun e => e.1 = n)).getLast?.map (·.2))) :
    (∀ g, intervene f P = .ok g → conditional f names (own ++ vals) = .ok (g, own)) ∧
    (∀ e, intervene f P = .error e → conditional f names (own ++ vals) = .error (.harvest e)) := by
  have hd : (condArgs names (own ++ vals) : Except PErr _) = .ok (own, P) := by
    simp only [condArgs]
    by_cases h0 : names.length > 0
    · have e1 : (own ++ vals).length - names.length = own.length := by simp [hlen]
      rw [if_pos h0, e1]
      simp only [List.take_left', List.drop_left', hlen, if_true, Except.ok.injEq, Prod.mk.injEq, true_and]
      funext n
      rw [dictOf, dictOf_get, hP]; simp
    · rw [if_neg h0]
      have : names = [] := List.length_eq_zero_iff.1 (by omega)
      subst this
      have : vals = [] := List.length_eq_zero_iff.1 (by simpa using hlen)
      subst this
      simp only [List.append_nil, Except.ok.injEq, Prod.mk.injEq, true_and]
      funext n
      rw [hP]; simp
  constructor
  · intro g hg; simp only [conditional, hd, hg]
  · intro e he; simp only [conditional, hd, he]

theorem filter_zip_nodup {α : Type} (names : List String) (hnd : names.Nodup) (vals : List α)
    (hlen : vals.length = names.length) (i : Nat) (hi : i < names.length) :
    (names.zip vals).filter (fun e => e.1 = names[i]) = [(names[i], vals[i]'(by omega))] := by
  induction names generalizing vals i with
  | nil => simp at hi
  | cons x xs ih =>
    obtain _ | ⟨v, vs⟩ := vals
    · simp at hlen
    rw [List.nodup_cons] at hnd
    simp only [List.zip_cons_cons]
    cases i with
    | zero =>
      rw [List.filter_cons]
      simp only [List.getElem_cons_zero, decide_true, if_true]
      congr 1
      rw [List.filter_eq_nil_iff]
      intro e he
      have := (List.of_mem_zip he).1
      simp only [decide_eq_true_eq]
      rintro rfl; exact hnd.1 this
    | succ i =>
      have hx : ¬ x = xs[i]'(by simpa using hi) := by rintro h; exact hnd.1 (h ▸ List.getElem_mem _)
      simp only [List.getElem_cons_succ]
      rw [List.filter_cons]
      simp only [hx, decide_false, Bool.false_eq_true, if_false]
      exact ih hnd.2 vs (by simpa using hlen) i (by simpa using hi)

/-- C18: with distinct names, the `i`-th name is conditioned on the `i`-th of the trailing arguments. -/
theorem conditional_value {V : Type} (names : List String) (hnd : names.Nodup) (own vals : List (Val V))
    (hlen : vals.length = names.length) (i : Nat) (hi : i < names.length) :
    ∃ P, condArgs names (own ++ vals) = .ok (own, P) ∧ P names[i] = some (vals[i]'(by omega)) ∧
      ∀ n, n ∉ names → P n = none := by
  have e1 : (own ++ vals).length - names.length = own.length := by simp [hlen]
  simp only [condArgs]
  rw [if_pos (by omega), e1]
  simp only [List.take_left', List.drop_left', hlen, if_true]
  refine ⟨_, rfl, ?_, ?_⟩
  · rw [dictOf, dictOf_get]
    have := filter_zip_nodup names hnd vals hlen i hi
    rw [this]; simp
  · intro n hn
    rw [dictOf, dictOf_get]
    have : (names.zip vals).filter (fun e => e.1 = n) = [] := by
      rw [List.filter_eq_nil_iff]
      intro e he
      simp only [decide_eq_true_eq]
      rintro rfl; exact hn (List.of_mem_zip he).1
    rw [this]; simp

/-- C18: with fewer arguments than names the call raises. -/
theorem conditional_too_few {V B : Type} (f : Prog V (List (Val V)) B) (names : List String)
    (args : List (Val V)) (h : args.length < names.length) : conditional f names args = .error .zipLength := by
  have e1 : args.length - names.length = 0 := by omega
  simp only [conditional, condArgs]
  rw [if_pos (by omega), e1]
  simp only [List.drop_zero]
  rw [if_neg (by omega)]

end Verif.Ppl
