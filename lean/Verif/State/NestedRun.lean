/-
How the program of an inner module behaves under the harvests of the outer `init` (lemmas for C68).
-/
import Verif.State.NestedLemmas
import Verif.State.NestedSpec

namespace Verif.State

open Verif.Harvest

/-- `ns` are the keys of the dictionary. -/
def HasNames {V : Type} (vars : Dict V) (ns : List String) : Prop := ∀ n, (vars n).isSome ↔ n ∈ ns

theorem reapS_handle (n : String) : reapS.dispatch variableTag n = .handle := by
  rw [dispatch_handle]; simp [Settings.active, reapS]
theorem varS_handle (n : String) : varS.dispatch variableTag n = .handle := by
  rw [dispatch_handle]; simp [Settings.active, varS]
theorem asgS_handle (n : String) : asgS.dispatch assignTag n = .handle := by
  rw [dispatch_handle]; simp [Settings.active, asgS]
theorem asg_tag_ne : assignTag ≠ variableTag := by decide

/-! ### The sows of the inner module's variables -/

theorem foreign_retag {V : Type} (name : Option String) (ns : List String) :
    Foreign asgS (retag name ns : Prog V (Dict V) (Dict V)) := by
  cases name with
  | none =>
    simp only [retag]
    induction ns with
    | nil => trivial
    | cons n ns ih => exact ⟨⟨Ne.symm asg_tag_ne, by simp⟩, ih⟩
  | some name =>
    simp only [retag, retagModule]
    split
    · trivial
    · exact ⟨Ne.symm asg_tag_ne, by simp⟩

theorem foreign_assign {V : Type} (name : Option String) (ns : List String) :
    Foreign varS (assignModule name ns : Prog V (Dict V) Unit) := by
  cases name with
  | none =>
    simp only [assignModule]
    induction ns with
    | nil => trivial
    | cons n ns ih => exact ⟨⟨asg_tag_ne, by simp⟩, ih⟩
  | some name => exact ⟨asg_tag_ne, by simp⟩

theorem metaOf_retagAll {V : Type} (S : Settings) (hS : ∀ n, S.dispatch variableTag n = .handle) :
    ∀ (ns : List String) (m : Meta), ns.Nodup → (∀ n ∈ ns, m.get n = none) →
    ∃ m', metaOf S (retagAll ns : Prog V (Dict V) (Dict V)) m = .ok m'
  | [], m, _, _ => ⟨m, rfl⟩
  | n :: ns, m, hnd, hm => by
    rw [List.nodup_cons] at hnd
    obtain ⟨m', h'⟩ := metaOf_retagAll (V := V) S hS ns (m.set n .strict) hnd.2 (by
      intro k hk
      rw [Meta.get_set]
      have : k ≠ n := by rintro rfl; exact hnd.1 hk
      simp [this, hm k (by simp [hk])])
    refine ⟨m', ?_⟩
    simp only [retagAll, variableP, metaOf, hS, Meta.handle, hm n (by simp), reduceCtorEq, if_false, except_bind_ok]
    exact h'

theorem metaOf_retag {V : Type} (name : Option String) (ns : List String) (hnd : ns.Nodup) :
    ∃ m', metaOf reapS (retag name ns : Prog V (Dict V) (Dict V)) [] = .ok m' := by
  cases name with
  | none => exact metaOf_retagAll reapS reapS_handle ns [] hnd (by simp)
  | some name =>
    simp only [retag, retagModule]
    split
    · exact ⟨_, rfl⟩
    · simp [variableP, metaOf, reapS_handle, Meta.handle]

theorem run_reapT_retagAll {V : Type} (fuel : Nat) : ∀ (ns : List String) (d : Dict V) (R : Reaps V),
    (∀ n ∈ ns, (d n).isSome) →
    run fuel (reapT reapS (retagAll ns)) (d, R) = .ok (d, fun k => if k ∈ ns then
      (d k).map (fun v => ⟨v, none, .strict⟩) else R k)
  | [], d, R, _ => by simp [retagAll, reapT, run]
  | n :: ns, d, R, h => by
    obtain ⟨v, hv⟩ := Option.isSome_iff_exists.1 (h n (by simp))
    have hd : (fun k => if k = n then some v else d k) = d := by
      funext k; by_cases hk : k = n <;> simp [hk, hv]
    simp only [retagAll, variableP, reapT, reapS_handle, run, except_bind_ok, hv, Option.getD_some, hd,
      run_reapT_retagAll fuel ns d _ (fun k hk => h k (by simp [hk]))]
    simp only [Except.ok.injEq, Prod.mk.injEq, true_and]
    funext k
    by_cases h1 : k ∈ ns
    · simp [h1]
    · by_cases h2 : k = n
      · subst h2; simp [h1, Reaps.handle, newReap, hv]
      · simp [h1, h2, Reaps.handle]

theorem run_reapT_retag {V : Type} (fuel : Nat) (name : Option String) (ns : List String) (d : Dict V)
    (h : HasNames d ns) (hne : name = none ∨ ns ≠ []) :
    ∃ R, run fuel (reapT reapS (retag name ns)) (d, fun _ => none) = .ok (d, R) ∧
      (fun k => (R k).map selectFromPred) = inherit name d := by
  cases name with
  | none =>
    refine ⟨_, run_reapT_retagAll fuel ns d _ (fun n hn => (h n).2 hn), ?_⟩
    funext k
    by_cases hk : k ∈ ns
    · cases hd : d k <;> simp [hk, hd, inherit, selectFromPred]
    · have : d k = none := by
        cases hd : d k with
        | none => rfl
        | some v => exact absurd ((h k).1 (by simp [hd])) hk
      simp [hk, this, inherit]
  | some name =>
    have hns : ns.isEmpty = false := by rcases hne with h | h <;> simp_all
    simp only [retag, retagModule, hns, Bool.false_eq_true, if_false, variableP, reapT, reapS_handle, run, asVars]
    refine ⟨_, rfl, ?_⟩
    funext k
    by_cases hk : k = name <;> simp [hk, Reaps.handle, newReap, inherit, selectFromPred]

theorem plantCheck_retagAll {V : Type} : ∀ (ns : List String) (P : Dict V) (st : List String), ns.Nodup →
    (∀ n ∈ ns, n ∉ st) → ∃ st', plantCheck varS (retagAll ns : Prog V (Dict V) (Dict V)) P st = .ok st'
  | [], P, st, _, _ => ⟨st, rfl⟩
  | n :: ns, P, st, hnd, hm => by
    rw [List.nodup_cons] at hnd
    have h1 := plantCheck_retagAll (V := V) ns P st hnd.2 (fun k hk => hm k (by simp [hk]))
    have h2 := plantCheck_retagAll (V := V) ns P (n :: st) hnd.2 (by
      intro k hk
      have : k ≠ n := by rintro rfl; exact hnd.1 hk
      simp [this, hm k (by simp [hk])])
    have hc : n ∉ st := hm n (by simp)
    simp only [retagAll, variableP, plantCheck, varS_handle, reduceCtorEq, if_false, List.contains_iff_mem, hc]
    split
    · exact h2
    · exact h1

theorem plantCheck_retag {V : Type} (name : Option String) (ns : List String) (P : Dict V) (hnd : ns.Nodup) :
    ∃ st', plantCheck varS (retag name ns : Prog V (Dict V) (Dict V)) P [] = .ok st' := by
  cases name with
  | none => exact plantCheck_retagAll ns P [] hnd (by simp)
  | some name =>
    simp only [retag, retagModule]
    split
    · exact ⟨_, rfl⟩
    · simp only [variableP, plantCheck, varS_handle, reduceCtorEq, if_false, List.contains_nil, Bool.false_eq_true]
      split <;> exact ⟨_, rfl⟩

theorem run_plantT_retagAll {V : Type} (fuel : Nat) : ∀ (ns : List String) (P0 P d : Dict V),
    (∀ n ∈ ns, (P0 n).isSome) → (∀ n ∈ ns, (P n).isSome) →
    run fuel (plantT varS (retagAll ns) P0) (d, P) = .ok (fun k => if k ∈ ns then P k else d k, P)
  | [], P0, P, d, _, _ => by simp [retagAll, plantT, run]
  | n :: ns, P0, P, d, h0, h1 => by
    obtain ⟨v, hv⟩ := Option.isSome_iff_exists.1 (h1 n (by simp))
    simp only [retagAll, variableP, plantT, varS_handle, h0 n (by simp), if_true, run, hv, except_bind_ok,
      run_plantT_retagAll fuel ns P0 P _ (fun k hk => h0 k (by simp [hk])) (fun k hk => h1 k (by simp [hk]))]
    simp only [Except.ok.injEq, Prod.mk.injEq, and_true]
    funext k
    by_cases h1 : k ∈ ns
    · simp [h1]
    · by_cases h2 : k = n
      · subst h2; simp [h1, hv]
      · simp [h1, h2]

theorem run_plantT_retag {V : Type} (fuel : Nat) (name : Option String) (ns : List String) (P0 vars d : Dict V)
    (h0 : HasNames P0 ns) (h1 : HasNames vars ns) (hd : HasNames d ns) (hne : name = none ∨ ns ≠ []) :
    run fuel (plantT varS (retag name ns) (inherit name P0)) (d, inherit name vars) =
      .ok (vars, inherit name vars) := by
  cases name with
  | none =>
    simp only [retag, inherit]
    rw [run_plantT_retagAll fuel ns P0 vars d (fun n hn => (h0 n).2 hn) (fun n hn => (h1 n).2 hn)]
    simp only [Except.ok.injEq, Prod.mk.injEq, and_true]
    funext k
    by_cases hk : k ∈ ns
    · simp [hk]
    · have e1 : vars k = none := by simpa using fun h => hk ((h1 k).1 (Option.isSome_iff_ne_none.2 h))
      have e2 : d k = none := by simpa using fun h => hk ((hd k).1 (Option.isSome_iff_ne_none.2 h))
      simp [hk, e1, e2]
  | some name =>
    have hns : ns.isEmpty = false := by rcases hne with h | h <;> simp_all
    simp [retag, retagModule, hns, variableP, plantT, varS_handle, run, asVars, inherit]

theorem metaOf_assignAll {V : Type} (S : Settings) (hS : ∀ n, S.dispatch assignTag n = .handle) :
    ∀ (ns : List String) (m : Meta), ns.Nodup → (∀ n ∈ ns, m.get n = none) →
    ∃ m', metaOf S (assignAll ns : Prog V (Dict V) Unit) m = .ok m'
  | [], m, _, _ => ⟨m, rfl⟩
  | n :: ns, m, hnd, hm => by
    rw [List.nodup_cons] at hnd
    obtain ⟨m', h'⟩ := metaOf_assignAll (V := V) S hS ns (m.set n .clobber) hnd.2 (by
      intro k hk
      rw [Meta.get_set]
      have : k ≠ n := by rintro rfl; exact hnd.1 hk
      simp [this, hm k (by simp [hk])])
    refine ⟨m', ?_⟩
    simp only [assignAll, assignP, metaOf, hS, Meta.handle, hm n (by simp), reduceCtorEq, if_false, except_bind_ok]
    exact h'

theorem metaOf_assign {V : Type} (name : Option String) (ns : List String) (hnd : ns.Nodup) :
    ∃ m', metaOf asgS (assignModule name ns : Prog V (Dict V) Unit) [] = .ok m' := by
  cases name with
  | none => exact metaOf_assignAll asgS asgS_handle ns [] hnd (by simp)
  | some name => simp [assignModule, assignP, metaOf, asgS_handle, Meta.handle]

theorem plantCheck_assign {V : Type} (name : Option String) (ns : List String) :
    plantCheck asgS (assignModule name ns : Prog V (Dict V) Unit) (fun _ => none) [] = .ok [] := by
  cases name with
  | none =>
    simp only [assignModule]
    induction ns with
    | nil => rfl
    | cons n ns ih =>
      simp only [assignAll, assignP, plantCheck, asgS_handle, reduceCtorEq, if_false, List.contains_nil,
        Bool.false_eq_true, Option.isSome_none, Bool.false_and, except_bind_ok]
      exact ih
  | some name => simp [assignModule, assignP, plantCheck, asgS_handle]

theorem run_reapT_assignAll {V : Type} (fuel : Nat) : ∀ (ns : List String) (d : Dict V) (R : Reaps V),
    (∀ n ∈ ns, (d n).isSome) →
    ∃ R', run fuel (reapT asgS (assignAll ns)) (d, R) = .ok ((), R') ∧
      ∀ k, (R' k).map selectFromPred = if k ∈ ns then d k else (R k).map selectFromPred
  | [], d, R, _ => ⟨R, by simp [assignAll, reapT, run], by simp⟩
  | n :: ns, d, R, h => by
    obtain ⟨v, hv⟩ := Option.isSome_iff_exists.1 (h n (by simp))
    obtain ⟨R', h1, h2⟩ := run_reapT_assignAll fuel ns d (R.handle n .clobber v true) (fun k hk => h k (by simp [hk]))
    refine ⟨R', ?_, fun k => ?_⟩
    · simp only [assignAll, assignP, reapT, asgS_handle, run, except_bind_ok, hv, Option.getD_some]
      exact h1
    · rw [h2]
      by_cases e1 : k ∈ ns
      · simp [e1]
      · by_cases e2 : k = n
        · subst e2; simp [e1, Reaps.handle, newReap, hv, selectFromPred]
        · simp [e1, e2, Reaps.handle]

theorem run_reapT_assign {V : Type} (fuel : Nat) (name : Option String) (ns : List String) (d : Dict V)
    (h : HasNames d ns) :
    ∃ R, run fuel (reapT asgS (assignModule name ns)) (d, fun _ => none) = .ok ((), R) ∧
      (fun k => (R k).map selectFromPred) = inherit name d := by
  cases name with
  | none =>
    obtain ⟨R, h1, h2⟩ := run_reapT_assignAll fuel ns d (fun _ => none) (fun n hn => (h n).2 hn)
    refine ⟨R, h1, ?_⟩
    funext k
    rw [h2]
    by_cases hk : k ∈ ns
    · simp [hk, inherit]
    · have : d k = none := by simpa using fun e => hk ((h k).1 (Option.isSome_iff_ne_none.2 e))
      simp [hk, this, inherit]
  | some name =>
    simp only [assignModule, assignP, reapT, asgS_handle, run]
    refine ⟨_, rfl, ?_⟩
    funext k
    by_cases hk : k = name <;> simp [hk, Reaps.handle, newReap, inherit, selectFromPred]

theorem run_assign {V : Type} (fuel : Nat) (name : Option String) (ns : List String) :
    ∀ d, run fuel (assignModule name ns : Prog V (Dict V) Unit) d = .ok () := by
  intro d
  cases name with
  | none =>
    simp only [assignModule]
    induction ns with
    | nil => rfl
    | cons n ns ih => simp only [assignAll, assignP, run, except_bind_ok, ih]
  | some n => rfl

/-! ### Planting the variables leaves the assignments -/

theorem varS_forward (n : String) : varS.dispatch assignTag n = .forward := by
  rw [dispatch_forward]; exact ⟨asg_tag_ne, rfl⟩

theorem metaOf_plantT_assign {V : Type} (name : Option String) (ns : List String) (P : Dict V) (m : Meta) :
    metaOf asgS (plantT varS (assignModule name ns) P) m = metaOf asgS (assignModule name ns : Prog V _ _) m := by
  cases name with
  | none =>
    simp only [assignModule]
    induction ns generalizing m with
    | nil => rfl
    | cons n ns ih => simp only [assignAll, assignP, plantT, varS_forward, metaOf, ih]
  | some name => simp only [assignModule, assignP, plantT, varS_forward, metaOf]

theorem plantCheck_plantT_assign {V : Type} (name : Option String) (ns : List String) (P Q : Dict V)
    (st : List String) :
    plantCheck asgS (plantT varS (assignModule name ns) P) Q st =
      plantCheck asgS (assignModule name ns : Prog V _ _) Q st := by
  cases name with
  | none =>
    simp only [assignModule]
    induction ns generalizing st with
    | nil => rfl
    | cons n ns ih => simp only [assignAll, assignP, plantT, varS_forward, plantCheck, ih]
  | some name => simp only [assignModule, assignP, plantT, varS_forward, plantCheck]

theorem run_reapT_plantT_assign {V : Type} (fuel : Nat) (name : Option String) (ns : List String) (P0 P d : Dict V)
    (R : Reaps V) :
    run fuel (reapT asgS (plantT varS (assignModule name ns) P0)) ((d, P), R) =
      (run fuel (reapT asgS (assignModule name ns)) (d, R)).map (fun r => ((r.1, P), r.2)) := by
  cases name with
  | none =>
    simp only [assignModule]
    induction ns generalizing R with
    | nil => rfl
    | cons n ns ih => simp only [assignAll, assignP, plantT, varS_forward, reapT, asgS_handle, run, except_bind_ok, ih]
  | some name => simp [assignModule, assignP, plantT, varS_forward, reapT, asgS_handle, run]

/-! ### The inner module as a program -/

section
variable {V K X Y : Type} {r : Prog V (K × X) (Dict V)} {ns : List String} {m : FModule V X Y}

theorem metaOf_nested (hrv : Foreign varS r) (hjv : Foreign varS m.jaxpr) (hnd : ns.Nodup) :
    ∃ me, metaOf reapS (nestedBody r ns m) [] = .ok me := by
  obtain ⟨me, h⟩ := metaOf_retag (V := V) m.name ns hnd
  refine ⟨me, ?_⟩
  have h1 : ∀ me, metaOf reapS r me = .ok me := metaOf_foreign (S := reapS) r hrv
  have h2 : ∀ me, metaOf reapS m.jaxpr me = .ok me := metaOf_foreign (S := reapS) m.jaxpr hjv
  have h3 : ∀ me, metaOf reapS (assignModule m.name ns : Prog V _ _) me = .ok me :=
    metaOf_foreign (S := reapS) _ (foreign_assign m.name ns)
  simp only [nestedBody, metaOf, h1, h2, h3, h, except_bind_ok]

theorem run_reap_nested (hrv : Foreign varS r) (hjv : Foreign varS m.jaxpr) (hne : m.name = none ∨ ns ≠ [])
    (fuel : Nat) (k : K) (x : X) (d : Dict V) (y : Y) (as : Dict V) (hd : HasNames d ns)
    (hr : run fuel r (k, x) = .ok d) (hj : run fuel m.jaxpr (d, x) = .ok (y, as)) :
    ∃ R, run fuel (reapT reapS (nestedBody r ns m)) ((k, x), fun _ => none) = .ok (y, R) ∧
      (fun k => (R k).map selectFromPred) = inherit m.name d := by
  obtain ⟨R, h1, h2⟩ := run_reapT_retag fuel m.name ns d hd hne
  refine ⟨R, ?_, h2⟩
  have e1 := run_reapT_foreign (S := reapS) fuel r hrv
  have e2 := run_reapT_foreign (S := reapS) fuel m.jaxpr hjv
  have e3 := run_reapT_foreign (S := reapS) fuel _ (foreign_assign (V := V) m.name ns)
  have e4 := run_assign (V := V) fuel m.name ns
  simp only [nestedBody, reapT, run, e1, e2, e3, e4, hr, hj, h1, id, except_map_ok, except_bind_ok]

theorem plantCheck_nested (hrv : Foreign varS r) (hjv : Foreign varS m.jaxpr) (hnd : ns.Nodup) (P : Dict V) :
    ∃ st, plantCheck varS (nestedBody r ns m) P [] = .ok st := by
  obtain ⟨st, h⟩ := plantCheck_retag (V := V) m.name ns P hnd
  refine ⟨st, ?_⟩
  have h3 := plantCheck_foreign (S := varS) _ (foreign_assign (V := V) m.name ns)
  simp only [nestedBody, plantCheck, plantCheck_foreign r hrv, plantCheck_foreign m.jaxpr hjv, h3, h, except_bind_ok]

theorem accepted_nested (hra : Foreign asgS r) (hja : Foreign asgS m.jaxpr) (hnd : ns.Nodup) (P : Dict V) :
    (∃ me, metaOf asgS (plantT varS (nestedBody r ns m) P) [] = .ok me) ∧
    plantCheck asgS (plantT varS (nestedBody r ns m) P) (fun _ => none) [] = .ok [] := by
  obtain ⟨me, h⟩ := metaOf_assign (V := V) m.name ns hnd
  have f1 := foreign_plantT_any (S := varS) r hra P
  have f2 := foreign_plantT_any (S := varS) m.jaxpr hja P
  have f3 := foreign_plantT_any (S := varS) _ (foreign_retag (V := V) m.name ns) P
  constructor
  · refine ⟨me, ?_⟩
    simp only [nestedBody, plantT, metaOf, metaOf_foreign _ f1, metaOf_foreign _ f2, metaOf_foreign _ f3,
      metaOf_plantT_assign, h, except_bind_ok]
  · simp only [nestedBody, plantT, plantCheck, plantCheck_foreign _ f1, plantCheck_foreign _ f2,
      plantCheck_foreign _ f3, plantCheck_plantT_assign, plantCheck_assign, except_bind_ok]

theorem run_cau_nested (hrv : Foreign varS r) (hjv : Foreign varS m.jaxpr) (hra : Foreign asgS r)
    (hja : Foreign asgS m.jaxpr) (hne : m.name = none ∨ ns ≠ [])
    (fuel : Nat) (k : K) (x : X) (d P0 vars : Dict V) (hd : HasNames d ns) (h0 : HasNames P0 ns)
    (hv : HasNames vars ns) (hr : run fuel r (k, x) = .ok d) :
    (∀ e, run fuel m.jaxpr (vars, x) = .error e →
      run fuel (reapT asgS (plantT varS (nestedBody r ns m) (inherit m.name P0)))
        (((k, x), inherit m.name vars), fun _ => none) = .error e) ∧
    (∀ y as, run fuel m.jaxpr (vars, x) = .ok (y, as) → HasNames (mergeVars m.assigned vars as) ns →
      ∃ R, run fuel (reapT asgS (plantT varS (nestedBody r ns m) (inherit m.name P0)))
        (((k, x), inherit m.name vars), fun _ => none) = .ok ((y, inherit m.name vars), R) ∧
        (fun k => (R k).map selectFromPred) = inherit m.name (mergeVars m.assigned vars as)) := by
  have f1 := run_reapT_foreign fuel _ (foreign_plantT_any (S := varS) r hra (inherit m.name P0))
  have f2 := run_reapT_foreign fuel _ (foreign_plantT_any (S := varS) m.jaxpr hja (inherit m.name P0))
  have f3 := run_reapT_foreign fuel _ (foreign_plantT_any (S := varS) _ (foreign_retag (V := V) m.name ns)
    (inherit m.name P0))
  have g1 := run_plantT_foreign fuel r hrv
  have g2 := run_plantT_foreign fuel m.jaxpr hjv
  have g3 := run_plantT_retag fuel m.name ns P0 vars d h0 hv hd hne
  constructor
  · intro e he
    simp only [nestedBody, plantT, reapT, run, f1, f2, f3, g1, g2, g3, hr, he, id, except_map_ok, except_bind_ok,
      except_map_error]
    rfl
  · intro y as hj hm
    obtain ⟨R, h1, h2⟩ := run_reapT_assign fuel m.name ns _ hm
    refine ⟨R, ?_, h2⟩
    simp only [nestedBody, plantT, reapT, run, f1, f2, f3, g1, g2, g3, hr, hj, id, except_map_ok, except_bind_ok,
      run_reapT_plantT_assign, h1]

end

end Verif.State
