/-
Lemmas for `StmtProps`: the harvested runs of a stateful function compute what the specification `Stmt.exec` says.
-/
import Verif.State.StmtLemmas

namespace Verif.State

open Verif.Harvest

/-- The reaps hold the values of `D`. -/
def Shows {V : Type} (R : Reaps V) (D : Dict V) : Prop := ∀ k, (R k).map selectFromPred = D k

theorem Shows.handle {V : Type} {R : Reaps V} {D : Dict V} (h : Shows R D) (n : String) (mode : Mode)
    (hm : mode ≠ .condClobber) (v : Val V) (p : Bool) :
    Shows (R.handle n mode v p) (over D (fun k => if k = n then some v else none)) := by
  intro k
  by_cases hk : k = n
  · simp [Reaps.handle, hk, newReap, hm, selectFromPred, over]
  · simp [Reaps.handle, hk, over, h k]

theorem Vars.of_self {V : Type} {ns : List String} (d : Dict V) (h : HasNames d ns) : (Vars.of ns d).1 = d := by
  funext k
  by_cases hk : k ∈ ns
  · obtain ⟨v, hv⟩ := Option.isSome_iff_exists.1 ((h k).2 hk)
    simp [Vars.of, hk, hv]
  · have : d k = none := by simpa using fun e => hk ((h k).1 (Option.isSome_iff_ne_none.2 e))
    simp [Vars.of, hk, this]

theorem Vars.of_congr {V : Type} {ns : List String} {d e : Dict V} (h : ∀ k ∈ ns, d k = e k) :
    Vars.of ns d = Vars.of ns e := by
  apply Subtype.ext
  funext k
  by_cases hk : k ∈ ns
  · simp [Vars.of, hk, h k hk]
  · simp [Vars.of, hk]

theorem slice_nothing {V : Type} (name : Option String) (ns : List String) (d : Dict V) (h : HasNames d ns) :
    (Vars.of ns ((slice name ns (fun _ => none)).getD d)).1 = d := by
  cases name with
  | none =>
    cases ns with
    | nil =>
      have hd : d = fun _ => none := by funext k; simpa using (h k).not.2 (by simp)
      rw [hd]
      funext k
      simp [Vars.of]
    | cons n ns =>
      have : slice none (n :: ns) (fun _ => none : Dict V) = none := by simp [slice]
      rw [this]
      exact Vars.of_self d h
  | some n => exact Vars.of_self d h

/-- The run that collects the variables. -/
theorem run_reap_stmt {V K A B : Type} (fuel : Nat) (s : Stmt V K A B) : ∀ a D W b D' W' (R : Reaps V), s.MadeG →
    s.exec fuel (fun _ => none) a (D, W) = .ok (b, D', W') → Shows R D →
    ∃ R', run fuel (reapT reapS s.prog) (a, R) = .ok (b, R') ∧ Shows R' D' := by
  induction s with
  | code p =>
    intro a D W b D' W' R hg h hR
    simp only [Stmt.exec] at h
    rcases hr : run fuel p a with e | b1 <;> rw [hr] at h <;> simp at h
    obtain ⟨rfl, rfl, rfl⟩ := h
    exact ⟨R, by simp only [Stmt.prog, run_reapT_foreign (S := reapS) fuel p hg.1, hr, except_map_ok], hR⟩
  | seq p q ihp ihq =>
    intro a D W b D' W' R hg h hR
    simp only [Stmt.exec] at h
    rcases hr : p.exec fuel (fun _ => none) a (D, W) with e | ⟨b1, D1, W1⟩ <;> rw [hr] at h
    · simp at h
    obtain ⟨R1, h1, h2⟩ := ihp a D W b1 D1 W1 R hg.1 hr hR
    obtain ⟨R2, h3, h4⟩ := ihq b1 D1 W1 b D' W' R1 hg.2 h h2
    exact ⟨R2, by simp only [Stmt.prog, reapT, run, h1, except_bind_ok, h3], h4⟩
  | var n value cont =>
    intro a D W b D' W' R _ h hR
    simp only [Stmt.exec, Except.ok.injEq, Prod.mk.injEq, Option.getD_none] at h
    obtain ⟨rfl, rfl, rfl⟩ := h
    simp only [Stmt.prog, variableP, reapT, reapS_handle, run]
    exact ⟨_, rfl, hR.handle n .strict (by simp) (value a) true⟩
  | assign n value cont =>
    intro a D W b D' W' R _ h hR
    simp only [Stmt.exec, Except.ok.injEq, Prod.mk.injEq] at h
    obtain ⟨rfl, rfl, rfl⟩ := h
    have e := run_reapT_foreign (S := reapS) fuel (assignP n .clobber value cont) ⟨asg_tag_ne, by simp⟩ R a
    exact ⟨R, by simp only [Stmt.prog, e]; rfl, hR⟩
  | init I args cont =>
    intro a D W b D' W' R hg h hR
    simp only [Stmt.exec] at h
    rcases hr : run fuel I.r (args a) with e | d <;> rw [hr] at h <;> simp only [Except.ok.injEq, Prod.mk.injEq, reduceCtorEq] at h
    obtain ⟨rfl, rfl, rfl⟩ := h
    have hd := hg.rn fuel _ d hr
    have hs := slice_nothing I.name I.ns d hd
    have hs' : Vars.of I.ns ((slice I.name I.ns (fun _ => none)).getD d) = Vars.of I.ns d :=
      Subtype.ext (hs.trans (Vars.of_self d hd).symm)
    rw [hs, hs']
    have e1 := run_reapT_foreign (S := reapS) fuel I.r hg.rv
    simp only [Stmt.prog, reapT, run, e1, hr, except_map_ok, except_bind_ok]
    rcases hn : I.name with _ | nm
    · simp only [retag, run_reapT_retagAll fuel I.ns d R (fun n hn => (hd n).2 hn), except_map_ok]
      refine ⟨_, rfl, fun k => ?_⟩
      by_cases hk : k ∈ I.ns
      · cases hdk : d k with
        | none => have := (hd k).2 hk; simp [hdk] at this
        | some v => simp [hk, over, inherit, hdk, selectFromPred]
      · have : d k = none := by simpa using fun e => hk ((hd k).1 (Option.isSome_iff_ne_none.2 e))
        simp [hk, over, inherit, this, hR k]
    · have hns : I.ns.isEmpty = false := by rcases hg.ne with h | h <;> simp_all
      simp only [retag, retagModule, hns, Bool.false_eq_true, if_false, variableP, reapT, reapS_handle, run, asVars,
        except_map_ok]
      exact ⟨_, rfl, hR.handle nm .strict (by simp) (.dict d) true⟩
  | call I md arg cont =>
    intro a D W b D' W' R hg h hR
    simp only [Stmt.exec] at h
    rcases hc : (I.m.replace (md a).1).callAndUpdate fuel (arg a) with e | ⟨y, v⟩ <;> rw [hc] at h <;> simp at h
    obtain ⟨rfl, rfl, rfl⟩ := h
    refine ⟨R, ?_, hR⟩
    have e2 := run_reapT_foreign (S := reapS) fuel I.m.jaxpr hg.jv
    have e3 := run_reapT_foreign (S := reapS) fuel _ (foreign_assign (V := V) I.name I.ns)
    have e4 := run_assign (V := V) fuel I.name I.ns
    simp only [FModule.callAndUpdate, FModule.replace] at hc
    rcases hj : run fuel I.m.jaxpr ((md a).1, arg a) with e | ⟨y2, as⟩ <;> rw [hj] at hc
    · simp at hc
    rcases hf : I.m.assigned.find? (fun n => ((md a).1 n).isNone) with _ | z <;> simp only [hf] at hc
    · simp only [Except.ok.injEq, Prod.mk.injEq] at hc
      simp only [Stmt.prog, reapT, run, e2, e3, e4, hj, id, except_map_ok, except_bind_ok, hc.1]
    · simp at hc

/-- The run of `call_and_update`: the variables are planted, the assignments are collected. -/
theorem run_cau_stmt {V K A B : Type} (fuel : Nat) (held P0 : Dict V) (s : Stmt V K A B) : ∀ a D W (R : Reaps V),
    s.MadeG → (∀ n ∈ s.declared, (held n).isSome) → (∀ n ∈ s.declared, (P0 n).isSome) →
    (∀ m ∈ s.modules, ∃ d, slice m.1 m.2 held = some d) → Shows R W →
    (∀ e, s.exec fuel held a (D, W) = .error e →
      ∃ e', e = .running e' ∧ run fuel (reapT asgS (plantT varS s.prog P0)) ((a, held), R) = .error e') ∧
    (∀ b D' W', s.exec fuel held a (D, W) = .ok (b, D', W') →
      ∃ R', run fuel (reapT asgS (plantT varS s.prog P0)) ((a, held), R) = .ok ((b, held), R') ∧ Shows R' W') := by
  induction s with
  | code p =>
    intro a D W R hg _ _ _ hR
    have f := run_reapT_foreign fuel _ (foreign_plantT_any (S := varS) p hg.2 P0)
    simp only [Stmt.exec, Stmt.prog, f, run_plantT_foreign fuel p hg.1]
    rcases hr : run fuel p a with e | b1
    · simp only [Except.error.injEq, except_map_error, reduceCtorEq, false_implies, implies_true, and_true]
      rintro _ rfl
      exact ⟨e, rfl, rfl⟩
    · simp only [Except.ok.injEq, Prod.mk.injEq, except_map_ok, reduceCtorEq, false_implies, implies_true, true_and]
      rintro b D' W' ⟨rfl, rfl, rfl⟩
      exact ⟨R, ⟨⟨rfl, trivial⟩, rfl⟩, hR⟩
  | seq p q ihp ihq =>
    intro a D W R hg hh hP hs hR
    simp only [Stmt.declared, Stmt.modules, List.mem_append] at hh hP hs
    obtain ⟨a1, a2⟩ := ihp a D W R hg.1 (fun n h => hh n (.inl h)) (fun n h => hP n (.inl h))
      (fun m h => hs m (.inl h)) hR
    simp only [Stmt.exec, Stmt.prog, plantT, reapT, run]
    rcases hr : p.exec fuel held a (D, W) with e | ⟨b1, D1, W1⟩
    · obtain ⟨e', rfl, h1⟩ := a1 e hr
      rw [h1]
      refine ⟨fun e h => ⟨e', by simpa using h.symm, rfl⟩, fun b D' W' h => by simp at h⟩
    · obtain ⟨R1, h1, h2⟩ := a2 b1 D1 W1 hr
      obtain ⟨b1', b2'⟩ := ihq b1 D1 W1 R1 hg.2 (fun n h => hh n (.inr h)) (fun n h => hP n (.inr h))
        (fun m h => hs m (.inr h)) h2
      rw [h1]
      exact ⟨b1', b2'⟩
  | var n value cont =>
    intro a D W R _ hh hP _ hR
    obtain ⟨v, hv⟩ := Option.isSome_iff_exists.1 (hh n (by simp [Stmt.declared]))
    simp only [Stmt.exec, Stmt.prog, variableP, plantT, varS_handle, hP n (by simp [Stmt.declared]), if_true, reapT, run,
      hv, except_map_ok, Option.getD_some, Except.ok.injEq, Prod.mk.injEq, reduceCtorEq, false_implies, implies_true,
      true_and]
    rintro b D' W' ⟨rfl, rfl, rfl⟩
    exact ⟨R, ⟨⟨rfl, trivial⟩, rfl⟩, hR⟩
  | assign n value cont =>
    intro a D W R _ _ _ _ hR
    simp only [Stmt.exec, Stmt.prog, assignP, plantT, varS_forward, reapT, asgS_handle, run, Except.ok.injEq,
      Prod.mk.injEq, reduceCtorEq, false_implies, implies_true, true_and]
    rintro b D' W' ⟨rfl, rfl, rfl⟩
    exact ⟨_, ⟨⟨rfl, trivial⟩, rfl⟩, hR.handle n .clobber (by simp) (value a) true⟩
  | init I args cont =>
    intro a D W R hg hh hP hs hR
    have f1 := run_reapT_foreign fuel _ (foreign_plantT_any (S := varS) I.r hg.ra P0)
    have f3 := run_reapT_foreign fuel _ (foreign_plantT_any (S := varS) _ (foreign_retag (V := V) I.name I.ns) P0)
    have g1 := run_plantT_foreign fuel I.r hg.rv
    simp only [Stmt.exec, Stmt.prog, plantT, reapT, run, f1, f3, g1]
    rcases hr : run fuel I.r (args a) with e | d
    · simp only [Except.error.injEq, except_map_error, reduceCtorEq, false_implies, implies_true, and_true]
      rintro _ rfl
      exact ⟨e, rfl, rfl⟩
    · obtain ⟨vars, hvars⟩ := hs (I.name, I.ns) (by simp [Stmt.modules])
      simp only [except_map_ok, except_bind_ok, Except.ok.injEq, Prod.mk.injEq, reduceCtorEq, false_implies,
        implies_true, true_and]
      rintro b D' W' ⟨rfl, rfl, rfl⟩
      simp only at hvars
      simp only [hvars, Option.getD_some]
      have key : ∃ d', run fuel (plantT varS (retag I.name I.ns) P0) (d, held) = .ok (d', held) ∧
          Vars.of I.ns d' = Vars.of I.ns vars := by
        rcases hn : I.name with _ | nm <;> rw [hn] at hvars
        · simp only [Stmt.declared, places, hn] at hh hP
          simp only [retag]
          refine ⟨_, run_plantT_retagAll fuel I.ns P0 held d hP hh, ?_⟩
          have : vars = held := by
            simp only [slice] at hvars
            split at hvars
            · exact (by simpa using hvars.symm)
            · simp at hvars
          rw [this]
          exact Vars.of_congr fun k hk => by simp [hk]
        · have hns : I.ns.isEmpty = false := by rcases hg.ne with h | h <;> simp_all
          have hPn : (P0 nm).isSome := hP nm (by simp [Stmt.declared, places, hn])
          have hd : held nm = some (.dict vars) := by
            simp only [slice] at hvars
            split at hvars
            · rename_i h; rw [h]; simpa using hvars
            · simp at hvars
          refine ⟨vars, ?_, rfl⟩
          simp [retag, retagModule, hns, variableP, plantT, varS_handle, run, asVars, hPn, hd]
      obtain ⟨d', k1, k2⟩ := key
      exact ⟨R, by simp only [k1, except_map_ok, k2], hR⟩
  | call I md arg cont =>
    intro a D W R hg _ _ _ hR
    have f2 := run_reapT_foreign fuel _ (foreign_plantT_any (S := varS) I.m.jaxpr hg.ja P0)
    have g2 := run_plantT_foreign fuel I.m.jaxpr hg.jv
    simp only [Stmt.exec, Stmt.prog, plantT, reapT, run, f2, g2, id]
    have hfind : I.m.assigned.find? (fun n => ((md a).1 n).isNone) = none := by
      rw [List.find?_eq_none]
      intro n hn
      have := ((md a).2 n).2 (hg.asg n hn)
      rw [Option.isSome_iff_ne_none] at this
      simpa using this
    simp only [FModule.callAndUpdate, FModule.replace, hfind]
    rcases hj : run fuel I.m.jaxpr ((md a).1, arg a) with e | ⟨y2, as⟩
    · simp only [Except.error.injEq, except_map_error, reduceCtorEq, false_implies, implies_true, and_true]
      rintro _ rfl
      exact ⟨e, rfl, rfl⟩
    · simp only [Except.ok.injEq, Prod.mk.injEq, reduceCtorEq, false_implies, implies_true, true_and]
      rintro b D' W' ⟨rfl, rfl, rfl⟩
      have hmerge : HasNames (mergeVars I.m.assigned (md a).1 as) I.ns := by
        intro n
        simp only [mergeVars, List.contains_iff_mem]
        by_cases hn : n ∈ I.m.assigned
        · rw [if_pos hn]
          exact ⟨fun _ => hg.asg n hn, fun _ => hg.jk fuel _ _ _ hj n hn⟩
        · rw [if_neg hn]; exact (md a).2 n
      simp only [except_map_ok, except_bind_ok, run_reapT_plantT_assign]
      change ∃ R', _ ∧ Shows R' (over W (inherit I.name (mergeVars I.m.assigned (md a).1 as)))
      generalize mergeVars I.m.assigned (md a).1 as = d at hmerge ⊢
      rcases hn : I.name with _ | nm
      · obtain ⟨R', h1, h2⟩ := run_reapT_assignAll fuel I.ns d R (fun n hn => (hmerge n).2 hn)
        refine ⟨R', by simp only [assignModule, h1, except_map_ok], fun k => ?_⟩
        rw [h2]
        by_cases hk : k ∈ I.ns
        · have := (hmerge k).2 hk
          obtain ⟨v, hv⟩ := Option.isSome_iff_exists.1 this
          simp [hk, over, inherit, hv]
        · have : d k = none := by simpa using fun e => hk ((hmerge k).1 (Option.isSome_iff_ne_none.2 e))
          simp [hk, over, inherit, this, hR k]
      · simp only [assignModule, assignP, reapT, asgS_handle, run, except_map_ok]
        exact ⟨_, rfl, hR.handle nm .clobber (by simp) (.dict d) true⟩

end Verif.State
