/-
Lemmas for `StmtProps`: how the program of a stateful function behaves under the harvests of `init`.
-/
import Verif.State.Stmt

namespace Verif.State

open Verif.Harvest

/-- What is used of an inner module. -/
structure Inner.Good {V K X Y : Type} (I : Inner V K X Y) : Prop where
  rv : Foreign varS I.r
  ra : Foreign asgS I.r
  jv : Foreign varS I.m.jaxpr
  ja : Foreign asgS I.m.jaxpr
  nd : I.ns.Nodup
  ne : I.name = none ∨ I.ns ≠ []
  asg : ∀ n ∈ I.m.assigned, n ∈ I.ns
  jk : ∀ fuel a y as, run fuel I.m.jaxpr a = .ok (y, as) → ∀ n ∈ I.m.assigned, (as n).isSome
  rn : ∀ fuel a d, run fuel I.r a = .ok d → HasNames d I.ns

theorem Inner.IsInit.good {V K X Y : Type} {key0 : K} {I : Inner V K X Y} (h : I.IsInit key0) : I.Good := by
  obtain ⟨⟨fuel, k, x, h⟩, hr, ⟨me, hme, hns⟩, hasg, hnp, hne⟩ := h
  obtain ⟨hjv, hja, hjk⟩ := jaxpr_facts h hnp
  have hrn := run_reap_f hme hr
  refine ⟨foreign_reap_exclusive rfl hr, foreign_reap_exclusive rfl hr, hjv, hja, hns ▸ metaOf_nil_keys hme, hne, ?_,
    hjk, fun fuel a d hd => hns ▸ (hrn fuel a).2 d hd⟩
  intro n hn
  have hrd : run fuel I.r (k, x) = .ok I.m.variables := by
    obtain ⟨r2, _, _, _, _, _, h1, h2, -⟩ := functionInit_ok h
    rw [hr] at h1; cases h1; exact h2
  rw [hns]
  exact ((hrn fuel (k, x)).2 _ hrd n).1 (hasg n hn)

theorem Inner.IsLayer.good {V K X Y : Type} {I : Inner V K X Y} (h : I.IsLayer) : I.Good := by
  obtain ⟨S, T, name, rfl⟩ := h
  have hd : ∀ l : LayerVars V, HasNames l.dict ["params", "state"] := by
    intro l n
    simp only [LayerVars.dict, List.mem_cons, List.not_mem_nil, or_false]
    by_cases h1 : n = "params"
    · simp [h1]
    · by_cases h2 : n = "state" <;> simp [h1, h2]
  refine ⟨trivial, trivial, trivial, trivial, by simp [Tmpl.inner], .inr (by simp [Tmpl.inner]), fun n hn => hn, ?_, ?_⟩
  · intro fuel a y as hr n hn
    simp only [Tmpl.inner, run] at hr
    rcases hc : T.callAndUpdate (LayerVars.ofDict a.1) a.2 with e | ⟨y', l⟩ <;> rw [hc] at hr <;>
      simp only [except_map_error, except_map_ok, reduceCtorEq, Except.ok.injEq, Prod.mk.injEq] at hr
    rw [← hr.2]
    exact (hd l n).2 hn
  · intro fuel a d hr
    simp only [Tmpl.inner, run] at hr
    rcases hc : T.build (some a.1) a.2 with e | l <;> rw [hc] at hr <;>
      simp only [except_map_error, except_map_ok, reduceCtorEq, Except.ok.injEq] at hr
    rw [← hr]
    exact hd l

/-- `Made` with the facts of `Good`. -/
def Stmt.MadeG {V K : Type} : {A B : Type} → Stmt V K A B → Prop
  | _, _, .code p => Foreign varS p ∧ Foreign asgS p
  | _, _, .seq p q => p.MadeG ∧ q.MadeG
  | _, _, .init I _ _ => I.Good
  | _, _, .call I _ _ _ => I.Good
  | _, _, _ => True

theorem Stmt.Made.g {V K A B : Type} {key0 : K} {s : Stmt V K A B} (h : s.Made key0) : s.MadeG := by
  induction s with
  | code p => exact h
  | seq p q ihp ihq => exact ⟨ihp h.1, ihq h.2⟩
  | var => trivial
  | assign => trivial
  | init I args cont => exact h.elim Inner.IsInit.good Inner.IsLayer.good
  | call I md arg cont => exact h.elim Inner.IsInit.good Inner.IsLayer.good

/-- The names that are assigned. -/
def Stmt.writes {V K : Type} : {A B : Type} → Stmt V K A B → List String
  | _, _, .seq p q => p.writes ++ q.writes
  | _, _, .assign n _ _ => [n]
  | _, _, .call I _ _ _ => places I.name I.ns
  | _, _, _ => []

theorem over_some {V : Type} (d e : Dict V) (k : String) : (over d e k).isSome ↔ (e k).isSome ∨ (d k).isSome := by
  simp [over, Option.isSome_or]

theorem inherit_places {V : Type} (name : Option String) (ns : List String) (d : Dict V) (h : HasNames d ns)
    (k : String) : (inherit name d k).isSome ↔ k ∈ places name ns := by
  cases name with
  | none => exact h k
  | some n => by_cases hk : k = n <;> simp [inherit, places, hk]

/-! ### Shapes of what the specification returns -/

theorem exec_names {V K A B : Type} (fuel : Nat) (held : Dict V) (s : Stmt V K A B) : ∀ a D W b D' W',
    s.MadeG → s.exec fuel held a (D, W) = .ok (b, D', W') →
    (∀ k, (D' k).isSome ↔ k ∈ s.declared ∨ (D k).isSome) ∧ (∀ k, (W' k).isSome ↔ k ∈ s.writes ∨ (W k).isSome) := by
  induction s with
  | code p =>
    intro a D W b D' W' _ h
    simp only [Stmt.exec] at h
    rcases hr : run fuel p a with e | b1 <;> rw [hr] at h <;> simp at h
    obtain ⟨-, rfl, rfl⟩ := h
    simp [Stmt.declared, Stmt.writes]
  | seq p q ihp ihq =>
    intro a D W b D' W' hm h
    simp only [Stmt.exec] at h
    rcases hr : p.exec fuel held a (D, W) with e | ⟨b1, D1, W1⟩ <;> rw [hr] at h
    · simp at h
    obtain ⟨x1, x2⟩ := ihp a D W b1 D1 W1 hm.1 hr
    obtain ⟨y1, y2⟩ := ihq b1 D1 W1 b D' W' hm.2 h
    simp only [Stmt.declared, Stmt.writes, List.mem_append]
    constructor
    · intro k; rw [y1, x1, or_left_comm, or_assoc]
    · intro k; rw [y2, x2, or_left_comm, or_assoc]
  | var n value cont =>
    intro a D W b D' W' _ h
    simp only [Stmt.exec, Except.ok.injEq, Prod.mk.injEq] at h
    obtain ⟨-, rfl, rfl⟩ := h
    refine ⟨fun k => ?_, fun k => by simp [Stmt.writes]⟩
    rw [over_some]
    by_cases hk : k = n <;> simp [Stmt.declared, hk]
  | assign n value cont =>
    intro a D W b D' W' _ h
    simp only [Stmt.exec, Except.ok.injEq, Prod.mk.injEq] at h
    obtain ⟨-, rfl, rfl⟩ := h
    refine ⟨fun k => by simp [Stmt.declared], fun k => ?_⟩
    rw [over_some]
    by_cases hk : k = n <;> simp [Stmt.writes, hk]
  | init I args cont =>
    intro a D W b D' W' hm h
    simp only [Stmt.exec] at h
    rcases hr : run fuel I.r (args a) with e | d <;> rw [hr] at h <;> simp at h
    obtain ⟨-, rfl, rfl⟩ := h
    refine ⟨fun k => ?_, fun k => by simp [Stmt.writes]⟩
    rw [over_some, inherit_places I.name I.ns _ (Vars.of I.ns _).2]
    simp [Stmt.declared]
  | call I md arg cont =>
    intro a D W b D' W' hm h
    simp only [Stmt.exec] at h
    rcases hr : (I.m.replace (md a).1).callAndUpdate fuel (arg a) with e | ⟨y, v⟩ <;> rw [hr] at h <;> simp at h
    obtain ⟨-, rfl, rfl⟩ := h
    refine ⟨fun k => by simp [Stmt.declared], fun k => ?_⟩
    have hv : HasNames v I.ns := by
      simp only [FModule.callAndUpdate, FModule.replace] at hr
      rcases hj : run fuel I.m.jaxpr ((md a).1, arg a) with e | ⟨y2, as⟩ <;> rw [hj] at hr
      · simp at hr
      rcases hf : I.m.assigned.find? (fun n => ((md a).1 n).isNone) with _ | z <;> simp only [hf] at hr
      · simp only [Except.ok.injEq, Prod.mk.injEq] at hr
        intro n
        rw [← hr.2]
        simp only [List.contains_iff_mem]
        by_cases hn : n ∈ I.m.assigned
        · rw [if_pos hn]
          exact ⟨fun _ => hm.asg n hn, fun _ => hm.jk fuel _ _ _ hj n hn⟩
        · rw [if_neg hn]; exact (md a).2 n
      · simp at hr
    rw [over_some, inherit_places I.name I.ns _ hv]
    simp [Stmt.writes]

/-! ### Initialisation -/

theorem metaOf_retag_any {V : Type} (name : Option String) (ns : List String) (hnd : ns.Nodup)
    (hne : name = none ∨ ns ≠ []) (m : Meta) (hm : ∀ n ∈ places name ns, m.get n = none) :
    ∃ m', metaOf reapS (retag name ns : Prog V (Dict V) (Dict V)) m = .ok m' ∧
      ∀ k, (m'.get k).isSome ↔ k ∈ places name ns ∨ (m.get k).isSome := by
  cases name with
  | none =>
    simp only [retag, places] at hm ⊢
    clear hne
    induction ns generalizing m with
    | nil => exact ⟨m, rfl, by simp⟩
    | cons n ns ih =>
      rw [List.nodup_cons] at hnd
      obtain ⟨m', h1, h2⟩ := ih hnd.2 (m.set n .strict) (by
        intro k hk
        rw [Meta.get_set]
        have : k ≠ n := by rintro rfl; exact hnd.1 hk
        simp [this, hm k (by simp [hk])])
      refine ⟨m', ?_, fun k => ?_⟩
      · simp only [retagAll, variableP, metaOf, reapS_handle, Meta.handle, hm n (by simp), reduceCtorEq, if_false,
          except_bind_ok]
        exact h1
      · rw [h2, Meta.get_set, List.mem_cons]
        by_cases hk : k = n <;> simp [hk]
  | some name =>
    have hns : ns.isEmpty = false := by rcases hne with h | h <;> simp_all
    simp only [retag, retagModule, hns, Bool.false_eq_true, if_false, variableP, metaOf, reapS_handle, Meta.handle,
      hm name (by simp [places]), reduceCtorEq]
    refine ⟨_, rfl, fun k => ?_⟩
    rw [Meta.get_set]
    by_cases hk : k = name <;> simp [hk, places]

theorem metaOf_stmt {V K A B : Type} (s : Stmt V K A B) : ∀ m : Meta, s.MadeG → s.declared.Nodup →
    (∀ n ∈ s.declared, m.get n = none) → ∃ m', metaOf reapS s.prog m = .ok m' ∧
      ∀ k, (m'.get k).isSome ↔ k ∈ s.declared ∨ (m.get k).isSome := by
  induction s with
  | code p =>
    intro m hg _ _
    exact ⟨m, metaOf_foreign (S := reapS) p hg.1 m, by simp [Stmt.declared]⟩
  | seq p q ihp ihq =>
    intro m hg hnd hm
    simp only [Stmt.declared, List.nodup_append, List.mem_append] at hnd hm ⊢
    obtain ⟨m1, h1, h2⟩ := ihp m hg.1 hnd.1 (fun n hn => hm n (.inl hn))
    obtain ⟨m2, h3, h4⟩ := ihq m1 hg.2 hnd.2.1 (by
      intro n hn
      have : ¬ (m1.get n).isSome := by
        rw [h2]
        rintro (h | h)
        · exact hnd.2.2 n h n hn rfl
        · rw [hm n (.inr hn)] at h; simp at h
      simpa using this)
    refine ⟨m2, by simp only [Stmt.prog, metaOf, h1, except_bind_ok, h3], fun k => ?_⟩
    rw [h4, h2, or_left_comm, or_assoc]
  | var n value cont =>
    intro m _ _ hm
    simp only [Stmt.prog, variableP, metaOf, reapS_handle, Meta.handle, hm n (by simp [Stmt.declared]), reduceCtorEq,
      if_false]
    refine ⟨_, rfl, fun k => ?_⟩
    rw [Meta.get_set]
    by_cases hk : k = n <;> simp [hk, Stmt.declared]
  | assign n value cont =>
    intro m _ _ _
    refine ⟨m, metaOf_foreign (S := reapS) (assignP n .clobber value cont) ⟨asg_tag_ne, by simp⟩ m, by simp [Stmt.declared]⟩
  | init I args cont =>
    intro m hg hnd hm
    obtain ⟨m', h1, h2⟩ := metaOf_retag_any (V := V) I.name I.ns hg.nd hg.ne m hm
    refine ⟨m', ?_, h2⟩
    simp only [Stmt.prog, metaOf, metaOf_foreign (S := reapS) I.r hg.rv, except_bind_ok, h1]
  | call I md arg cont =>
    intro m hg _ _
    refine ⟨m, ?_, by simp [Stmt.declared]⟩
    have h2 : ∀ me, metaOf reapS I.m.jaxpr me = .ok me := metaOf_foreign (S := reapS) I.m.jaxpr hg.jv
    have h3 : ∀ me, metaOf reapS (assignModule I.name I.ns : Prog V _ _) me = .ok me :=
      metaOf_foreign (S := reapS) _ (foreign_assign I.name I.ns)
    simp only [Stmt.prog, metaOf, h2, h3, except_bind_ok]

theorem plantCheck_retag_any {V : Type} (name : Option String) (ns : List String) (P : Dict V) (hnd : ns.Nodup)
    (st : List String) (hst : ∀ n ∈ places name ns, n ∉ st) :
    ∃ st', plantCheck varS (retag name ns : Prog V (Dict V) (Dict V)) P st = .ok st' ∧
      ∀ k ∈ st', k ∈ places name ns ∨ k ∈ st := by
  cases name with
  | none =>
    simp only [retag, places] at hst ⊢
    induction ns generalizing st with
    | nil => exact ⟨st, rfl, by simp⟩
    | cons n ns ih =>
      rw [List.nodup_cons] at hnd
      have hc : n ∉ st := hst n (by simp)
      simp only [retagAll, variableP, plantCheck, varS_handle, reduceCtorEq, if_false, List.contains_iff_mem, hc]
      split
      · obtain ⟨st', h1, h2⟩ := ih hnd.2 (n :: st) (by
          intro k hk
          have : k ≠ n := by rintro rfl; exact hnd.1 hk
          simp [this, hst k (by simp [hk])])
        refine ⟨st', by simp only [except_bind_ok, h1], fun k hk => ?_⟩
        rcases h2 k hk with h | h
        · simp [h]
        · rcases List.mem_cons.1 h with rfl | h <;> simp [*]
      · obtain ⟨st', h1, h2⟩ := ih hnd.2 st (fun k hk => hst k (by simp [hk]))
        refine ⟨st', by simp only [except_bind_ok, h1], fun k hk => ?_⟩
        rcases h2 k hk with h | h <;> simp [h]
  | some name =>
    simp only [retag, retagModule]
    split
    · exact ⟨st, rfl, fun k hk => .inr hk⟩
    · have hc : name ∉ st := hst name (by simp [places])
      simp only [variableP, plantCheck, varS_handle, reduceCtorEq, if_false, List.contains_iff_mem, hc]
      split
      · exact ⟨_, rfl, fun k hk => by simpa [places] using hk⟩
      · exact ⟨_, rfl, fun k hk => .inr hk⟩

theorem plantCheck_stmt {V K A B : Type} (P : Dict V) (s : Stmt V K A B) : ∀ st : List String, s.MadeG →
    s.declared.Nodup → (∀ n ∈ s.declared, n ∉ st) → ∃ st', plantCheck varS s.prog P st = .ok st' ∧
      ∀ k ∈ st', k ∈ s.declared ∨ k ∈ st := by
  induction s with
  | code p =>
    intro st hg _ _
    exact ⟨st, plantCheck_foreign p hg.1 P st, fun k h => .inr h⟩
  | seq p q ihp ihq =>
    intro st hg hnd hm
    simp only [Stmt.declared, List.nodup_append, List.mem_append] at hnd hm ⊢
    obtain ⟨s1, h1, h2⟩ := ihp st hg.1 hnd.1 (fun n hn => hm n (.inl hn))
    obtain ⟨s2, h3, h4⟩ := ihq s1 hg.2 hnd.2.1 (by
      intro n hn hc
      rcases h2 n hc with h | h
      · exact hnd.2.2 n h n hn rfl
      · exact hm n (.inr hn) h)
    refine ⟨s2, by simp only [Stmt.prog, plantCheck, h1, except_bind_ok, h3], fun k hk => ?_⟩
    rcases h4 k hk with h | h
    · simp [h]
    · rcases h2 k h with h | h <;> simp [h]
  | var n value cont =>
    intro st _ _ hm
    have hc : n ∉ st := hm n (by simp [Stmt.declared])
    simp only [Stmt.prog, variableP, plantCheck, varS_handle, reduceCtorEq, if_false, List.contains_iff_mem, hc]
    split
    · exact ⟨_, rfl, fun k hk => by simpa [Stmt.declared] using hk⟩
    · exact ⟨_, rfl, fun k hk => .inr hk⟩
  | assign n value cont =>
    intro st _ _ _
    exact ⟨st, plantCheck_foreign (S := varS) (assignP n .clobber value cont) ⟨asg_tag_ne, by simp⟩ P st, fun k h => .inr h⟩
  | init I args cont =>
    intro st hg hnd hm
    obtain ⟨m', h1, h2⟩ := plantCheck_retag_any I.name I.ns P hg.nd st hm
    refine ⟨m', ?_, h2⟩
    simp only [Stmt.prog, plantCheck, plantCheck_foreign I.r hg.rv, except_bind_ok, h1]
  | call I md arg cont =>
    intro st hg _ _
    refine ⟨st, ?_, fun k h => .inr h⟩
    have h3 := plantCheck_foreign (S := varS) _ (foreign_assign (V := V) I.name I.ns)
    simp only [Stmt.prog, plantCheck, plantCheck_foreign I.m.jaxpr hg.jv, h3, except_bind_ok]

/-- All assignments are in mode 'clobber', so they never clash. -/
theorem metaOf_assign_any {V : Type} (name : Option String) (ns : List String) (m : Meta)
    (hm : ∀ k md, m.get k = some md → md = .clobber) :
    ∃ m', metaOf asgS (assignModule name ns : Prog V (Dict V) Unit) m = .ok m' ∧
      ∀ k md, m'.get k = some md → md = .clobber := by
  have step : ∀ (m : Meta) (n : String), (∀ k md, m.get k = some md → md = .clobber) →
      m.handle n .clobber = .ok (m.set n .clobber) ∧
      ∀ k md, (m.set n .clobber).get k = some md → md = .clobber := by
    intro m n hm
    constructor
    · rcases hg : m.get n with _ | md
      · simp only [Meta.handle, hg]
      · have := hm n md hg
        subst this
        simp only [Meta.handle, hg]
        rfl
    · intro k md h
      rw [Meta.get_set] at h
      by_cases hk : k = n
      · simp only [hk, if_true, Option.some.injEq] at h; exact h.symm
      · simp only [hk, if_false] at h; exact hm k md h
  cases name with
  | none =>
    simp only [assignModule]
    induction ns generalizing m with
    | nil => exact ⟨m, rfl, hm⟩
    | cons n ns ih =>
      obtain ⟨h1, h2⟩ := step m n hm
      obtain ⟨m', h3, h4⟩ := ih _ h2
      exact ⟨m', by simp only [assignAll, assignP, metaOf, asgS_handle, reduceCtorEq, if_false, h1, except_bind_ok, h3], h4⟩
  | some n =>
    obtain ⟨h1, h2⟩ := step m n hm
    exact ⟨_, by simp only [assignModule, assignP, metaOf, asgS_handle, reduceCtorEq, if_false, h1], h2⟩

theorem accepted_stmt {V K A B : Type} (P : Dict V) (s : Stmt V K A B) : s.MadeG →
    (∀ m : Meta, (∀ k md, m.get k = some md → md = .clobber) →
      ∃ m', metaOf asgS (plantT varS s.prog P) m = .ok m' ∧ ∀ k md, m'.get k = some md → md = .clobber) ∧
    plantCheck asgS (plantT varS s.prog P) (fun _ => none) [] = .ok [] := by
  induction s with
  | code p =>
    intro hg
    have f := foreign_plantT_any (S := varS) p hg.2 P
    exact ⟨fun m hm => ⟨m, metaOf_foreign _ f m, hm⟩, plantCheck_foreign _ f _ _⟩
  | seq p q ihp ihq =>
    intro hg
    obtain ⟨a1, a2⟩ := ihp hg.1
    obtain ⟨b1, b2⟩ := ihq hg.2
    refine ⟨fun m hm => ?_, by simp only [Stmt.prog, plantT, plantCheck, a2, b2, except_bind_ok]⟩
    obtain ⟨m1, h1, h2⟩ := a1 m hm
    obtain ⟨m2, h3, h4⟩ := b1 m1 h2
    exact ⟨m2, by simp only [Stmt.prog, plantT, metaOf, h1, h3, except_bind_ok], h4⟩
  | var n value cont =>
    intro _
    have f := foreign_plantT_any (S := varS) (S' := asgS) (variableP n .strict value cont)
      ⟨Ne.symm asg_tag_ne, by simp⟩ P
    exact ⟨fun m hm => ⟨m, metaOf_foreign _ f m, hm⟩, plantCheck_foreign _ f _ _⟩
  | assign n value cont =>
    intro _
    refine ⟨fun m hm => ?_, ?_⟩
    · obtain ⟨m', h1, h2⟩ := metaOf_assign_any (V := V) (some n) [] m hm
      refine ⟨m', ?_, h2⟩
      rw [← h1]
      simp only [Stmt.prog, assignModule, assignP, plantT, varS_forward, metaOf]
    · simp [Stmt.prog, assignP, plantT, varS_forward, plantCheck, asgS_handle]
  | init I args cont =>
    intro hg
    have f := foreign_plantT_any (S := varS) (S' := asgS) (Stmt.init I args cont).prog
      (show Foreign asgS (Stmt.init I args cont).prog from ⟨hg.ra, foreign_retag I.name I.ns⟩) P
    exact ⟨fun m hm => ⟨m, metaOf_foreign _ f m, hm⟩, plantCheck_foreign _ f _ _⟩
  | call I md arg cont =>
    intro hg
    have f := foreign_plantT_any (S := varS) I.m.jaxpr hg.ja P
    refine ⟨fun m hm => ?_, ?_⟩
    · obtain ⟨m', h1, h2⟩ := metaOf_assign_any (V := V) I.name I.ns m hm
      refine ⟨m', ?_, h2⟩
      simp only [Stmt.prog, plantT, metaOf, metaOf_foreign _ f, metaOf_plantT_assign, h1, except_bind_ok]
    · simp only [Stmt.prog, plantT, plantCheck, plantCheck_foreign _ f, plantCheck_plantT_assign, plantCheck_assign,
        except_bind_ok]

end Verif.State
