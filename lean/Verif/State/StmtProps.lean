/-
C68: a stateful function written with `variable`, `assign` and any number of modules, each called any number of times,
does what it looks like (`Stmt.exec`).
-/
import Verif.State.StmtRun

namespace Verif.State

open Verif.Harvest

theorem declares_assign_any {V : Type} (name : Option String) (ns : List String) (n : String) :
    (declares asgS n (sites (assignModule name ns : Prog V (Dict V) Unit))).isSome ↔ n ∈ places name ns := by
  have ha : ∀ n, asgS.active assignTag n = true := fun n => by rw [← dispatch_handle]; exact asgS_handle n
  cases name with
  | none =>
    simp only [assignModule, places]
    induction ns with
    | nil => simp [assignAll, sites, declares]
    | cons k ns ih =>
      simp only [assignAll, assignP, sites, declares_append, Option.isSome_or, declares, Site.declares, ha,
        and_true, Option.or_none, List.mem_cons, Bool.or_eq_true, ih]
      by_cases hk : k = n
      · simp [hk]
      · simp [hk, Ne.symm hk]
  | some name =>
    simp only [assignModule, assignP, sites, declares, Site.declares, ha, and_true, places]
    by_cases hk : name = n
    · simp [hk]
    · simp [hk, Ne.symm hk]

theorem declares_stmt {V K A B : Type} (s : Stmt V K A B) (hg : s.MadeG) (n : String) :
    (declares asgS n (sites s.prog)).isSome ↔ n ∈ s.writes := by
  have ha : ∀ n, asgS.active assignTag n = true := fun n => by rw [← dispatch_handle]; exact asgS_handle n
  induction s with
  | code p => simp [Stmt.prog, Stmt.writes, foreign_declares hg.2]
  | seq p q ihp ihq =>
    simp only [Stmt.prog, sites, declares_append, Option.isSome_or, Bool.or_eq_true, ihp hg.1, ihq hg.2, Stmt.writes,
      List.mem_append]
    exact or_comm
  | var k value cont =>
    have : Foreign asgS (variableP k .strict value cont) := ⟨Ne.symm asg_tag_ne, by simp⟩
    simp [Stmt.prog, Stmt.writes, foreign_declares this]
  | assign k value cont =>
    simp only [Stmt.prog, assignP, sites, declares, Site.declares, ha, and_true, Stmt.writes]
    by_cases hk : k = n
    · simp [hk]
    · simp [hk, Ne.symm hk]
  | init I args cont =>
    have : Foreign asgS (Stmt.init I args cont).prog := ⟨hg.ra, foreign_retag I.name I.ns⟩
    simp [Stmt.writes, foreign_declares this]
  | call I md arg cont =>
    simp only [Stmt.prog, sites, declares_append, foreign_declares hg.ja, Option.or_none, declares_assign_any,
      Stmt.writes]

theorem writes_declared {V K A B : Type} {vs : List String} {ms : List (Option String × List String)}
    {D : List String} (hv : ∀ n ∈ vs, n ∈ D) (hm : ∀ m ∈ ms, ∀ n ∈ places m.1 m.2, n ∈ D) (s : Stmt V K A B)
    (h : s.Assigns vs ms) : ∀ n ∈ s.writes, n ∈ D := by
  induction s with
  | code => simp [Stmt.writes]
  | seq p q ihp ihq =>
    intro n hn
    simp only [Stmt.writes, List.mem_append] at hn
    rcases hn with hn | hn
    · exact ihp h.1 n hn
    · exact ihq h.2 n hn
  | var => simp [Stmt.writes]
  | assign k value cont => intro n hn; simp only [Stmt.writes, List.mem_singleton] at hn; subst hn; exact hv _ h
  | init => simp [Stmt.writes]
  | call I md arg cont => exact fun n hn => hm _ h n hn

theorem plain_declared {V K A B : Type} (s : Stmt V K A B) : ∀ n ∈ s.plain, n ∈ s.declared := by
  induction s with
  | seq p q ihp ihq =>
    intro n hn
    simp only [Stmt.plain, Stmt.declared, List.mem_append] at hn ⊢
    exact hn.imp (ihp n) (ihq n)
  | var => exact fun n hn => hn
  | _ => simp [Stmt.plain]

theorem modules_declared {V K A B : Type} (s : Stmt V K A B) : ∀ m ∈ s.modules, ∀ n ∈ places m.1 m.2, n ∈ s.declared := by
  induction s with
  | seq p q ihp ihq =>
    intro m hm n hn
    simp only [Stmt.modules, Stmt.declared, List.mem_append] at hm ⊢
    exact hm.imp (fun h => ihp m h n hn) (fun h => ihq m h n hn)
  | init I args cont =>
    intro m hm n hn
    simp only [Stmt.modules, List.mem_singleton] at hm
    subst hm
    exact hn
  | _ => simp [Stmt.modules]

theorem occurrences_foreign {V A B : Type} {p : Prog V A B} (h : Foreign varS p) (n : String) :
    occurrences reapS n (sites p) = [] :=
  occurrences_eq_nil_iff.2 (foreign_declares (S := reapS) h n)

theorem occurrences_retag {V : Type} (name : Option String) (ns : List String) (hne : name = none ∨ ns ≠ []) (n : String) :
    occurrences reapS n (sites (retag name ns : Prog V (Dict V) (Dict V))) =
      List.replicate ((places name ns).count n) .strict := by
  have ha : ∀ n, reapS.active variableTag n = true := fun n => by rw [← dispatch_handle]; exact reapS_handle n
  cases name with
  | none =>
    simp only [retag, places]
    clear hne
    induction ns with
    | nil => rfl
    | cons k ns ih =>
      simp only [retagAll, variableP, sites, occurrences_append, occurrences_singleton, Site.declares, ha, and_true, ih,
        List.count_cons, beq_iff_eq]
      by_cases hk : k = n
      · simp [hk, List.replicate_succ]
      · simp [hk]
  | some name =>
    have hns : ns.isEmpty = false := by rcases hne with h | h <;> simp_all
    simp only [retag, retagModule, hns, Bool.false_eq_true, if_false, variableP, sites, occurrences_singleton,
      Site.declares, ha, and_true, places, List.count_cons, List.count_nil, beq_iff_eq]
    by_cases hk : name = n
    · simp [hk]
    · simp [hk]

/-- Every declaration of a name is a strict sow. -/
theorem occurrences_stmt {V K A B : Type} (s : Stmt V K A B) (hg : s.MadeG) (n : String) :
    occurrences reapS n (sites s.prog) = List.replicate (s.declared.count n) .strict := by
  have ha : ∀ n, reapS.active variableTag n = true := fun n => by rw [← dispatch_handle]; exact reapS_handle n
  induction s with
  | code p => simp [Stmt.prog, Stmt.declared, occurrences_foreign hg.1]
  | seq p q ihp ihq =>
    simp only [Stmt.prog, sites, occurrences_append, ihp hg.1, ihq hg.2, Stmt.declared, List.count_append,
      List.replicate_append_replicate]
  | var k value cont =>
    simp only [Stmt.prog, variableP, sites, occurrences_singleton, Site.declares, ha, and_true, Stmt.declared,
      List.count_cons, List.count_nil, beq_iff_eq]
    by_cases hk : k = n
    · simp [hk]
    · simp [hk]
  | assign k value cont =>
    have : Foreign varS (assignP k .clobber value cont) := ⟨asg_tag_ne, by simp⟩
    simp [Stmt.prog, Stmt.declared, occurrences_foreign this]
  | init I args cont =>
    simp only [Stmt.prog, sites, occurrences_append, occurrences_foreign hg.rv, List.nil_append,
      occurrences_retag I.name I.ns hg.ne, Stmt.declared]
  | call I md arg cont =>
    have : Foreign varS (Stmt.call I md arg cont).prog := ⟨hg.jv, foreign_assign I.name I.ns⟩
    simp [Stmt.declared, occurrences_foreign this]

/-- C68: a name declared twice (by `variable` or by a module) is rejected by `init`. -/
theorem stateful_duplicate_raises {V K X Y : Type} (fuel : Nat) (key0 : K) (s : Stmt V K (K × X) Y)
    (hmade : s.Made key0) (hnd : ¬ s.declared.Nodup) (oname : Option String) (key : K) (x : X) :
    ∃ e, functionInit fuel key0 s.prog oname key x = .error (.tracing e) := by
  rcases hc : callAndReap reapS s.prog with e | t
  · exact ⟨e, by simp only [functionInit, reap, hc, except_map_error]⟩
  · exfalso
    apply hnd
    rw [List.nodup_iff_count]
    intro n
    by_cases hn : n ∈ s.declared
    · have ho := occurrences_stmt s hmade.g n
      have hp := List.count_pos_iff.2 hn
      have := strict_unique_site reapS n .strict rfl _ t hc (by rw [ho]; simp; omega)
      rw [ho] at this
      have := congrArg List.length this
      simp at this
      omega
    · simp [List.count_eq_zero.2 hn]

/-- C68, initialisation: for a stateful function that declares every name once, `init` succeeds exactly with the
variables of the specification; the state kept is that of the function's own variables and of its modules. -/
theorem stateful_init {V K X Y : Type} (fuel : Nat) (key0 : K) (s : Stmt V K (K × X) Y) (hmade : s.Made key0)
    (hnd : s.declared.Nodup) (oname : Option String) (key : K) (x : X) (y : Y) (D W : Dict V)
    (hinit : s.exec fuel (fun _ => none) (key, x) (fun _ => none, fun _ => none) = .ok (y, D, W)) :
    ∃ M, functionInit fuel key0 s.prog oname key x = .ok M ∧ M.name = oname ∧ M.variables = D ∧
      ∀ n, (D n).isSome ↔ n ∈ s.declared := by
  have hg := hmade.g
  obtain ⟨me, h1, -⟩ := metaOf_stmt s [] hg hnd (by simp)
  obtain ⟨R, h2, h3⟩ := run_reap_stmt fuel s (key, x) _ _ y D W (fun _ => none) hg hinit (fun _ => rfl)
  obtain ⟨st, h4, -⟩ := plantCheck_stmt D s [] hg hnd (by simp)
  obtain ⟨h5, h6⟩ := accepted_stmt D s hg
  obtain ⟨ma, h5, -⟩ := h5 [] (by simp [Meta.get])
  obtain ⟨M, hM, hMv, hMn⟩ := functionInit_of (key0 := key0) oname h1 h2 (funext h3) h4 h5 h6
  refine ⟨M, hM, hMn, hMv, fun n => ?_⟩
  rw [(exec_names fuel _ s _ _ _ y D W hg hinit).1 n]
  simp

/-- C68: `call_and_update` of the module of a stateful function, on any state of the function, is one run of the
function on that state: the same output, the state overwritten by the assignments, the same errors. -/
theorem stateful_call {V K X Y : Type} (fuel : Nat) (key0 : K) (s : Stmt V K (K × X) Y) (hmade : s.Made key0)
    (hasg : s.Assigns s.plain s.modules) (oname : Option String) (key : K) (x : X) (M : FModule V X Y)
    (hM : functionInit fuel key0 s.prog oname key x = .ok M)
    (fuel' : Nat) (held : Dict V) (hh : s.Holds held) (x' : X) :
    (M.replace held).callAndUpdate fuel' x' =
      (s.exec fuel' held (key0, x') (fun _ => none, fun _ => none)).map (fun q => (q.1, over held q.2.2)) := by
  have hg := hmade.g
  have hD : ∀ n ∈ s.declared, (M.variables n).isSome := by
    intro n hn
    rw [init_variable_names fuel key0 s.prog oname key x M hM n, Option.isSome_iff_ne_none, Ne,
      ← occurrences_eq_nil_iff, occurrences_stmt s hg n, List.replicate_eq_nil_iff]
    have := List.count_pos_iff.2 hn
    omega
  have hraw := run_jaxpr_raw hM held fuel' x'
  have hMa : ∀ n, n ∈ M.assigned ↔ n ∈ s.writes := fun n => by rw [init_assigned hM n, declares_stmt s hg n]
  have hfind : M.assigned.find? (fun n => (held n).isNone) = none := by
    rw [List.find?_eq_none]
    intro n hn
    have h := writes_declared (plain_declared s) (modules_declared s) s hasg n ((hMa n).1 hn)
    rw [← hh.1 n, Option.isSome_iff_ne_none] at h
    simpa using h
  obtain ⟨herr, hok⟩ := run_cau_stmt fuel' held M.variables s (key0, x') (fun _ => none) (fun _ => none)
    (fun _ => none) hg (fun n hn => (hh.1 n).2 hn) hD (fun m hm => (hh.2 m hm).imp fun _ h => h.1) (fun _ => rfl)
  simp only [FModule.callAndUpdate, FModule.replace]
  rcases he : s.exec fuel' held (key0, x') (fun _ => none, fun _ => none) with e | ⟨y, D', W'⟩
  · obtain ⟨e', rfl, h1⟩ := herr e he
    rw [hraw, h1]
    rfl
  · obtain ⟨R', h1, h2⟩ := hok y D' W' he
    rw [hraw, h1]
    simp only [except_map_ok, hfind, Except.ok.injEq, Prod.mk.injEq, true_and]
    funext n
    have hW := (exec_names fuel' held s _ _ _ y D' W' hg he).2 n
    rw [h2 n]
    simp only [List.contains_iff_mem, hMa n, over]
    by_cases hn : n ∈ s.writes
    · obtain ⟨v, hv⟩ := Option.isSome_iff_exists.1 (hW.2 (.inl hn))
      simp [hn, hv]
    · have : W' n = none := by simpa [hn] using hW.not
      simp [hn, this]

/-! ### Histories -/

/-- A name kept for a module is used for nothing else. -/
theorem modules_apart {V K A B : Type} (s : Stmt V K A B) (hnd : s.declared.Nodup) :
    ∀ n ns, (some n, ns) ∈ s.modules →
      n ∉ s.plain ∧ ∀ m ∈ s.modules, n ∈ places m.1 m.2 → m = (some n, ns) := by
  induction s with
  | seq p q ihp ihq =>
    simp only [Stmt.declared, List.nodup_append] at hnd
    intro n ns h
    simp only [Stmt.modules, Stmt.plain, List.mem_append] at h ⊢
    have hpl : (some n, ns) ∈ p.modules → n ∈ p.declared := fun h => modules_declared p _ h n (by simp [places])
    have hql : (some n, ns) ∈ q.modules → n ∈ q.declared := fun h => modules_declared q _ h n (by simp [places])
    rcases h with h | h
    · obtain ⟨h1, h2⟩ := ihp hnd.1 n ns h
      refine ⟨?_, ?_⟩
      · rintro (h3 | h3)
        · exact h1 h3
        · exact hnd.2.2 n (hpl h) n (plain_declared q n h3) rfl
      · rintro m (h3 | h3) h4
        · exact h2 m h3 h4
        · exact absurd rfl (hnd.2.2 n (hpl h) n (modules_declared q m h3 n h4))
    · obtain ⟨h1, h2⟩ := ihq hnd.2.1 n ns h
      refine ⟨?_, ?_⟩
      · rintro (h3 | h3)
        · exact hnd.2.2 n (plain_declared p n h3) n (hql h) rfl
        · exact h1 h3
      · rintro m (h3 | h3) h4
        · exact absurd rfl (hnd.2.2 n (modules_declared p m h3 n h4) n (hql h))
        · exact h2 m h3 h4
  | init I args cont =>
    intro n ns h
    simp only [Stmt.modules, Stmt.plain, List.mem_singleton, List.not_mem_nil, not_false_eq_true, true_and] at h ⊢
    rintro m rfl _
    exact h.symm
  | _ => simp [Stmt.modules]

/-- What is stored under the name of a module is a module. -/
def Typed {V : Type} (ms : List (Option String × List String)) (D : Dict V) : Prop :=
  ∀ n ns, (some n, ns) ∈ ms → ∀ v, D n = some v → ∃ d, v = .dict d ∧ ∀ k ∈ ns, (d k).isSome

theorem Typed.over {V : Type} {ms : List (Option String × List String)} {D E : Dict V} (h : Typed ms D)
    (h' : Typed ms E) : Typed ms (over D E) := by
  intro n ns hm v hv
  simp only [State.over] at hv
  rcases he : E n with _ | w
  · rw [he] at hv; exact h n ns hm v (by simpa using hv)
  · rw [he] at hv
    simp only [Option.some_or, Option.some.injEq] at hv
    subst hv
    exact h' n ns hm w he

theorem Typed.inherit {V : Type} {ms : List (Option String × List String)} {name : Option String} {ns : List String}
    (hm : (name, ns) ∈ ms) (hu : ∀ n ns', (some n, ns') ∈ ms → ∀ m ∈ ms, n ∈ places m.1 m.2 → m = (some n, ns'))
    {d : Dict V} (hd : HasNames d ns) : Typed ms (State.inherit name d) := by
  intro n ns' h v hv
  have hp : n ∈ places name ns := (inherit_places name ns d hd n).1 (by simp [hv])
  have := hu n ns' h _ hm hp
  simp only [Prod.mk.injEq] at this
  obtain ⟨rfl, rfl⟩ := this
  simp only [State.inherit, if_true, Option.some.injEq] at hv
  exact ⟨d, hv.symm, fun k hk => (hd k).2 hk⟩

theorem cau_names {V K X Y : Type} {I : Inner V K X Y} (hg : I.Good) {fuel : Nat} {vars : Vars V I.ns} {x : X} {y : Y}
    {v : Dict V} (hr : (I.m.replace vars.1).callAndUpdate fuel x = .ok (y, v)) : HasNames v I.ns := by
  simp only [FModule.callAndUpdate, FModule.replace] at hr
  rcases hj : run fuel I.m.jaxpr (vars.1, x) with e | ⟨y2, as⟩ <;> rw [hj] at hr
  · simp at hr
  rcases hf : I.m.assigned.find? (fun n => (vars.1 n).isNone) with _ | z <;> simp only [hf] at hr
  · simp only [Except.ok.injEq, Prod.mk.injEq] at hr
    intro n
    rw [← hr.2]
    simp only [List.contains_iff_mem]
    by_cases hn : n ∈ I.m.assigned
    · rw [if_pos hn]
      exact ⟨fun _ => hg.asg n hn, fun _ => hg.jk fuel _ _ _ hj n hn⟩
    · rw [if_neg hn]; exact vars.2 n
  · simp at hr

theorem exec_typed {V K A B : Type} (fuel : Nat) (held : Dict V) {vs : List String}
    {ms : List (Option String × List String)} (hv : ∀ n ns, (some n, ns) ∈ ms → n ∉ vs)
    (hu : ∀ n ns', (some n, ns') ∈ ms → ∀ m ∈ ms, n ∈ places m.1 m.2 → m = (some n, ns'))
    (s : Stmt V K A B) : ∀ a D W b D' W', s.MadeG → (∀ n ∈ s.plain, n ∈ vs) → (∀ m ∈ s.modules, m ∈ ms) →
    s.Assigns vs ms → s.exec fuel held a (D, W) = .ok (b, D', W') → Typed ms D → Typed ms W →
    Typed ms D' ∧ Typed ms W' := by
  have hsingle : ∀ n ∈ vs, ∀ v, Typed ms (fun k => if k = n then some v else none : Dict V) := by
    intro n hn v k ns hm w hw
    by_cases hk : k = n
    · subst hk; exact absurd hn (hv k ns hm)
    · simp [hk] at hw
  induction s with
  | code p =>
    intro a D W b D' W' _ _ _ _ h hD hW
    simp only [Stmt.exec] at h
    rcases hr : run fuel p a with e | b1 <;> rw [hr] at h <;> simp at h
    obtain ⟨-, rfl, rfl⟩ := h
    exact ⟨hD, hW⟩
  | seq p q ihp ihq =>
    intro a D W b D' W' hg hp hm ha h hD hW
    simp only [Stmt.plain, Stmt.modules, List.mem_append] at hp hm
    simp only [Stmt.exec] at h
    rcases hr : p.exec fuel held a (D, W) with e | ⟨b1, D1, W1⟩ <;> rw [hr] at h
    · simp at h
    obtain ⟨x1, x2⟩ := ihp a D W b1 D1 W1 hg.1 (fun n h => hp n (.inl h)) (fun n h => hm n (.inl h)) ha.1 hr hD hW
    exact ihq b1 D1 W1 b D' W' hg.2 (fun n h => hp n (.inr h)) (fun n h => hm n (.inr h)) ha.2 h x1 x2
  | var n value cont =>
    intro a D W b D' W' _ hp _ _ h hD hW
    simp only [Stmt.exec, Except.ok.injEq, Prod.mk.injEq] at h
    obtain ⟨-, rfl, rfl⟩ := h
    exact ⟨hD.over (hsingle n (hp n (by simp [Stmt.plain])) _), hW⟩
  | assign n value cont =>
    intro a D W b D' W' _ _ _ ha h hD hW
    simp only [Stmt.exec, Except.ok.injEq, Prod.mk.injEq] at h
    obtain ⟨-, rfl, rfl⟩ := h
    exact ⟨hD, hW.over (hsingle n ha _)⟩
  | init I args cont =>
    intro a D W b D' W' hg _ hm _ h hD hW
    simp only [Stmt.exec] at h
    rcases hr : run fuel I.r (args a) with e | d <;> rw [hr] at h <;> simp at h
    obtain ⟨-, rfl, rfl⟩ := h
    exact ⟨hD.over (Typed.inherit (hm _ (by simp [Stmt.modules])) hu (Vars.of I.ns _).2), hW⟩
  | call I md arg cont =>
    intro a D W b D' W' hg _ _ ha h hD hW
    simp only [Stmt.exec] at h
    rcases hr : (I.m.replace (md a).1).callAndUpdate fuel (arg a) with e | ⟨y, v⟩ <;> rw [hr] at h <;> simp at h
    obtain ⟨-, rfl, rfl⟩ := h
    exact ⟨hD, hW.over (Typed.inherit ha hu (cau_names hg hr))⟩

theorem holds_of_typed {V K A B : Type} (s : Stmt V K A B) (D : Dict V) (h1 : ∀ n, (D n).isSome ↔ n ∈ s.declared)
    (h2 : Typed s.modules D) : s.Holds D := by
  refine ⟨h1, ?_⟩
  rintro ⟨name, ns⟩ hm
  cases name with
  | none =>
    have hall : ∀ n ∈ ns, (D n).isSome := fun n hn => (h1 n).2 (modules_declared s _ hm n (by simpa [places] using hn))
    refine ⟨D, ?_, hall⟩
    simp only [slice]
    rw [if_pos]
    simpa using hall
  | some n =>
    obtain ⟨v, hv⟩ := Option.isSome_iff_exists.1 ((h1 n).2 (modules_declared s _ hm n (by simp [places])))
    obtain ⟨d, rfl, hd⟩ := h2 n ns hm v hv
    exact ⟨d, by simp [slice, hv], hd⟩

/-- The states of the specification along a history of calls: each call is a run on the state left by the one before. -/
def Stmt.history {V K X Y : Type} (fuel : Nat) (key0 : K) (s : Stmt V K (K × X) Y) :
    Dict V → List X → Except SErr (Dict V)
  | held, [] => .ok held
  | held, x :: xs =>
    match s.exec fuel held (key0, x) (fun _ => none, fun _ => none) with
    | .error e => .error e
    | .ok (_, _, W) => s.history fuel key0 (over held W) xs

/-- C68: a stateful function, initialised and then updated any number of times, holds the state obtained by running the
function, as written, once for the initialisation and once for each update. -/
theorem stateful_updates {V K X Y : Type} (fuel : Nat) (key0 : K) (s : Stmt V K (K × X) Y) (hmade : s.Made key0)
    (hnd : s.declared.Nodup) (hasg : s.Assigns s.plain s.modules) (oname : Option String) (key : K) (x : X) (y : Y)
    (D W : Dict V)
    (hinit : s.exec fuel (fun _ => none) (key, x) (fun _ => none, fun _ => none) = .ok (y, D, W)) :
    ∃ M, functionInit fuel key0 s.prog oname key x = .ok M ∧ s.Holds M.variables ∧
      ∀ (fuel' : Nat) (xs : List X),
        (updates fuel' M xs).map (fun M' => (M'.name, M'.variables)) =
          (s.history fuel' key0 D xs).map (fun d => (oname, d)) := by
  obtain ⟨M, hM, hMn, hMv, hDn⟩ := stateful_init fuel key0 s hmade hnd oname key x y D W hinit
  have hg := hmade.g
  have hap := modules_apart s hnd
  have hty := fun (held : Dict V) (fuel' : Nat) (a : K × X) (b : Y) (D' W' : Dict V)
      (h : s.exec fuel' held a (fun _ => none, fun _ => none) = .ok (b, D', W')) =>
    exec_typed fuel' held (fun n ns h => (hap n ns h).1) (fun n ns h => (hap n ns h).2) s a _ _ b D' W' hg
      (fun _ h => h) (fun _ h => h) hasg h (fun _ _ _ v hv => by simp at hv) (fun _ _ _ v hv => by simp at hv)
  have hHD : s.Holds D := holds_of_typed s D hDn (hty _ fuel _ y D W hinit).1
  refine ⟨M, hM, hMv ▸ hHD, fun fuel' xs => ?_⟩
  have aux : ∀ (xs : List X) (held : Dict V), s.Holds held →  Typed s.modules held →
      (updates fuel' (M.replace held) xs).map (fun M' => (M'.name, M'.variables)) =
        (s.history fuel' key0 held xs).map (fun d => (oname, d)) := by
    intro xs
    induction xs with
    | nil => intro held _ _; simp [updates, FModule.replace, hMn, Stmt.history]
    | cons x2 xs ih =>
      intro held hh ht
      simp only [updates, FModule.update, stateful_call fuel key0 s hmade hasg oname key x M hM fuel' held hh x2,
        Stmt.history]
      rcases he : s.exec fuel' held (key0, x2) (fun _ => none, fun _ => none) with e | ⟨b, D', W'⟩
      · rfl
      · simp only [except_map_ok]
        have ht' : Typed s.modules (over held W') := ht.over (hty held fuel' _ b D' W' he).2
        refine ih (over held W') (holds_of_typed s _ (fun n => ?_) ht') ht'
        rw [over_some, hh.1 n]
        constructor
        · rintro (h | h)
          · have := ((exec_names fuel' held s _ _ _ b D' W' hg he).2 n).1 h
            simp only [Option.isSome_none, Bool.false_eq_true, or_false] at this
            exact writes_declared (plain_declared s) (modules_declared s) s hasg n this
          · exact h
        · exact .inr
  have := aux xs D hHD (hty _ fuel _ y D W hinit).1
  rw [← hMv] at this
  rw [hMv] at this
  rw [← this]
  congr 2
  rw [← hMv]
  rfl

/-! ### Witnesses -/

namespace Ex

/-- `def g(key, x): m = init(inner, name)(key, x); y = m(x); return m(y)`. -/
def twice (I : Inner Nat Nat Nat Nat) : Stmt Nat Nat (Nat × Nat) Nat :=
  .seq (.init I id (fun a m => (m, a.2)))
    (.seq (.call I (fun a => a.1) (fun a => a.2) (fun a y => (a.1, y)))
      (.call I (fun a => a.1) (fun a => a.2) (fun _ y => y)))

/-- `def g(key, x): c = variable(0, 'c'); assign(c + 1, 'c'); m1 = init(inner, n1)(key, x);
m2 = init(inner, n2)(key, x); return m2(m1(x))`. -/
def two (I J : Inner Nat Nat Nat Nat) : Stmt Nat Nat (Nat × Nat) Nat :=
  .seq (.var "c" (fun _ => .leaf 0) (fun a v => (a, inner.leafNum v)))
    (.seq (.assign "c" (fun a => .leaf (a.2 + 1)) (fun a _ => a.1))
      (.seq (.init I id (fun a m => (m, a)))
        (.seq (.init J (fun a => a.2) (fun a m => (m, a)))
          (.seq (.call I (fun a => a.2.1) (fun a => a.2.2.2) (fun a y => (a.1, y)))
            (.call J (fun a => a.1) (fun a => a.2) (fun _ y => y))))))

/-- What `init(inner, name=name)` computes. -/
def made (name : Option String) : Inner Nat Nat Nat Nat where
  f := inner
  name := name
  r := match reap reapS inner with
    | .ok r => r
    | .error _ => .pure (fun _ => .ok (fun _ => none))
  ns := match metaOf reapS inner [] with
    | .ok m => m.map (·.1)
    | .error _ => []
  m := match functionInit 1 0 inner name 3 5 with
    | .ok m => m
    | .error _ => statelessInit (.pure (fun x => .ok x)) none

theorem made_isInit (name : Option String) : (made name).IsInit 0 := by
  refine ⟨⟨1, 3, 5, rfl⟩, rfl, ⟨_, rfl, rfl⟩, ?_, inner_nests _, .inr (by change [_, _] ≠ []; simp)⟩
  intro n hn
  have : n = "w" := List.mem_singleton.1 (show n ∈ ["w"] from hn)
  subst this
  rfl

/-- The hypotheses of the theorems are met; the numbers: with key 3 and argument 5 the state is `w = 4, b = 7`, and a
call on 10 gives `4 * (4 * 10 + 7) + 7`; both calls read `w = 4`, the assignment `w = 4 + 47` of the second one is
kept. -/
example : (twice (made none)).Made 0 ∧ (twice (made none)).declared.Nodup ∧
    (twice (made none)).Assigns (twice (made none)).plain (twice (made none)).modules ∧
    ∃ D W, (twice (made none)).exec 1 (fun _ => none) (3, 5) (fun _ => none, fun _ => none) = .ok (115, D, W) ∧
      ∃ M, functionInit 1 0 (twice (made none)).prog none 3 5 = .ok M ∧ M.variables "w" = some (.leaf 4) ∧
      ∃ v, M.callAndUpdate 1 10 = .ok (195, v) ∧ v "w" = some (.leaf 51) ∧ v "b" = some (.leaf 7) :=
  ⟨⟨.inl (made_isInit _), .inl (made_isInit _), .inl (made_isInit _)⟩, by decide +kernel, ⟨trivial, .head _, .head _⟩,
    _, _, rfl, _, rfl, rfl, _, rfl, rfl, rfl⟩

/-- Two modules, one with a name, and a variable of the function itself. -/
example : (two (made (some "f")) (made none)).Made 0 ∧ (two (made (some "f")) (made none)).declared.Nodup ∧
    (two (made (some "f")) (made none)).Assigns (two (made (some "f")) (made none)).plain
      (two (made (some "f")) (made none)).modules ∧
    ∃ M, functionInit 1 0 (two (made (some "f")) (made none)).prog none 3 5 = .ok M ∧
      M.variables "c" = some (.leaf 0) ∧ M.variables "w" = some (.leaf 4) ∧
      M.variables "f" = some (.dict (made (some "f")).m.variables) ∧
      ∃ v, M.callAndUpdate 1 10 = .ok (195, v) ∧ v "c" = some (.leaf 1) ∧ v "w" = some (.leaf 51) ∧
        (v "f").map (fun d => asVars d "w") = some (some (.leaf 14)) :=
  ⟨⟨trivial, trivial, .inl (made_isInit _), .inl (made_isInit _), .inl (made_isInit _), .inl (made_isInit _)⟩, by decide +kernel,
    ⟨trivial, .head _, trivial, trivial, .head _, .tail _ (.head _)⟩, _, rfl, rfl, rfl, rfl, _, rfl, rfl, rfl, rfl⟩

/-- `stateful_duplicate_raises`: the same function initialised twice without a name. -/
example : (two (made none) (made none)).Made 0 ∧ ¬ (two (made none) (made none)).declared.Nodup ∧
    ∃ e, functionInit 1 0 (two (made none) (made none)).prog none 3 5 = .error (.tracing e) :=
  ⟨⟨trivial, trivial, .inl (made_isInit _), .inl (made_isInit _), .inl (made_isInit _), .inl (made_isInit _)⟩, by decide +kernel, _, rfl⟩

end Ex

end Verif.State
