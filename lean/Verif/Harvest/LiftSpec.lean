import Verif.Harvest.LiftComm

/-! C66, C67: what is reaped, stated on the list of all sows in the order of execution. -/
namespace Verif.Harvest.Lift

variable {V W X : Type}

/-- A sow as seen by the reap: name, mode, leaves. -/
abbrev Event (X : Type) := String × Mode × List (List String × X)

/-- The value of a name: the last sow of that name. -/
def lastOf (evs : List (Event X)) (n : String) : Option (Event X) := evs.reverse.find? (fun e => e.1 == n)

/-- No name is sown twice, unless always in mode 'clobber'. -/
def NoClash (evs : List (Event X)) : Prop :=
  evs.Pairwise (fun a b => a.1 = b.1 → a.2.1.isClobber = true ∧ b.2.1.isClobber = true)

/-- The sows that are to be reaped, in the order of execution; a scope counts as one strict sow of all the values reaped
in it, under their names. -/
inductive Sows (L : Rules V W) (store : W → X) (S : Settings) : Prog V → List W → List W → List (Event X) → Prop
  | done (outs env o) (h : gets env outs = .ok o) : Sows L store S (.done outs) env o []
  | op (p ins rest env ws o evs) (h : gets env ins = .ok ws) (hr : Sows L store S rest (env ++ [L.op p ws]) o evs) :
      Sows L store S (.op p ins rest) env o evs
  | sow (tag name mode x rest env w o evs) (h : get env x = .ok w) (hm : mode ≠ .invalid) (hd : S.dispatch tag name = .handle)
      (hr : Sows L store S rest (env ++ [L.back w (L.phys w)]) o evs) :
      Sows L store S (.sow tag name mode x rest) env o ((name, mode, [([], store w)]) :: evs)
  | skip (tag name mode x rest env w o evs) (h : get env x = .ok w) (hm : mode ≠ .invalid) (hd : S.dispatch tag name ≠ .handle)
      (hr : Sows L store S rest (env ++ [L.back w (L.phys w)]) o evs) :
      Sows L store S (.sow tag name mode x rest) env o evs
  | nest (scope ins body rest env ws ob o evb evs) (rs : List (Event X)) (h : gets env ins = .ok ws) (hb : Sows L store S body ws ob evb)
      (hrs : ∀ n, rs.find? (fun e => e.1 == n) = lastOf evb n) (hnd : (rs.map (·.1)).Nodup) (hc : NoClash evb)
      (hne : evb ≠ []) (hd : S.dispatch S.tag scope = .handle) (hr : Sows L store S rest (env ++ ob) o evs) :
      Sows L store S (.nest scope ins body rest) env o
        ((scope, .strict, rs.flatMap fun e => e.2.2.map fun l => (e.1 :: l.1, l.2)) :: evs)
  | nestSkip (scope ins body rest env ws ob o evb evs) (h : gets env ins = .ok ws) (hb : Sows L store S body ws ob evb)
      (hc : NoClash evb) (hne : evb = [] ∨ S.dispatch S.tag scope ≠ .handle) (hr : Sows L store S rest (env ++ ob) o evs) :
      Sows L store S (.nest scope ins body rest) env o evs

/-- Handling a list of sows. -/
def handleAll : Reaps X → List (Event X) → Except Err (Reaps X)
  | r, [] => .ok r
  | r, e :: evs => do let r' ← handle r e.1 e.2.1 e.2.2; handleAll r' evs

/-- The dictionary `r` holds the sows `evs`. -/
structure Holds (r : Reaps X) (evs : List (Event X)) : Prop where
  find : ∀ n, r.find? (fun e => e.1 == n) = lastOf evs n
  nodup : (r.map (·.1)).Nodup
  ok : NoClash evs

theorem lastOf_snoc (evs : List (Event X)) (e : Event X) (n : String) :
    lastOf (evs ++ [e]) n = if e.1 = n then some e else lastOf evs n := by
  simp only [lastOf, List.reverse_append, List.reverse_cons, List.reverse_nil, List.nil_append, List.cons_append,
    List.find?_cons]
  by_cases h : e.1 = n
  · simp [h]
  · rw [show (e.1 == n) = false by simpa using h, if_neg h]

theorem lastOf_some {evs : List (Event X)} {n : String} {e : Event X} (h : lastOf evs n = some e) : e ∈ evs ∧ e.1 = n := by
  unfold lastOf at h
  have h1 := List.mem_of_find?_eq_some h
  have h2 := List.find?_some h
  exact ⟨List.mem_reverse.1 h1, by simpa using h2⟩

theorem lastOf_none {evs : List (Event X)} {n : String} (h : lastOf evs n = none) : ∀ e ∈ evs, e.1 ≠ n := by
  intro e he hn
  unfold lastOf at h
  rw [List.find?_eq_none] at h
  exact h e (List.mem_reverse.2 he) (by simp [hn])

theorem find_filter (r : Reaps X) (n m : String) (h : m ≠ n) :
    (r.filter (fun e => e.1 ≠ n)).find? (fun e => e.1 == m) = r.find? (fun e => e.1 == m) := by
  induction r with
  | nil => rfl
  | cons e r ih =>
    by_cases hn : e.1 = n
    · have hm : ¬ e.1 = m := by rw [hn]; exact fun h' => h h'.symm
      rw [List.filter_cons_of_neg (by simp [hn]), ih, List.find?_cons_of_neg (by simp [hm])]
    · rw [List.filter_cons_of_pos (by simp [hn]), List.find?_cons, List.find?_cons, ih]

theorem handle_holds {r r' : Reaps X} {evs : List (Event X)} (hr : Holds r evs) (e : Event X)
    (h : handle r e.1 e.2.1 e.2.2 = .ok r') : Holds r' (evs ++ [e]) := by
  obtain ⟨n, mode, lv⟩ := e
  unfold handle at h
  simp only at h
  cases hf : r.find? (fun e => e.1 == n) with
  | none =>
    rw [hf] at h; simp at h; subst h
    have hlast := hr.find n
    rw [hf] at hlast
    refine ⟨fun m => ?_, ?_, ?_⟩
    · rw [lastOf_snoc, List.find?_cons]
      by_cases hm : n = m
      · simp [hm]
      · rw [show (n == m) = false by simpa using hm, if_neg hm]; exact hr.find m
    · rw [List.map_cons, List.nodup_cons]
      refine ⟨fun hm => ?_, hr.nodup⟩
      obtain ⟨e, he, hen⟩ := List.mem_map.1 hm
      rw [List.find?_eq_none] at hf
      exact hf e he (by simp [hen])
    · refine List.pairwise_append.2 ⟨hr.ok, by simp, ?_⟩
      intro a ha b hb hab
      rw [List.mem_singleton] at hb
      subst hb
      exact absurd hab (lastOf_none hlast.symm a ha)
  | some e =>
    rw [hf] at h
    simp only at h
    split at h
    · rename_i hcl
      simp only [Bool.and_eq_true] at hcl
      simp at h; subst h
      have hlast := hr.find n
      rw [hf] at hlast
      refine ⟨fun m => ?_, ?_, ?_⟩
      · rw [lastOf_snoc, List.find?_cons]
        by_cases hm : n = m
        · simp [hm]
        · have h2 := find_filter r n m (fun h' => hm h'.symm)
          rw [show (n == m) = false by simpa using hm, if_neg hm, ← hr.find m]
          simpa using h2
      · rw [List.map_cons, List.nodup_cons]
        refine ⟨fun hm => ?_, ?_⟩
        · obtain ⟨e, he, hen⟩ := List.mem_map.1 hm
          have := (List.mem_filter.1 he).2
          simp at this
          exact this hen
        · exact hr.nodup.sublist (List.filter_sublist.map _)
      · refine List.pairwise_append.2 ⟨hr.ok, by simp, ?_⟩
        intro a ha b hb hab
        rw [List.mem_singleton] at hb
        subst hb
        refine ⟨?_, hcl.1⟩
        have he := lastOf_some hlast.symm
        -- every earlier sow of the name clashes with, or is, the last one
        rcases List.mem_iff_append.1 he.1 with ⟨s, t, hst⟩
        rw [hst] at ha
        have hok := hr.ok
        rw [NoClash, hst, List.pairwise_append] at hok
        rcases List.mem_append.1 ha with ha | ha
        · exact (hok.2.2 a ha e (by simp) (by rw [hab]; exact he.2.symm)).1
        · rcases List.mem_cons.1 ha with rfl | ha
          · exact hcl.2
          · exact ((List.pairwise_cons.1 hok.2.1).1 a ha (by rw [he.2]; exact hab.symm)).2
    · simp at h

theorem handle_error {r : Reaps X} {evs : List (Event X)} (hr : Holds r evs) (e : Event X) (er : Err)
    (h : handle r e.1 e.2.1 e.2.2 = .error er) :
    er = .alreadyReaped e.1 ∧ ∃ a ∈ evs, a.1 = e.1 ∧ ¬ (a.2.1.isClobber = true ∧ e.2.1.isClobber = true) := by
  obtain ⟨n, mode, lv⟩ := e
  unfold handle at h
  simp only at h
  cases hf : r.find? (fun e => e.1 == n) with
  | none => rw [hf] at h; simp at h
  | some a =>
    rw [hf] at h
    simp only at h
    split at h
    · simp at h
    · rename_i hcl
      simp at h
      have := lastOf_some ((hr.find n).symm.trans hf)
      exact ⟨h.symm, a, this.1, this.2, fun hh => hcl (by simp [hh.1, hh.2])⟩

/-- The run of `reapBy` and the list of sows. -/
theorem reapBy_sows (L : Rules V W) (store : W → X) (S : Settings) (P : Prog V) (env : List W) (r : Reaps X)
    (old : List (Event X)) (hr : Holds r old) (q) (h : reapBy L store S P env r = .ok q) :
    ∃ evs, Sows L store S P env q.1 evs ∧ Holds q.2 (old ++ evs) := by
  induction P generalizing env r old q with
  | done outs =>
    simp only [reapBy] at h
    cases ho : gets env outs with
    | error e => rw [ho] at h; simp [bind, Except.bind] at h
    | ok o =>
      rw [ho] at h; simp [bind, Except.bind, pure, Except.pure] at h; subst h
      exact ⟨[], .done _ _ _ ho, by simpa using hr⟩
  | op p ins rest ih =>
    simp only [reapBy] at h
    cases ho : gets env ins with
    | error e => rw [ho] at h; simp [bind, Except.bind] at h
    | ok ws =>
      rw [ho] at h
      obtain ⟨evs, h1, h2⟩ := ih _ r old hr q h
      exact ⟨evs, .op _ _ _ _ _ _ _ ho h1, h2⟩
  | sow tag name mode x rest ih =>
    simp only [reapBy] at h
    cases ho : get env x with
    | error e => rw [ho] at h; simp [bind, Except.bind] at h
    | ok w =>
      rw [ho] at h
      simp only [bind, Except.bind] at h
      cases hs : sowInto S r tag name mode (store w) with
      | error e => rw [hs] at h; simp at h
      | ok r' =>
        rw [hs] at h
        simp only at h
        unfold sowInto at hs
        split at hs
        · simp at hs
        · rename_i hm
          cases hd : S.dispatch tag name with
          | handle =>
            rw [hd] at hs
            have hr' := handle_holds hr (name, mode, [([], store w)]) hs
            obtain ⟨evs, h1, h2⟩ := ih _ r' _ hr' q h
            exact ⟨_, .sow _ _ _ _ _ _ _ _ _ ho hm hd h1, by simpa using h2⟩
          | drop =>
            rw [hd] at hs; simp at hs; subst hs
            obtain ⟨evs, h1, h2⟩ := ih _ r old hr q h
            exact ⟨evs, .skip _ _ _ _ _ _ _ _ _ ho hm (by rw [hd]; simp) h1, h2⟩
          | forward =>
            rw [hd] at hs; simp at hs; subst hs
            obtain ⟨evs, h1, h2⟩ := ih _ r old hr q h
            exact ⟨evs, .skip _ _ _ _ _ _ _ _ _ ho hm (by rw [hd]; simp) h1, h2⟩
  | nest scope ins body rest ihb ihr =>
    simp only [reapBy] at h
    cases ho : gets env ins with
    | error e => rw [ho] at h; simp [bind, Except.bind] at h
    | ok ws =>
      rw [ho] at h
      simp only [bind, Except.bind] at h
      cases hb : reapBy L store S body ws [] with
      | error e => rw [hb] at h; simp at h
      | ok qb =>
        rw [hb] at h
        simp only at h
        obtain ⟨evb, hb1, hb2⟩ := ihb ws [] [] ⟨fun n => rfl, by simp, .nil⟩ qb hb
        rw [List.nil_append] at hb2
        have hemp : qb.2.isEmpty = true ↔ evb = [] := by
          constructor
          · intro hq
            rw [List.isEmpty_iff] at hq
            rcases evb with _ | ⟨e, evb⟩
            · rfl
            · have hl := hb2.find e.1
              rw [hq] at hl
              exact absurd rfl (lastOf_none hl.symm e (by simp))
          · rintro rfl
            rw [List.isEmpty_iff]
            rcases hqb : qb.2 with _ | ⟨e, r⟩
            · rfl
            · have := hb2.find e.1
              rw [hqb] at this
              simp [lastOf] at this
        cases hn : nestInto S r qb.2 scope with
        | error e => rw [hn] at h; simp at h
        | ok r' =>
          rw [hn] at h
          simp only at h
          unfold nestInto at hn
          split at hn
          · rename_i he
            simp at hn; subst hn
            obtain ⟨evs, h1, h2⟩ := ihr _ r old hr q h
            exact ⟨evs, .nestSkip _ _ _ _ _ _ _ _ _ _ ho hb1 hb2.ok (.inl (hemp.1 he)) h1, h2⟩
          · rename_i he
            cases hd : S.dispatch S.tag scope with
            | handle =>
              rw [hd] at hn
              have hr' := handle_holds hr (scope, .strict, leavesOf qb.2) hn
              obtain ⟨evs, h1, h2⟩ := ihr _ r' _ hr' q h
              refine ⟨_, .nest scope ins body rest env ws qb.1 q.1 evb evs qb.2 ho hb1 hb2.find hb2.nodup hb2.ok
                (fun h0 => he (hemp.2 h0)) hd h1, ?_⟩
              simpa [leavesOf] using h2
            | drop =>
              rw [hd] at hn; simp at hn; subst hn
              obtain ⟨evs, h1, h2⟩ := ihr _ r old hr q h
              exact ⟨evs, .nestSkip _ _ _ _ _ _ _ _ _ _ ho hb1 hb2.ok (.inr (by rw [hd]; simp)) h1, h2⟩
            | forward =>
              rw [hd] at hn; simp at hn; subst hn
              obtain ⟨evs, h1, h2⟩ := ihr _ r old hr q h
              exact ⟨evs, .nestSkip _ _ _ _ _ _ _ _ _ _ ho hb1 hb2.ok (.inr (by rw [hd]; simp)) h1, h2⟩

/-- C66, C67: what `call_and_reap` of a function, of its `vmap` or of its `jvp` returns: for every name the last value
sown with that name among the sows that the settings select, in the order of execution, each name once; a scope is a
strict name; and no name was sown twice unless in mode 'clobber'. -/
theorem reap_spec (L : Rules V W) (S : Settings) (P : Prog V) (env : List W) (q)
    (h : reapBy L L.phys S P env [] = .ok q) :
    ∃ evs, Sows L L.phys S P env q.1 evs ∧ NoClash evs ∧ (q.2.map (·.1)).Nodup ∧
      ∀ n, q.2.find? (fun e => e.1 == n) = lastOf evs n := by
  obtain ⟨evs, h1, h2⟩ := reapBy_sows L L.phys S P env [] [] ⟨fun n => rfl, by simp, .nil⟩ q h
  rw [List.nil_append] at h2
  exact ⟨evs, h1, h2.ok, h2.nodup, h2.find⟩

/-- C66, C67: `alreadyReaped` is raised only if the name is sown twice in one scope, not both times in mode 'clobber':
if no list of sows clashes, a run that reaches the end of the function does not raise. -/
theorem handle_raises_iff {r : Reaps X} {evs : List (Event X)} (hr : Holds r evs) (e : Event X) :
    (∃ er, handle r e.1 e.2.1 e.2.2 = .error er) ↔ ¬ NoClash (evs ++ [e]) := by
  constructor
  · rintro ⟨er, h⟩ hc
    obtain ⟨-, a, ha, hn, hcl⟩ := handle_error hr e er h
    exact hcl ((List.pairwise_append.1 hc).2.2 a ha e (by simp) hn)
  · intro hc
    cases hh : handle r e.1 e.2.1 e.2.2 with
    | error er => exact ⟨er, rfl⟩
    | ok r' => exact absurd (handle_holds hr e hh).ok hc

/-- The function with the planted sows replaced by the planted values: what `plant` is meant to run. -/
def subst (S : Settings) (pl : Plants V) : Prog V → Prog V
  | .done outs => .done outs
  | .op p ins rest => .op p ins (subst S pl rest)
  | .sow tag name mode x rest =>
    match S.dispatch tag name, pl [name] with
    | .handle, some v => .op ⟨fun _ => v, fun _ => (v, none), fun _ _ => v⟩ [] (subst S pl rest)
    | _, _ => .sow tag name mode x (subst S pl rest)
  | .nest scope ins body rest => .nest scope ins (subst S (fun p => pl (scope :: p)) body) (subst S pl rest)

/-- C66, C67: `plant(f)(plants)` runs `f` with the planted values in the place of the sown ones. -/
theorem plant_spec (S : Settings) (P : Prog V) (env : List V) (pl : Plants V) (pd : List String) (q)
    (h : plantBy (plain V) S P env pl pd = .ok q) : runBy (plain V) (subst S pl P) env = .ok q.1 := by
  induction P generalizing env pl pd q with
  | done outs =>
    simp only [plantBy] at h
    cases ho : gets env outs with
    | error e => rw [ho] at h; simp [bind, Except.bind] at h
    | ok o => rw [ho] at h; simp [bind, Except.bind, pure, Except.pure] at h; subst h; exact ho
  | op p ins rest ih =>
    simp only [plantBy, subst, runBy] at h ⊢
    cases ho : gets env ins with
    | error e => rw [ho] at h; simp [bind, Except.bind] at h
    | ok o => rw [ho] at h; exact ih _ _ _ _ h
  | sow tag name mode x rest ih =>
    simp only [plantBy] at h
    cases ho : get env x with
    | error e => rw [ho] at h; simp [bind, Except.bind] at h
    | ok w =>
      rw [ho] at h
      simp only [bind, Except.bind] at h
      split at h
      · simp at h
      · have skip : ∀ pd, plantBy (plain V) S rest (env ++ [(plain V).back w ((plain V).phys w)]) pl pd = .ok q →
            runBy (plain V) (.sow tag name mode x (subst S pl rest)) env = .ok q.1 := by
          intro pd hq
          simp only [runBy, ho]
          exact ih _ _ _ _ hq
        simp only [subst]
        cases hd : S.dispatch tag name with
        | drop => rw [hd] at h; exact skip _ h
        | forward => rw [hd] at h; exact skip _ h
        | handle =>
          rw [hd] at h
          simp only at h ⊢
          split at h
          · simp at h
          · cases hp : pl [name] with
            | none => rw [hp] at h; exact skip _ h
            | some v =>
              rw [hp] at h
              simp only at h
              cases hr : plantBy (plain V) S rest (env ++ [(plain V).back w v]) pl (if mode.isClobber then pd else name :: pd) with
              | error e => rw [hr] at h; simp at h
              | ok q0 =>
                rw [hr] at h
                simp only [pure, Except.pure, Except.ok.injEq] at h
                subst h
                have := ih _ _ _ _ hr
                exact this
  | nest scope ins body rest ihb ihr =>
    simp only [plantBy, subst, runBy] at h ⊢
    cases ho : gets env ins with
    | error e => rw [ho] at h; simp [bind, Except.bind] at h
    | ok ws =>
      rw [ho] at h
      simp only [bind, Except.bind] at h ⊢
      cases hb : plantBy (plain V) S body ws (fun p => pl (scope :: p)) [] with
      | error e => rw [hb] at h; simp at h
      | ok qb =>
        rw [hb] at h
        simp only at h
        rw [ihb _ _ _ _ hb]
        simp only
        cases hr : plantBy (plain V) S rest (env ++ qb.1) pl pd with
        | error e => rw [hr] at h; simp at h
        | ok qr =>
          rw [hr] at h
          simp only [pure, Except.pure, Except.ok.injEq] at h
          subst h
          have := ihr _ _ _ _ hr
          exact this

/-! Non-vacuity: the sows of a run with a scope, and a planted run. -/
example (x : Int) : ∃ q, reap all square [x] = .ok q ∧ q.2 = [("y", .strict, [([], x)])] := ⟨_, rfl, rfl⟩
example (x : Int) : ∃ q, plantBy (plain Int) all square [x] three [] = .ok q ∧ q.1 = [3 * x] := ⟨_, rfl, rfl⟩

end Verif.Harvest.Lift
