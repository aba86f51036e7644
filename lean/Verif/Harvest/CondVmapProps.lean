import Verif.Harvest.CondVmap

/-
C77: which functions with `sow_cond` can be reaped under `vmap`, and what is returned in each lane.
-/
namespace Verif.Harvest.CondVmap

open Verif.LogProb.Batched (Arr)

variable {R : Type}

/-! ## Specification -/

/-- All the values and predicates that are sown, in the order of execution. -/
def executed {X Y : Type} : List (Item X Y) → List (X × Y)
  | [] => []
  | .sow v p :: l => (v, p) :: executed l
  | .loop k first more :: l => (List.range k).flatMap (fun t => first t :: more.map (fun e => e t)) ++ executed l

/-- The last value whose predicate held, else zeros. -/
def lastHeld (zero : R) (vs : List Nat) (l : List (Arr R × Arr Bool)) : Arr R :=
  match (l.filter (fun e => e.2.data [])).getLast? with
  | some e => e.1
  | none => zeros zero vs

/-- Every value and every predicate of an item. -/
def Item.All {X Y : Type} (P : X → Y → Prop) : Item X Y → Prop
  | .sow v p => P v p
  | .loop _ first more => (∀ t, P (first t).1 (first t).2) ∧ ∀ e ∈ more, ∀ t, P (e t).1 (e t).2

/-- Whether a predicate is mapped does not depend on the step of a loop (it is a property of the traced body). -/
def Item.Uniform {X Y : Type} (static : Y → Bool) : Item X Y → Prop
  | .sow _ _ => True
  | .loop _ first more => (∀ t, static (first t).2 = static (first 0).2) ∧ ∀ e ∈ more, ∀ t, static (e t).2 = static (e 0).2

/-- Under `vmap` with `n` lanes: every value is mapped along axis 0 and has the shape `vs` in each lane; every predicate is a
scalar in each lane, and is mapped or not. -/
def Mapped (n : Nat) (vs : List Nat) (h : List (Item (Batched R) (Batched Bool))) : Prop :=
  ∀ it ∈ h, it.All (fun v p => (v.2 = some 0 ∧ v.1.shape = n :: vs) ∧
      ((p.2 = none ∧ p.1.shape = []) ∨ (p.2 = some 0 ∧ p.1.shape = [n]))) ∧
    it.Uniform (fun p => p.2.isSome)

/-- No predicate of the item is mapped. -/
def Unmapped (it : Item (Batched R) (Batched Bool)) : Prop := it.All (fun _ p => p.2 = none)

/-- The functions that can be reaped under `vmap`: only the very first sow may have a mapped predicate, it must not be in a
loop, and then the values are scalars in each lane. -/
def Reapable (vs : List Nat) : List (Item (Batched R) (Batched Bool)) → Prop
  | [] => True
  | .sow _ p :: l => (p.2 = none ∨ vs = []) ∧ ∀ it ∈ l, Unmapped it
  | .loop k first more :: l => ∀ it ∈ .loop k first more :: l, Unmapped it

theorem lastHeld_some (zero : R) (vs) {l : List (Arr R × Arr Bool)} {e}
    (h : (l.filter (fun e => e.2.data [])).getLast? = some e) : lastHeld zero vs l = e.1 := by
  simp only [lastHeld]; rw [h]

theorem lastHeld_none (zero : R) (vs) {l : List (Arr R × Arr Bool)}
    (h : (l.filter (fun e => e.2.data [])).getLast? = none) : lastHeld zero vs l = zeros zero vs := by
  simp only [lastHeld]; rw [h]

/-- The same array: the same shape and the same entries. -/
def Same (a b : Arr R) : Prop := a.shape = b.shape ∧ ∀ idx, idx.length = a.shape.length → a.data idx = b.data idx

/-! ## What is stored -/

section generic

variable (sh : List Nat) (view : Arr R → Arr R) (pv : Arr Bool → Bool)

/-- The entry `q` stands for the sows `E` (values and predicates as seen by `view`). -/
def Repr (E : List (Arr R × Bool)) (q : Arr R × Arr Bool) : Prop :=
  q.1.shape = sh ∧ pv q.2 = E.any (·.2) ∧ ∀ e, (E.filter (·.2)).getLast? = some e → view q.1 = e.1

def ReprO (E : List (Arr R × Bool)) : Option (Arr R × Arr Bool) → Prop
  | none => E = []
  | some q => Repr sh view pv E q

/-- How `pv` reads predicates. -/
structure Reads : Prop where
  scalar : ∀ p : Arr Bool, p.shape = [] → pv p = p.data []
  or : ∀ p q : Arr Bool, p.shape = [] → pv (orPred p q) = (p.data [] || pv q)

variable {sh view pv}

theorem store_repr (hr : Reads pv) {E : List (Arr R × Bool)} {prev v p q} (hv : v.shape = sh)
    (hE : ReprO sh view pv E prev) (h : store prev v p = .ok q) : Repr sh view pv (E ++ [(view v, pv p)]) q := by
  rcases prev with _ | ⟨v0, p0⟩
  · simp only [ReprO] at hE
    subst hE
    simp only [store, Except.ok.injEq] at h
    subst h
    refine ⟨hv, by simp, ?_⟩
    intro e he
    by_cases hp : pv p = true
    · simp [hp] at he; rw [← he]
    · simp [hp] at he
  · obtain ⟨h1, h2, h3⟩ := hE
    simp only [store, laxCond] at h
    by_cases hs : p.shape = []
    · rw [if_neg (Decidable.not_not.2 hs)] at h
      by_cases hsh : v.shape = v0.shape
      · rw [if_neg (Decidable.not_not.2 hsh)] at h
        simp only [Except.map, Except.ok.injEq] at h
        subst h
        have hpp := hr.scalar p hs
        refine ⟨?_, ?_, ?_⟩
        · dsimp only; split
          · exact hv
          · exact h1
        · rw [hr.or p p0 hs, h2]
          simp [hpp, Bool.or_comm]
        · intro e he
          rw [hpp] at he
          by_cases hp : p.data [] = true
          · simp [hp] at he ⊢; rw [← he]
          · simp only [hp, Bool.false_eq_true, if_false]
            refine h3 e ?_
            simpa [hp] using he
      · rw [if_pos hsh] at h; simp [Except.map] at h
    · rw [if_pos hs] at h; simp [Except.map] at h

theorem storeAll_repr (hr : Reads pv) : ∀ (l : List (Arr R × Arr Bool)) {E : List (Arr R × Bool)} {prev q},
    (∀ e ∈ l, e.1.shape = sh) → ReprO sh view pv E prev → storeAll prev l = .ok q →
      ReprO sh view pv (E ++ l.map (fun e => (view e.1, pv e.2))) q
  | [], E, prev, q, _, hE, h => by
    simp only [storeAll, Except.ok.injEq] at h
    subst h
    simpa using hE
  | e :: l, E, prev, q, hl, hE, h => by
    simp only [storeAll] at h
    rcases hs : store prev e.1 e.2 with er | q1
    · rw [hs] at h; simp [bind, Except.bind] at h
    · rw [hs] at h
      have h1 := store_repr hr (hl e (by simp)) hE hs
      have h2 := storeAll_repr hr l (prev := some q1) (fun e he => hl e (by simp [he])) h1 h
      simpa using h2

theorem bodyReap_repr (hr : Reads pv) {first : Nat → Arr R × Arr Bool} {more t q}
    (h1 : (first t).1.shape = sh) (h2 : ∀ e ∈ more, (e t).1.shape = sh) (h : bodyReap first more t = .ok q) :
    Repr sh view pv ((first t :: more.map (fun e => e t)).map (fun e => (view e.1, pv e.2))) q := by
  simp only [bodyReap] at h
  rcases hs : storeAll (some (first t)) (more.map (fun e => e t)) with er | q1
  · rw [hs] at h; simp [bind, Except.bind] at h
  · rw [hs] at h
    have h0 : Repr sh view pv [(view (first t).1, pv (first t).2)] (first t) := by
      have := store_repr (E := []) (prev := none) (v := (first t).1) (p := (first t).2) hr h1
        (show ReprO sh view pv [] none from rfl) rfl
      simpa using this
    have h3 := storeAll_repr hr (more.map (fun e => e t)) (E := [(view (first t).1, pv (first t).2)])
      (prev := some (first t)) (by simpa using h2) h0 hs
    rcases q1 with _ | q1
    · simp [ReprO] at h3
    · have : q1 = q := by simpa [bind, Except.bind] using h
      subst this
      simpa [ReprO] using h3

/-- The carried value and predicate stand for the sows so far. -/
def ReprC (sh : List Nat) (view : Arr R → Arr R) (E : List (Arr R × Bool)) (c : Arr R × Bool) : Prop :=
  c.1.shape = sh ∧ c.2 = E.any (·.2) ∧ ∀ e, (E.filter (·.2)).getLast? = some e → view c.1 = e.1

theorem getLast?_append_some {α : Type} (l r : List α) (e : α) (h : (l ++ r).getLast? = some e) :
    r.getLast? = some e ∨ r = [] ∧ l.getLast? = some e := by
  rcases r with _ | ⟨a, r⟩
  · right; simpa using h
  · left
    rw [List.getLast?_append] at h
    rcases hh : (a :: r).getLast? with _ | b
    · simp at hh
    · rw [hh] at h; simpa using h

theorem updateCarry_repr (hr : Reads pv) {E F : List (Arr R × Bool)} {c q c'} (hc : ReprC sh view E c)
    (hq : Repr sh view pv F q) (h : updateCarry c q = .ok c') : ReprC sh view (E ++ F) c' := by
  simp only [updateCarry] at h
  by_cases hs : q.2.shape = []
  · rw [if_neg (Decidable.not_not.2 hs)] at h
    by_cases hsh : q.1.shape = c.1.shape
    · rw [if_neg (Decidable.not_not.2 hsh)] at h
      simp only [Except.ok.injEq] at h
      have hp := hq.2.1
      rw [hr.scalar _ hs] at hp
      by_cases hd : q.2.data [] = true
      · simp only [hd, if_true] at h
        subst h
        refine ⟨hq.1, ?_, ?_⟩
        · rw [List.any_append, ← hp, hd]; simp
        · intro e he
          rw [List.filter_append] at he
          rcases getLast?_append_some _ _ _ he with h | ⟨h, -⟩
          · exact hq.2.2 e h
          · exfalso
            rw [hd] at hp
            obtain ⟨x, hx, hx2⟩ := List.any_eq_true.1 hp.symm
            have : x ∈ F.filter (·.2) := List.mem_filter.2 ⟨hx, hx2⟩
            rw [h] at this; simp at this
      · have hd' : q.2.data [] = false := by simpa using hd
        simp only [hd', Bool.false_eq_true, if_false] at h
        subst h
        rw [hd'] at hp
        have hF : F.filter (·.2) = [] := by
          refine List.filter_eq_nil_iff.2 (fun x hx hx2 => ?_)
          have := List.any_eq_false.1 hp.symm x hx
          exact this hx2
        refine ⟨hc.1, ?_, ?_⟩
        · rw [List.any_append, ← hp, hc.2.1]; simp
        · intro e he
          rw [List.filter_append, hF, List.append_nil] at he
          exact hc.2.2 e he
    · rw [if_pos hsh] at h; simp at h
  · rw [if_pos hs] at h; simp at h

theorem steps_repr (hr : Reads pv) {first : Nat → Arr R × Arr Bool} {more} (h1 : ∀ t, (first t).1.shape = sh)
    (h2 : ∀ e ∈ more, ∀ t, (e t).1.shape = sh) : ∀ (k t : Nat) {E : List (Arr R × Bool)} {c c'},
    ReprC sh view E c → steps first more k t c = .ok c' →
    ReprC sh view (E ++ ((List.range' t k).flatMap (fun t => first t :: more.map (fun e => e t))).map
      (fun e => (view e.1, pv e.2))) c'
  | 0, t, E, c, c', hc, h => by
    simp only [steps, Except.ok.injEq] at h
    subst h
    simpa using hc
  | k + 1, t, E, c, c', hc, h => by
    simp only [steps] at h
    rcases hb : bodyReap first more t with er | q
    · rw [hb] at h; simp [bind, Except.bind] at h
    rw [hb] at h
    simp only [bind, Except.bind] at h
    rcases hu : updateCarry c q with er | c1
    · rw [hu] at h; simp at h
    rw [hu] at h
    have hq := bodyReap_repr (view := view) hr (h1 t) (fun e he => h2 e he t) hb
    have hc1 := updateCarry_repr hr hc hq hu
    have := steps_repr hr h1 h2 k (t + 1) hc1 h
    simpa [List.range'_succ] using this

/-- The values have the shape `sh`. -/
def ShapesOk (sh : List Nat) (it : Item (Arr R) (Arr Bool)) : Prop := it.All (fun v _ => v.shape = sh)

theorem loopReap_repr (hr : Reads pv) (zero : R) {k} {first : Nat → Arr R × Arr Bool} {more c}
    (h1 : ∀ t, (first t).1.shape = sh) (h2 : ∀ e ∈ more, ∀ t, (e t).1.shape = sh)
    (h : loopReap zero k first more = .ok c) :
    ReprC sh view (((List.range k).flatMap (fun t => first t :: more.map (fun e => e t))).map
      (fun e => (view e.1, pv e.2))) c := by
  simp only [loopReap] at h
  rcases hb : bodyReap first more 0 with er | q
  · rw [hb] at h; simp [bind, Except.bind] at h
  rw [hb] at h
  simp only [bind, Except.bind] at h
  rcases hu : updateCarry (zeros zero q.1.shape, false) q with er | c1
  · rw [hu] at h; simp at h
  rw [hu] at h
  have hq := bodyReap_repr (view := view) hr (h1 0) (fun e he => h2 e he 0) hb
  have hc0 : ReprC sh view [] (zeros zero q.1.shape, false) := ⟨hq.1, rfl, by simp⟩
  have := steps_repr hr h1 h2 k 0 hc0 h
  simpa [List.range_eq_range'] using this

theorem collect_repr (hr : Reads pv) (zero : R) : ∀ (h : List (Item (Arr R) (Arr Bool))) {E : List (Arr R × Bool)} {prev q},
    (∀ it ∈ h, ShapesOk sh it) → ReprO sh view pv E prev → collect zero prev h = .ok q →
    ReprO sh view pv (E ++ (executed h).map (fun e => (view e.1, pv e.2))) q ∧ (q = none → h = [])
  | [], E, prev, q, _, hE, h => by
    simp only [collect, Except.ok.injEq] at h
    subst h
    exact ⟨by simpa [executed] using hE, fun _ => rfl⟩
  | .sow v p :: l, E, prev, q, hl, hE, h => by
    simp only [collect] at h
    rcases hs : store prev v p with er | q1
    · rw [hs] at h; simp [bind, Except.bind] at h
    rw [hs] at h
    have h0 := hl _ (List.mem_cons_self ..)
    have h1 := store_repr hr h0 hE hs
    have h2 := collect_repr hr zero l (prev := some q1) (fun e he => hl e (by simp [he])) h1 h
    refine ⟨by simpa [executed] using h2.1, fun hq => ?_⟩
    have := h2.2 hq
    subst this
    rw [hq] at h
    simp [collect, bind, Except.bind] at h
  | .loop k first more :: l, E, prev, q, hl, hE, h => by
    simp only [collect] at h
    rcases hb : loopReap zero k first more with er | c
    · rw [hb] at h; simp [bind, Except.bind] at h
    rw [hb] at h
    simp only [bind, Except.bind] at h
    rcases hs : store prev c.1 ⟨[], fun _ => c.2⟩ with er | q1
    · rw [hs] at h; simp at h
    rw [hs] at h
    have h0 : ShapesOk sh (.loop k first more) := hl _ (List.mem_cons_self ..)
    have hc := loopReap_repr (view := view) hr zero h0.1 h0.2 hb
    have h1 := store_repr hr hc.1 hE hs
    rw [hr.scalar _ rfl] at h1
    -- one sow of the carried value stands for the sows of the loop
    have h1' : Repr sh view pv (E ++ ((List.range k).flatMap (fun t => first t :: more.map (fun e => e t))).map
        (fun e => (view e.1, pv e.2))) q1 := by
      obtain ⟨a1, a2, a3⟩ := h1
      obtain ⟨c1, c2, c3⟩ := hc
      refine ⟨a1, ?_, ?_⟩
      · rw [a2, List.any_append, List.any_append, ← c2]; simp
      · intro e he
        rw [List.filter_append] at he
        rcases getLast?_append_some _ _ _ he with h | ⟨h, h'⟩
        · have hcv := c3 e h
          have hct : c.2 = true := by
            rw [c2]
            have hm := List.mem_filter.1 (List.mem_of_getLast? h)
            exact List.any_eq_true.2 ⟨e, hm.1, hm.2⟩
          refine (a3 (view c.1, true) ?_).trans hcv
          simp [List.filter_append, hct]
        · have hct : c.2 = false := by
            rw [c2]
            refine List.any_eq_false.2 (fun x hx hx2 => ?_)
            have : x ∈ List.filter (·.2) _ := List.mem_filter.2 ⟨hx, hx2⟩
            rw [h] at this; simp at this
          refine a3 e ?_
          simpa [List.filter_append, hct] using h'
    have h2 := collect_repr hr zero l (prev := some q1) (fun e he => hl e (by simp [he])) h1' h
    refine ⟨by simpa [executed] using h2.1, fun hq => ?_⟩
    have := h2.2 hq
    subst this
    rw [hq] at h
    simp [collect] at h

end generic

/-! ## Which histories are accepted -/

section accept

variable {sh : List Nat}

theorem store_some {q : Arr R × Arr Bool} {v p} (hq : q.1.shape = sh) (hv : v.shape = sh) :
    ((∃ r, store (some q) v p = .ok r) ↔ p.shape = []) ∧
      ∀ r, store (some q) v p = .ok r → r.1.shape = sh ∧ r.2.shape = q.2.shape := by
  simp only [store, laxCond]
  by_cases hs : p.shape = []
  · rw [if_neg (Decidable.not_not.2 hs), if_neg (Decidable.not_not.2 (hv.trans hq.symm))]
    refine ⟨by simp [Except.map, hs], ?_⟩
    intro r h
    simp only [Except.map, Except.ok.injEq] at h
    subst h
    refine ⟨?_, rfl⟩
    dsimp only; split
    · exact hv
    · exact hq
  · rw [if_pos hs]
    simp [Except.map, hs]

theorem storeAll_some : ∀ (l : List (Arr R × Arr Bool)) {q : Arr R × Arr Bool}, q.1.shape = sh →
    (∀ e ∈ l, e.1.shape = sh) →
    ((∃ r, storeAll (some q) l = .ok r) ↔ ∀ e ∈ l, e.2.shape = []) ∧
      ∀ r, storeAll (some q) l = .ok r → ∃ q', r = some q' ∧ q'.1.shape = sh ∧ q'.2.shape = q.2.shape
  | [], q, hq, _ => by
    refine ⟨by simp [storeAll], ?_⟩
    intro r h
    simp only [storeAll, Except.ok.injEq] at h
    exact ⟨q, h.symm, hq, rfl⟩
  | e :: l, q, hq, hl => by
    obtain ⟨a1, a2⟩ := store_some (q := q) (p := e.2) hq (hl e (by simp))
    simp only [storeAll, List.mem_cons, forall_eq_or_imp]
    rcases hs : store (some q) e.1 e.2 with er | q1
    · rw [hs] at a1
      have : ¬ e.2.shape = [] := fun h => by have := a1.2 h; simp at this
      simp [bind, Except.bind, this]
    · obtain ⟨s1, s2⟩ := a2 q1 hs
      have he := a1.1 ⟨q1, hs⟩
      obtain ⟨b1, b2⟩ := storeAll_some l (q := q1) s1 (fun e he => hl e (by simp [he]))
      simp only [bind, Except.bind]
      refine ⟨by rw [b1]; simp [he], ?_⟩
      intro r hr
      obtain ⟨q', h1, h2, h3⟩ := b2 r hr
      exact ⟨q', h1, h2, h3.trans s2⟩

theorem bodyReap_iff {first : Nat → Arr R × Arr Bool} {more t} (h1 : (first t).1.shape = sh)
    (h2 : ∀ e ∈ more, (e t).1.shape = sh) :
    ((∃ q, bodyReap first more t = .ok q) ↔ ∀ e ∈ more, (e t).2.shape = []) ∧
      ∀ q, bodyReap first more t = .ok q → q.1.shape = sh ∧ q.2.shape = (first t).2.shape := by
  obtain ⟨a1, a2⟩ := storeAll_some (more.map (fun e => e t)) h1 (by simpa using h2)
  simp only [bodyReap]
  rcases hs : storeAll (some (first t)) (more.map (fun e => e t)) with er | r
  · rw [hs] at a1
    simp only [reduceCtorEq, exists_false, false_iff] at a1
    simp only [hs, bind, Except.bind, reduceCtorEq, exists_false, false_iff, false_implies, implies_true, and_true]
    simpa using a1
  · obtain ⟨q', rfl, h3, h4⟩ := a2 r hs
    have := a1.1 ⟨_, hs⟩
    simp only [hs, bind, Except.bind, Except.ok.injEq, exists_eq', true_iff]
    refine ⟨by simpa using this, ?_⟩
    rintro q rfl
    exact ⟨h3, h4⟩

theorem updateCarry_iff {c : Arr R × Bool} {q : Arr R × Arr Bool} (hc : c.1.shape = sh) (hq : q.1.shape = sh) :
    ((∃ c', updateCarry c q = .ok c') ↔ q.2.shape = []) ∧ ∀ c', updateCarry c q = .ok c' → c'.1.shape = sh := by
  simp only [updateCarry]
  by_cases hs : q.2.shape = []
  · rw [if_neg (Decidable.not_not.2 hs), if_neg (Decidable.not_not.2 (hq.trans hc.symm))]
    refine ⟨by simp [hs], ?_⟩
    intro c' h
    simp only [Except.ok.injEq] at h
    subst h
    split
    · exact hq
    · exact hc
  · rw [if_pos hs]; simp [hs]

theorem steps_ok {first : Nat → Arr R × Arr Bool} {more} (h1 : ∀ t, (first t).1.shape = sh)
    (h2 : ∀ e ∈ more, ∀ t, (e t).1.shape = sh) (h3 : ∀ t, (first t).2.shape = [])
    (h4 : ∀ e ∈ more, ∀ t, (e t).2.shape = []) : ∀ (k t : Nat) (c : Arr R × Bool), c.1.shape = sh →
    ∃ c', steps first more k t c = .ok c'
  | 0, _, c, _ => ⟨c, rfl⟩
  | k + 1, t, c, hc => by
    obtain ⟨a1, a2⟩ := bodyReap_iff (more := more) (h1 t) (fun e he => h2 e he t)
    obtain ⟨q, hq⟩ := a1.2 (fun e he => h4 e he t)
    obtain ⟨s1, s2⟩ := a2 q hq
    obtain ⟨b1, b2⟩ := updateCarry_iff (q := q) hc s1
    obtain ⟨c1, hc1⟩ := b1.2 (s2.trans (h3 t))
    obtain ⟨c', h⟩ := steps_ok h1 h2 h3 h4 k (t + 1) c1 (b2 c1 hc1)
    exact ⟨c', by simp only [steps, hq, bind, Except.bind, hc1, h]⟩

/-- All predicates of the item are scalars. -/
def Scalar (it : Item (Arr R) (Arr Bool)) : Prop := it.All (fun _ p => p.shape = [])

theorem loopReap_iff (zero : R) {k} {first : Nat → Arr R × Arr Bool} {more} (hs : ShapesOk sh (.loop k first more))
    (hu : (Item.loop k first more).Uniform (fun p => decide (p.shape = []))) :
    ((∃ c, loopReap zero k first more = .ok c) ↔ Scalar (.loop k first more)) ∧
      ∀ c, loopReap zero k first more = .ok c → c.1.shape = sh := by
  have hu1 : ∀ t, (first t).2.shape = [] ↔ (first 0).2.shape = [] := fun t => by simpa using hu.1 t
  have hu2 : ∀ e ∈ more, ∀ t, (e t).2.shape = [] ↔ (e 0).2.shape = [] := fun e he t => by simpa using hu.2 e he t
  have hsc : Scalar (.loop k first more) ↔ (first 0).2.shape = [] ∧ ∀ e ∈ more, (e 0).2.shape = [] := by
    simp only [Scalar, Item.All]
    exact ⟨fun h => ⟨h.1 0, fun e he => h.2 e he 0⟩,
      fun h => ⟨fun t => (hu1 t).2 h.1, fun e he t => (hu2 e he t).2 (h.2 e he)⟩⟩
  refine ⟨?_, ?_⟩
  · obtain ⟨a1, a2⟩ := bodyReap_iff (more := more) (hs.1 0) (fun e he => hs.2 e he 0)
    constructor
    · rintro ⟨c, h⟩
      simp only [loopReap] at h
      rcases hb : bodyReap first more 0 with er | q
      · rw [hb] at h; simp [bind, Except.bind] at h
      rw [hb] at h
      simp only [bind, Except.bind] at h
      rcases hup : updateCarry (zeros zero q.1.shape, false) q with er | c1
      · rw [hup] at h; simp at h
      obtain ⟨s1, s2⟩ := a2 q hb
      have := (updateCarry_iff (sh := sh) (c := (zeros zero q.1.shape, false)) (q := q) s1 s1).1.1 ⟨c1, hup⟩
      exact hsc.2 ⟨s2 ▸ this, a1.1 ⟨q, hb⟩⟩
    · intro h
      obtain ⟨q, hq⟩ := a1.2 (hsc.1 h).2
      obtain ⟨s1, s2⟩ := a2 q hq
      obtain ⟨b1, -⟩ := updateCarry_iff (sh := sh) (c := (zeros zero q.1.shape, false)) (q := q) s1 s1
      obtain ⟨c1, hc1⟩ := b1.2 (s2.trans (hsc.1 h).1)
      obtain ⟨c', hc'⟩ := steps_ok hs.1 hs.2 h.1 h.2 k 0 (zeros zero q.1.shape, false) s1
      exact ⟨c', by simp only [loopReap, hq, bind, Except.bind, hc1, hc']⟩
  · intro c h
    have hr : Reads (fun p => p.data []) := ⟨fun _ _ => rfl, fun _ _ _ => rfl⟩
    exact (loopReap_repr (view := id) hr zero hs.1 hs.2 h).1

theorem collect_some (zero : R) : ∀ (h : List (Item (Arr R) (Arr Bool))) {q : Arr R × Arr Bool}, q.1.shape = sh →
    (∀ it ∈ h, ShapesOk sh it ∧ it.Uniform (fun p => decide (p.shape = []))) →
    ((∃ r, collect zero (some q) h = .ok r) ↔ ∀ it ∈ h, Scalar it) ∧
      ∀ r, collect zero (some q) h = .ok r → ∃ q', r = some q' ∧ q'.1.shape = sh ∧ q'.2.shape = q.2.shape
  | [], q, hq, _ => by
    refine ⟨by simp [collect], ?_⟩
    intro r h
    simp only [collect, Except.ok.injEq] at h
    exact ⟨q, h.symm, hq, rfl⟩
  | .sow v p :: l, q, hq, hl => by
    obtain ⟨a1, a2⟩ := store_some (q := q) (p := p) hq (hl _ (List.mem_cons_self ..)).1
    simp only [collect, List.mem_cons, forall_eq_or_imp]
    rcases hs : store (some q) v p with er | q1
    · rw [hs] at a1
      have : ¬ Scalar (.sow v p) := fun h => by have := a1.2 h; simp at this
      simp [bind, Except.bind, this]
    · obtain ⟨s1, s2⟩ := a2 q1 hs
      have he : Scalar (.sow v p) := a1.1 ⟨q1, hs⟩
      obtain ⟨b1, b2⟩ := collect_some zero l (q := q1) s1 (fun e he => hl e (by simp [he]))
      simp only [bind, Except.bind]
      refine ⟨by rw [b1]; simp [he], ?_⟩
      intro r hr
      obtain ⟨q', h1, h2, h3⟩ := b2 r hr
      exact ⟨q', h1, h2, h3.trans s2⟩
  | .loop k first more :: l, q, hq, hl => by
    obtain ⟨a1, a2⟩ := loopReap_iff zero (hl _ (List.mem_cons_self ..)).1 (hl _ (List.mem_cons_self ..)).2
    simp only [collect, List.mem_cons, forall_eq_or_imp]
    rcases hs : loopReap zero k first more with er | c
    · rw [hs] at a1
      have : ¬ Scalar (.loop k first more) := fun h => by have := a1.2 h; simp at this
      simp [bind, Except.bind, this]
    · have he := a1.1 ⟨c, hs⟩
      obtain ⟨c1, c2⟩ := store_some (q := q) (p := ⟨[], fun _ => c.2⟩) hq (a2 c hs)
      obtain ⟨q1, hq1⟩ := c1.2 rfl
      obtain ⟨s1, s2⟩ := c2 q1 hq1
      obtain ⟨b1, b2⟩ := collect_some zero l (q := q1) s1 (fun e he => hl e (by simp [he]))
      simp only [bind, Except.bind, hq1]
      refine ⟨by rw [b1]; simp [he], ?_⟩
      intro r hr
      obtain ⟨q', h1, h2, h3⟩ := b2 r hr
      exact ⟨q', h1, h2, h3.trans s2⟩

/-- The stored predicate has the shape of one of the sown ones, or is a scalar. -/
theorem collect_predShape (Q : List Nat → Prop) (hQ : Q []) (zero : R) : ∀ (h : List (Item (Arr R) (Arr Bool)))
    (_ : ∀ it ∈ h, it.All (fun _ p => Q p.shape)) {prev q}, (∀ r, prev = some r → Q r.2.shape) →
    collect zero prev h = .ok q → ∀ r, q = some r → Q r.2.shape := by
  have hst : ∀ {prev : Option (Arr R × Arr Bool)} {v p q}, (∀ r, prev = some r → Q r.2.shape) → Q p.shape →
      store prev v p = .ok q → Q q.2.shape := by
    intro prev v p q hp hpp h
    rcases prev with _ | ⟨v0, p0⟩
    · simp only [store, Except.ok.injEq] at h
      subst h; exact hpp
    · simp only [store] at h
      rcases hl : laxCond p v v0 with e | w
      · rw [hl] at h; simp [Except.map] at h
      · rw [hl] at h
        simp only [Except.map, Except.ok.injEq] at h
        subst h
        exact hp (v0, p0) rfl
  intro h
  induction h with
  | nil =>
    intro _ prev q hp h
    simp only [collect, Except.ok.injEq] at h
    subst h; exact hp
  | cons it l ih =>
    intro hl prev q hp h
    rcases it with ⟨v, p⟩ | ⟨k, first, more⟩
    · simp only [collect] at h
      rcases hs : store prev v p with e | q1
      · rw [hs] at h; simp [bind, Except.bind] at h
      · rw [hs] at h
        exact ih (fun i hi => hl i (by simp [hi])) (prev := some q1)
          (by rintro r ⟨⟩; exact hst hp (hl _ (List.mem_cons_self ..)) hs) h
    · simp only [collect] at h
      rcases hb : loopReap zero k first more with e | c
      · rw [hb] at h; simp [bind, Except.bind] at h
      rw [hb] at h
      simp only [bind, Except.bind] at h
      rcases hs : store prev c.1 ⟨[], fun _ => c.2⟩ with e | q1
      · rw [hs] at h; simp at h
      · rw [hs] at h
        exact ih (fun i hi => hl i (by simp [hi])) (prev := some q1)
          (by rintro r ⟨⟩; exact hst hp hQ hs) h

end accept

/-! ## The property -/

theorem executed_map {X Y X' Y' : Type} (f : X → X') (g : Y → Y') : ∀ h : List (Item X Y),
    executed (h.map (Item.map f g)) = (executed h).map (fun e => (f e.1, g e.2))
  | [] => rfl
  | .sow v p :: l => by simp [executed, Item.map, executed_map f g l]
  | .loop k first more :: l => by
    simp [executed, Item.map, executed_map f g l, List.map_flatMap, Function.comp_def]

theorem Item.All_map {X Y X' Y' : Type} (f : X → X') (g : Y → Y') (P : X' → Y' → Prop) : ∀ it : Item X Y,
    (it.map f g).All P ↔ it.All (fun v p => P (f v) (g p))
  | .sow v p => Iff.rfl
  | .loop k first more => by simp [Item.All, Item.map]

theorem Item.Uniform_map {X Y X' Y' : Type} (f : X → X') (g : Y → Y') (s : Y' → Bool) : ∀ it : Item X Y,
    (it.map f g).Uniform s ↔ it.Uniform (fun p => s (g p))
  | .sow v p => Iff.rfl
  | .loop k first more => by simp [Item.Uniform, Item.map]

theorem Item.All.imp {X Y : Type} {P Q : X → Y → Prop} (h : ∀ v p, P v p → Q v p) : ∀ it : Item X Y, it.All P → it.All Q
  | .sow v p, hi => h v p hi
  | .loop _ _ _, hi => ⟨fun t => h _ _ (hi.1 t), fun e he t => h _ _ (hi.2 e he t)⟩

theorem Item.Uniform.congr {X Y : Type} {s s' : Y → Bool} {P : X → Y → Prop} (h : ∀ v p, P v p → s p = s' p) :
    ∀ it : Item X Y, it.All P → it.Uniform s → it.Uniform s'
  | .sow _ _, _, _ => trivial
  | .loop _ _ _, ha, hu => ⟨fun t => by rw [← h _ _ (ha.1 t), ← h _ _ (ha.1 0)]; exact hu.1 t,
      fun e he t => by rw [← h _ _ (ha.2 e he t), ← h _ _ (ha.2 e he 0)]; exact hu.2 e he t⟩

/-- Without `vmap`: `reap` returns the last value whose predicate held, else zeros, for every history of conditional sows of
one shape with scalar predicates. -/
theorem reap_cond (zero : R) (vs : List Nat) (h : List (Item (Arr R) (Arr Bool)))
    (hs : ∀ it ∈ h, it.All (fun v p => v.shape = vs ∧ p.shape = [])) :
    reap zero h = .ok (if h = [] then none else some (lastHeld zero vs (executed h))) := by
  have hr : Reads (fun p => p.data []) := ⟨fun _ _ => rfl, fun _ _ _ => rfl⟩
  have hsh : ∀ it ∈ h, ShapesOk vs it := fun it hi => (hs it hi).imp (fun _ _ h => h.1)
  have hsc : ∀ it ∈ h, Scalar it := fun it hi => (hs it hi).imp (fun _ _ h => h.2)
  have hun : ∀ it ∈ h, it.Uniform (fun p => decide (p.shape = [])) := fun it hi =>
    match it, hsc it hi with
    | .sow _ _, _ => trivial
    | .loop _ _ _, h => ⟨fun t => by simp [h.1 t, h.1 0], fun e he t => by simp [h.2 e he t, h.2 e he 0]⟩
  have hok : ∃ q, collect zero none h = .ok q ∧ ∀ q', q = some q' → q'.2.shape = [] := by
    rcases h with _ | ⟨it, l⟩
    · exact ⟨none, rfl, by simp⟩
    · have hl : ∀ it ∈ l, ShapesOk vs it ∧ it.Uniform (fun p => decide (p.shape = [])) := fun i hi =>
        ⟨hsh i (by simp [hi]), hun i (by simp [hi])⟩
      have hls : ∀ it ∈ l, Scalar it := fun i hi => hsc i (by simp [hi])
      have h0 := hsh it (by simp)
      have h1 := hsc it (by simp)
      have h2 := hun it (by simp)
      rcases it with ⟨v, p⟩ | ⟨k, first, more⟩
      · obtain ⟨a1, a2⟩ := collect_some zero l (q := (v, p)) h0 hl
        obtain ⟨r, hr⟩ := a1.2 hls
        refine ⟨r, by simp only [collect, store, bind, Except.bind]; exact hr, ?_⟩
        rintro q' rfl
        obtain ⟨q1, e1, -, e3⟩ := a2 _ hr
        cases e1
        exact e3.trans h1
      · obtain ⟨b1, b2⟩ := loopReap_iff zero h0 h2
        obtain ⟨c, hc⟩ := b1.2 h1
        obtain ⟨a1, a2⟩ := collect_some zero l (q := (c.1, ⟨[], fun _ => c.2⟩)) (b2 c hc) hl
        obtain ⟨r, hr⟩ := a1.2 hls
        refine ⟨r, by simp only [collect, hc, store, bind, Except.bind]; exact hr, ?_⟩
        rintro q' rfl
        obtain ⟨q1, e1, -, e3⟩ := a2 _ hr
        cases e1
        exact e3
  obtain ⟨q, hq, hp⟩ := hok
  obtain ⟨c1, c2⟩ := collect_repr (sh := vs) (view := id) hr zero h (E := []) (prev := none) hsh rfl hq
  simp only [reap, hq, bind, Except.bind]
  rcases q with _ | q
  · rw [c2 rfl]; simp
  · have hne : h ≠ [] := by rintro rfl; simp [collect] at hq
    have hp' := hp q rfl
    rw [if_neg hne]
    simp only [select, hp', if_true, Except.map, Except.ok.injEq, Option.some.injEq]
    obtain ⟨d1, d2, d3⟩ := c1
    simp only [List.nil_append, id] at d2 d3
    have hf : (List.map (fun e : Arr R × Arr Bool => (e.1, e.2.data [])) (executed h)).filter (·.2) =
        ((executed h).filter (fun e => e.2.data [])).map (fun e => (e.1, e.2.data [])) := by
      rw [List.filter_map]; rfl
    rw [hf] at d3
    rcases hg : ((executed h).filter (fun e => e.2.data [])).getLast? with _ | e
    · have hnil := List.getLast?_eq_none_iff.1 hg
      have : q.2.data [] = false := by
        rw [d2]
        refine List.any_eq_false.2 (fun x hx hx2 => ?_)
        obtain ⟨y, hy, rfl⟩ := List.mem_map.1 hx
        have : y ∈ (executed h).filter (fun e => e.2.data []) := List.mem_filter.2 ⟨hy, hx2⟩
        rw [hnil] at this; simp at this
      rw [lastHeld_none zero vs hg, this]
      simp [d1]
    · have hm := List.mem_filter.1 (List.mem_of_getLast? hg)
      have : q.2.data [] = true := by
        rw [d2]
        exact List.any_eq_true.2 ⟨(e.1, e.2.data []), List.mem_map.2 ⟨e, hm.1, rfl⟩, hm.2⟩
      rw [this, if_pos rfl, lastHeld_some zero vs hg]
      exact d3 (e.1, e.2.data []) (by simp [List.getLast?_map, hg])

/-- The predicate in lane `i`, read from the physical array. -/
def pvLane (i : Nat) (p : Arr Bool) : Bool := if p.shape = [] then p.data [] else p.data [i]

theorem reads_pvLane (i : Nat) : Reads (pvLane i) :=
  ⟨fun p hp => by simp [pvLane, hp], fun p q hp => by
    by_cases h : q.shape = [] <;> simp [pvLane, orPred, h]⟩

/-- C77: which functions can be reaped under `vmap`. -/
theorem cond_vmap_reapable_iff (zero : R) (n : Nat) (vs : List Nat) (h : List (Item (Batched R) (Batched Bool)))
    (hm : Mapped n vs h) : (∃ r, reapVmap zero h = .ok r) ↔ Reapable vs h := by
  have key : ∀ p : Batched Bool, ((p.2 = none ∧ p.1.shape = []) ∨ (p.2 = some 0 ∧ p.1.shape = [n])) →
      (p.1.shape = [] ↔ p.2 = none) := by
    rintro ⟨p, d⟩ (⟨h1, h2⟩ | ⟨h1, h2⟩) <;> simp_all
  have hsh : ∀ it ∈ h.map (Item.map Prod.fst Prod.fst), ShapesOk (n :: vs) it ∧
      it.Uniform (fun p => decide (p.shape = [])) := by
    intro it hi
    obtain ⟨jt, hj, rfl⟩ := List.mem_map.1 hi
    refine ⟨(Item.All_map _ _ _ jt).2 ((hm jt hj).1.imp (fun _ _ h => h.1.2)), (Item.Uniform_map _ _ _ jt).2 ?_⟩
    have hb : jt.Uniform (fun p => !p.2.isSome) := by
      have := (hm jt hj).2
      rcases jt with _ | ⟨k, f, m⟩
      · trivial
      · exact ⟨fun t => congrArg (!·) (this.1 t), fun e he t => congrArg (!·) (this.2 e he t)⟩
    refine Item.Uniform.congr ?_ jt (hm jt hj).1 hb
    rintro v p ⟨-, hp⟩
    have := key p hp
    rcases hp2 : p.2 with _ | d
    · simp [this.2 hp2]
    · have : ¬ p.1.shape = [] := fun h => by rw [this.1 h] at hp2; cases hp2
      simp [this]
  have hsc : ∀ it ∈ h, (Scalar (it.map Prod.fst Prod.fst) ↔ Unmapped it) := by
    intro it hi
    have ha := (hm it hi).1
    rcases it with ⟨v, p⟩ | ⟨k, first, more⟩
    · exact key p ha.2
    · simp only [Scalar, Unmapped, Item.All_map]
      simp only [Item.All]
      exact ⟨fun h => ⟨fun t => (key _ (ha.1 t).2).1 (h.1 t), fun e he t => (key _ (ha.2 e he t).2).1 (h.2 e he t)⟩,
        fun h => ⟨fun t => (key _ (ha.1 t).2).2 (h.1 t), fun e he t => (key _ (ha.2 e he t).2).2 (h.2 e he t)⟩⟩
  have hscl : ∀ l : List (Item (Batched R) (Batched Bool)), (∀ it ∈ l, it ∈ h) →
      ((∀ it ∈ l.map (Item.map Prod.fst Prod.fst), Scalar it) ↔ ∀ it ∈ l, Unmapped it) := by
    intro l hl
    simp only [List.mem_map, forall_exists_index, and_imp, forall_apply_eq_imp_iff₂]
    exact ⟨fun h it hi => (hsc it (hl it hi)).1 (h it hi), fun h it hi => (hsc it (hl it hi)).2 (h it hi)⟩
  rcases h with _ | ⟨it, l⟩
  · exact ⟨fun _ => trivial, fun _ => ⟨none, rfl⟩⟩
  · have hl := hscl l (fun it hi => by simp [hi])
    have h0 := hsh _ (List.mem_map_of_mem (List.mem_cons_self (a := it) (l := l)))
    have hl' : ∀ i ∈ l.map (Item.map Prod.fst Prod.fst), ShapesOk (n :: vs) i ∧
        i.Uniform (fun p => decide (p.shape = [])) := fun i hi => hsh i (by simp only [List.map_cons, List.mem_cons, hi, or_true])
    rcases it with ⟨v, p⟩ | ⟨k, first, more⟩
    · have hp := (hm _ (List.mem_cons_self ..)).1.2
      obtain ⟨a1, a2⟩ := collect_some zero _ (q := (v.1, p.1)) h0.1 hl'
      simp only [reapVmap, reap, List.map_cons, Item.map, collect, store, bind, Except.bind, Reapable]
      rw [← hl, ← a1]
      rcases hc : collect zero (some (v.1, p.1)) (l.map (Item.map Prod.fst Prod.fst)) with e | r
      · simp
      · obtain ⟨q', rfl, e2, e3⟩ := a2 r hc
        simp only [Except.ok.injEq, exists_eq', and_true, select, e3, e2]
        rcases hp with ⟨h1, h2⟩ | ⟨h1, h2⟩
        · simp [h1, h2, Except.map]
        · simp only [h1, h2, reduceCtorEq, if_false, List.cons.injEq, true_and, false_or]
          by_cases hv : vs = []
          · subst hv; simp [Except.map]
          · rw [if_neg (fun h => hv h.symm)]
            simp [Except.map, hv]
    · obtain ⟨b1, b2⟩ := loopReap_iff zero h0.1 h0.2
      have hit := hsc _ (List.mem_cons_self (a := Item.loop k first more) (l := l))
      simp only [reapVmap, reap, List.map_cons, Item.map, collect, bind, Except.bind, Reapable, List.mem_cons,
        forall_eq_or_imp]
      rw [← hl, ← hit]
      simp only [Item.map]
      rw [← b1]
      generalize hcc : loopReap zero k _ _ = o
      rcases o with e | c
      · simp
      · obtain ⟨a1, a2⟩ := collect_some zero _ (q := (c.1, ⟨[], fun _ => c.2⟩)) (b2 c hcc) hl'
        rw [← a1]
        simp only [Except.ok.injEq, exists_eq', true_and, store]
        rcases hc : collect zero (some (c.1, ⟨[], fun _ => c.2⟩)) (l.map (Item.map Prod.fst Prod.fst)) with e | r
        · simp
        · obtain ⟨q', rfl, e2, e3⟩ := a2 r hc
          simp [select, e3, Except.map]

/-- C77: when reaping the vmapped function returns, lane `i` of what is reaped is the last value of lane `i` whose predicate
held in lane `i`, else zeros. -/
theorem cond_vmap_lane (zero : R) (n : Nat) (vs : List Nat) (h : List (Item (Batched R) (Batched Bool)))
    (hm : Mapped n vs h) (hne : h ≠ []) (r) (hr : reapVmap zero h = .ok r) : ∃ y, r = some y ∧ y.shape = n :: vs ∧
      ∀ i, Same (take 0 i y) (lastHeld zero vs (executed (laneItems i h))) := by
  have hsh : ∀ it ∈ h.map (Item.map Prod.fst Prod.fst), ShapesOk (n :: vs) it := by
    intro it hi
    obtain ⟨jt, hj, rfl⟩ := List.mem_map.1 hi
    exact (Item.All_map _ _ _ jt).2 ((hm jt hj).1.imp (fun _ _ h => h.1.2))
  simp only [reapVmap, reap] at hr
  rcases hc : collect zero none (h.map (Item.map Prod.fst Prod.fst)) with e | q
  · rw [hc] at hr; simp [bind, Except.bind] at hr
  rw [hc] at hr
  simp only [bind, Except.bind] at hr
  have hall := fun i => collect_repr (sh := n :: vs) (view := take 0 i) (reads_pvLane i) zero _ (E := []) (prev := none)
    hsh rfl hc
  rcases q with _ | q
  · have := (hall 0).2 rfl
    simp at this
    exact absurd this hne
  have hq1 : q.1.shape = n :: vs := (hall 0).1.1
  -- the sows of lane `i`
  have hlane : ∀ i, executed (laneItems i h) = (executed h).map (fun e => (lane i e.1, lane i e.2)) := fun i =>
    executed_map _ _ h
  have hmem : ∀ e ∈ executed h, (e.1.2 = some 0 ∧ e.1.1.shape = n :: vs) ∧
      ((e.2.2 = none ∧ e.2.1.shape = []) ∨ (e.2.2 = some 0 ∧ e.2.1.shape = [n])) := by
    clear hall hr hc hsh hne hlane
    induction h with
    | nil => simp [executed]
    | cons it l ih =>
      have hl := ih (fun i hi => hm i (by simp [hi]))
      have h0 := (hm it (by simp)).1
      rcases it with ⟨v, p⟩ | ⟨k, first, more⟩
      · simp only [executed, List.mem_cons, forall_eq_or_imp]
        exact ⟨h0, hl⟩
      · simp only [executed, List.mem_append, List.mem_flatMap, List.mem_cons, List.mem_map]
        rintro e (⟨t, -, rfl | ⟨x, hx, rfl⟩⟩ | h)
        · exact h0.1 t
        · exact h0.2 x hx t
        · exact hl e h
  have hE : ∀ i, (executed (laneItems i h)).map (fun e => (e.1, e.2.data [])) =
      (executed (h.map (Item.map Prod.fst Prod.fst))).map (fun e => (take 0 i e.1, pvLane i e.2)) := by
    intro i
    rw [hlane, executed_map, List.map_map, List.map_map]
    refine List.map_congr_left (fun e he => ?_)
    obtain ⟨⟨h1, -⟩, h2⟩ := hmem e he
    simp only [Function.comp_apply, lane, h1]
    rcases h2 with ⟨h3, h4⟩ | ⟨h3, h4⟩
    · simp [h3, pvLane, h4]
    · simp [h3, pvLane, h4, take]
  have spec : ∀ i, (pvLane i q.2 = false → lastHeld zero vs (executed (laneItems i h)) = zeros zero vs) ∧
      (pvLane i q.2 = true → lastHeld zero vs (executed (laneItems i h)) = take 0 i q.1) := by
    intro i
    obtain ⟨-, d2, d3⟩ := (hall i).1
    simp only [List.nil_append] at d2 d3
    rw [← hE i] at d2 d3
    rw [List.filter_map, List.getLast?_map] at d3
    have hff : List.filter ((fun e : Arr R × Bool => e.2) ∘ fun e : Arr R × Arr Bool => (e.1, e.2.data []))
        (executed (laneItems i h)) = (executed (laneItems i h)).filter (fun e => e.2.data []) := rfl
    rw [hff] at d3
    rcases hg : ((executed (laneItems i h)).filter (fun e => e.2.data [])).getLast? with _ | e
    · refine ⟨fun _ => lastHeld_none zero vs hg, fun hp => ?_⟩
      exfalso
      rw [hp] at d2
      obtain ⟨x, hx, hx2⟩ := List.any_eq_true.1 d2.symm
      obtain ⟨y, hy, rfl⟩ := List.mem_map.1 hx
      have : y ∈ (executed (laneItems i h)).filter (fun e => e.2.data []) := List.mem_filter.2 ⟨hy, hx2⟩
      rw [List.getLast?_eq_none_iff.1 hg] at this; simp at this
    · have hm' := List.mem_filter.1 (List.mem_of_getLast? hg)
      refine ⟨fun hp => ?_, fun _ => ?_⟩
      · exfalso
        rw [hp] at d2
        exact List.any_eq_false.1 d2.symm (e.1, e.2.data []) (List.mem_map.2 ⟨e, hm'.1, rfl⟩) hm'.2
      · rw [hg] at d3
        exact (lastHeld_some zero vs hg).trans (d3 _ rfl).symm
  simp only [select] at hr
  by_cases hs : q.2.shape = []
  · rw [if_pos hs] at hr
    simp only [Except.map, Except.ok.injEq] at hr
    refine ⟨_, hr.symm, by split <;> simp [hq1, zeros], fun i => ?_⟩
    have hpv : pvLane i q.2 = q.2.data [] := by simp [pvLane, hs]
    rcases hb : q.2.data [] with _ | _
    · rw [(spec i).1 (hpv.trans hb)]
      exact ⟨by simp [take, zeros, hq1], fun idx _ => by simp [take, zeros]⟩
    · rw [(spec i).2 (hpv.trans hb)]
      exact ⟨by simp, fun idx _ => by simp⟩
  · rw [if_neg hs] at hr
    by_cases hs2 : q.2.shape = q.1.shape
    · rw [if_pos hs2] at hr
      simp only [Except.map, Except.ok.injEq] at hr
      have hps : q.2.shape = [] ∨ q.2.shape = [n] := by
        refine collect_predShape (fun s => s = [] ∨ s = [n]) (.inl rfl) zero _ ?_ (prev := none) (by simp) hc q rfl
        intro it hi
        obtain ⟨jt, hj, rfl⟩ := List.mem_map.1 hi
        refine (Item.All_map _ _ _ jt).2 ((hm jt hj).1.imp ?_)
        rintro v p ⟨-, h | h⟩
        · exact .inl h.2
        · exact .inr h.2
      have hvs : vs = [] := by
        have h := hps.resolve_left hs
        rw [hs2, hq1] at h
        simpa using h
      subst hvs
      refine ⟨_, hr.symm, hq1, fun i => ?_⟩
      have hpv : pvLane i q.2 = q.2.data [i] := by simp [pvLane, hs]
      rcases hb : q.2.data [i] with _ | _
      · rw [(spec i).1 (hpv.trans hb)]
        refine ⟨by simp [take, zeros, hq1], fun idx hi => ?_⟩
        have : idx = [] := by simpa [take, hq1] using hi
        subst this
        simp [take, zeros, hb]
      · rw [(spec i).2 (hpv.trans hb)]
        refine ⟨by simp [take], fun idx hi => ?_⟩
        have : idx = [] := by simpa [take, hq1] using hi
        subst this
        simp [take, hb]
    · rw [if_neg hs2] at hr; simp [Except.map] at hr

/-- The lanes of a mapped function can always be reaped. -/
theorem cond_lane (zero : R) (n : Nat) (vs : List Nat) (h : List (Item (Batched R) (Batched Bool)))
    (hm : Mapped n vs h) (hne : h ≠ []) (i : Nat) :
    reap zero (laneItems i h) = .ok (some (lastHeld zero vs (executed (laneItems i h)))) := by
  have := reap_cond zero vs (laneItems i h) (by
    intro it hi
    obtain ⟨jt, hj, rfl⟩ := List.mem_map.1 hi
    refine (Item.All_map _ _ _ jt).2 ((hm jt hj).1.imp ?_)
    rintro v p ⟨⟨h1, h2⟩, ⟨h3, h4⟩ | ⟨h3, h4⟩⟩ <;> simp [lane, take, *])
  rw [this, if_neg (by simpa [laneItems] using hne)]

/-- C77: `reap(vmap(f))` is `vmap(reap(f))` for the functions that are `Reapable`: in every lane the slice along axis 0 is
what the function reaps in that lane, which is the last value whose predicate held there, else zeros. -/
theorem cond_vmap_commutes_partial (zero : R) (n : Nat) (vs : List Nat) (h : List (Item (Batched R) (Batched Bool)))
    (hm : Mapped n vs h) (hne : h ≠ []) (hre : Reapable vs h) : ∃ y, reapVmap zero h = .ok (some y) ∧ y.shape = n :: vs ∧
      ∀ i, ∃ z, reap zero (laneItems i h) = .ok (some z) ∧ Same (take 0 i y) z ∧
        z = lastHeld zero vs (executed (laneItems i h)) := by
  obtain ⟨r, hr⟩ := (cond_vmap_reapable_iff zero n vs h hm).2 hre
  obtain ⟨y, rfl, h1, h2⟩ := cond_vmap_lane zero n vs h hm hne r hr
  exact ⟨y, hr, h1, fun i => ⟨_, cond_lane zero n vs h hm hne i, h2 i, rfl⟩⟩

/-- C77 (negation): every other function raises, although each of its lanes can be reaped. -/
theorem cond_vmap_raises (zero : R) (n : Nat) (vs : List Nat) (h : List (Item (Batched R) (Batched Bool)))
    (hm : Mapped n vs h) (hne : h ≠ []) (hre : ¬ Reapable vs h) : (∃ e, reapVmap zero h = .error e) ∧
      ∀ i, ∃ z, reap zero (laneItems i h) = .ok (some z) := by
  refine ⟨?_, fun i => ⟨_, cond_lane zero n vs h hm hne i⟩⟩
  rcases hr : reapVmap zero h with e | r
  · exact ⟨e, rfl⟩
  · exact absurd ((cond_vmap_reapable_iff zero n vs h hm).1 ⟨r, hr⟩) hre

/-! ## Cases -/

namespace Ex

/-- A vector along the batch axis. -/
def vec (l : List Nat) : Batched Nat := (⟨[l.length], fun i => l.getD (i.headD 0) 0⟩, some 0)
def bools (l : List Bool) : Batched Bool := (⟨[l.length], fun i => l.getD (i.headD 0) false⟩, some 0)
def flag (b : Bool) : Batched Bool := (⟨[], fun _ => b⟩, none)

/-- A mapped predicate, then a predicate that is not mapped, then a loop of three steps. -/
def good : List (Item (Batched Nat) (Batched Bool)) :=
  [.sow (vec [5, 6]) (bools [true, false]), .sow (vec [7, 8]) (flag false),
    .loop 3 (fun t => (vec [10 * t, 10 * t + 1], flag (t == 1))) [fun _ => (vec [0, 0], flag false)]]

theorem good_mapped : Mapped 2 [] good := by
  intro it hi
  simp only [good, List.mem_cons, List.not_mem_nil, or_false] at hi
  rcases hi with rfl | rfl | rfl <;> simp [Item.All, Item.Uniform, vec, bools, flag]

theorem good_reapable : Reapable [] good := by
  simp [good, Reapable, Unmapped, Item.All, flag]

example : ∃ y, reapVmap 0 good = .ok (some y) ∧ y.shape = [2] ∧ ∀ i, ∃ z, reap 0 (laneItems i good) = .ok (some z) ∧
    Same (take 0 i y) z ∧ z = lastHeld 0 [] (executed (laneItems i good)) :=
  cond_vmap_commutes_partial 0 2 [] good good_mapped (by simp [good]) good_reapable

/-- The first sow alone: lane 0 has the value, lane 1 has zero. -/
example : (reapVmap 0 [.sow (vec [5, 6]) (bools [true, false])]).map (Option.map fun y => (y.shape, y.data [0], y.data [1])) =
    .ok (some ([2], 5, 0)) := rfl

/-- C77 (negation): a second sow with a predicate of each lane raises. -/
theorem cond_twice_raises : reapVmap 0 [.sow (vec [5, 6]) (bools [true, false]), .sow (vec [7, 8]) (bools [false, true])] =
    .error .predNotScalar := rfl

/-- C77 (negation): so does one sow in a loop. -/
theorem cond_loop_raises : reapVmap 0 [.loop 3 (fun t => (vec [t, t], bools [true, false])) []] = .error .predNotScalar := rfl

/-- A vector of length 3 in each of two lanes. -/
def rows : Batched Nat := (⟨[2, 3], fun i => 10 * i.headD 0 + i.getD 1 0⟩, some 0)

/-- C77 (negation): so does one sow of a value that is not a scalar in each lane. -/
theorem cond_vector_raises : reapVmap 0 [.sow rows (bools [true, false])] = .error .selectShape := rfl

/-- C77 (negation): a value that is not mapped and has as many entries as there are lanes is silently wrong.  Lane 0 reaps
`[5, 6]` and lane 1 reaps `[0, 0]`; `reap(vmap(f))` returns the single vector `[5, 0]`. -/
theorem cond_unmapped_wrong :
    let h : List (Item (Batched Nat) (Batched Bool)) := [.sow ((vec [5, 6]).1, none) (bools [true, false])]
    (reapVmap 0 h).map (Option.map fun y => (y.shape, y.data [0], y.data [1])) = .ok (some ([2], 5, 0)) ∧
    (reap 0 (laneItems 0 h)).map (Option.map fun y => (y.shape, y.data [0], y.data [1])) = .ok (some ([2], 5, 6)) ∧
    (reap 0 (laneItems 1 h)).map (Option.map fun y => (y.shape, y.data [0], y.data [1])) = .ok (some ([2], 0, 0)) :=
  ⟨rfl, rfl, rfl⟩

end Ex

end Verif.Harvest.CondVmap
