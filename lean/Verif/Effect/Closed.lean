import Verif.Effect.Props

/-
C30: what `make_effect_handler(handlers)(f)(state, *args)` evaluates: the traced program with its constants and its
arguments bound in order.
-/
namespace Verif.Effect

variable {P V S : Type}

theorem writeAll_length {xs : List Nat} : ∀ {vs : List V} {env env' : Env V},
    writeAll env xs vs = some env' → xs.length = vs.length := by
  induction xs with
  | nil => intro vs env env' h; cases vs <;> simp_all [writeAll]
  | cons x xs ih =>
    intro vs env env' h
    cases vs with
    | nil => simp [writeAll] at h
    | cons v vs => simp [ih (by simpa only [writeAll] using h)]

theorem writeAll_eq {xs : List Nat} : ∀ {vs : List V} (env : Env V), xs.length = vs.length → xs.Nodup →
    writeAll env xs vs = some (fun n => ((xs.zip vs).lookup n).or (env n)) := by
  induction xs with
  | nil => intro vs env h _; cases vs <;> simp_all [writeAll]
  | cons x xs ih =>
    intro vs env h hd
    cases vs with
    | nil => simp at h
    | cons v vs =>
      rw [List.nodup_cons] at hd
      simp only [writeAll]
      rw [ih _ (by simpa using h) hd.2]
      congr 1
      funext n
      simp only [List.zip_cons_cons, List.lookup_cons]
      by_cases hn : n = x
      · subst hn
        have : (xs.zip vs).lookup n = none := by
          rw [List.lookup_eq_none_iff]
          intro p hp
          have := (List.of_mem_zip (a := p.1) (b := p.2) hp).1
          simp only [beq_eq_false_iff_ne, ne_eq, bne_iff_ne]
          rintro rfl
          exact hd.1 this
        simp [this]
      · have : (n == x) = false := by simpa using hn
        simp [this, hn]

theorem mem_of_lookup {l : List (Nat × V)} {n : Nat} {a : V} (h : l.lookup n = some a) : (n, a) ∈ l := by
  induction l with
  | nil => simp at h
  | cons p l ih =>
    obtain ⟨m, b⟩ := p
    rw [List.lookup_cons] at h
    by_cases hn : n = m
    · subst hn
      simp only [BEq.rfl, if_true, Option.some.injEq] at h
      simp [h]
    · have : (n == m) = false := by simpa using hn
      simp only [this] at h
      exact List.mem_cons_of_mem _ (ih (by simpa using h))

/-- C30.  The transformed function evaluates the traced program in the environment where the constants and the
arguments are bound to their variables position by position; it raises if the number of constants or arguments is
wrong. -/
theorem effect_handler_closed (bind : P → List V → Option (List V)) (rules : Rules P V S) (constvars invars : List Nat)
    (hd : (constvars ++ invars).Nodup) (body : Code P V) (consts : List V) (s : S) (args : List V) :
    effectHandler bind rules constvars invars body consts s args =
      if constvars.length = consts.length ∧ invars.length = args.length then
        eval bind rules body (fun n => ((constvars ++ invars).zip (consts ++ args)).lookup n) s
      else none := by
  rw [List.nodup_append] at hd
  split
  · rename_i h
    simp only [effectHandler, writeAll_eq _ h.1 hd.1, Option.bind_eq_bind, Option.bind_some,
      writeAll_eq _ h.2 hd.2.1]
    congr 1
    funext n
    rw [List.zip_append h.1, List.lookup_append]
    rcases hc : (constvars.zip consts).lookup n with _ | a
    · simp
    · rcases hi : (invars.zip args).lookup n with _ | b
      · simp
      · exfalso
        have h1 := (List.of_mem_zip (mem_of_lookup hc)).1
        have h2 := (List.of_mem_zip (mem_of_lookup hi)).1
        exact hd.2.2 n h1 n h2 rfl
  · rename_i h
    simp only [effectHandler, Option.bind_eq_bind]
    rcases h1 : writeAll (fun _ => none) constvars consts with _ | e1
    · simp
    · rcases h2 : writeAll e1 invars args with _ | e2
      · simp [h2]
      · exact absurd ⟨writeAll_length h1, writeAll_length h2⟩ h

/-- C30.  In particular, for a program that returns its inputs the state is unchanged and each constant and argument
comes back at its own position. -/
theorem effect_handler_positions (bind : P → List V → Option (List V)) (rules : Rules P V S)
    (constvars invars : List Nat) (hd : (constvars ++ invars).Nodup) (consts : List V) (s : S) (args : List V)
    (hc : constvars.length = consts.length) (ha : invars.length = args.length) :
    effectHandler bind rules constvars invars (.done ((constvars ++ invars).map .var)) consts s args =
      some (consts ++ args, s) := by
  rw [effect_handler_closed bind rules _ _ hd, if_pos ⟨hc, ha⟩]
  have hl : (constvars ++ invars).length = (consts ++ args).length := by simp [hc, ha]
  generalize constvars ++ invars = xs at hd hl ⊢
  generalize consts ++ args = vs at hl ⊢
  have key : ∀ (xs : List Nat) (vs : List V) (env : Env V), xs.length = vs.length →
      (∀ i (h : i < xs.length) (h' : i < vs.length), env xs[i] = some vs[i]) →
      (xs.map Atom.var).mapM (read env) = some vs := by
    intro xs
    induction xs with
    | nil => intro vs env h _; cases vs <;> simp_all
    | cons x xs ih =>
      intro vs env h hr
      cases vs with
      | nil => simp at h
      | cons v vs =>
        have h0 := hr 0 (by simp) (by simp)
        simp only [List.getElem_cons_zero] at h0
        have h1 := ih vs env (by simpa using h) (fun i hi hi' => by
          have := hr (i + 1) (by simpa using hi) (by simpa using hi'); simpa using this)
        simp only [List.map_cons, List.mapM_cons, read, h0, Option.bind_eq_bind, Option.bind_some, h1, Option.pure_def]
  have := key xs vs (fun n => (xs.zip vs).lookup n) hl (by
    intro i hi hi'
    clear key
    induction xs generalizing vs i with
    | nil => simp at hi
    | cons x xs ih =>
      cases vs with
      | nil => simp at hi'
      | cons v vs =>
        rw [List.nodup_cons] at hd
        cases i with
        | zero => simp
        | succ i =>
          have hx : (xs[i]'(by simpa using hi) == x) = false := by
            simp only [beq_eq_false_iff_ne, ne_eq]
            rintro h
            exact hd.1 (h ▸ List.getElem_mem _)
          simp only [List.getElem_cons_succ, List.zip_cons_cons, List.lookup_cons, hx]
          exact ih hd.2 vs (by simpa using hl) i (by simpa using hi) (by simpa using hi'))
  simp [eval, this]

example : effectHandler (P := Nat) (V := Nat) (S := Nat) (fun _ _ => none) (fun _ => none) [3, 4] [5]
    (.done [.var 3, .var 4, .var 5]) [10, 20] 7 [30] = some ([10, 20, 30], 7) := by decide

end Verif.Effect
