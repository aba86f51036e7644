import Verif.Effect.Model

/-! C30: handlers see every primitive once, in program order. -/
namespace Verif.Effect

variable {P V S : Type}

/-! ### Specification -/

/-- The primitives of a program in program order, those of called jaxprs in place of the call. -/
def Code.prims : Code P V → List P
  | .done _ => []
  | .prim p _ _ _ rest => p :: rest.prims
  | .call _ _ _ body _ _ rest => body.prims ++ rest.prims

/-- One execution of a primitive. -/
structure Event (P V : Type) where
  prim : P
  ins : List V
  outs : List V

/-- The executions of the primitives account for the values: evaluating the program with the answers of the
executions, in order, each primitive applied to the values of its operands, gives `vs`.  Neither handlers nor
state are mentioned. -/
inductive Replay : Code P V → Env V → List (Event P V) → List V → Prop
  | done (outs env vs) (h : outs.mapM (read env) = some vs) : Replay (.done outs) env [] vs
  | prim (p inner ins outs rest env env' xs ans evs vs) (hx : ins.mapM (read env) = some xs)
      (hw : writeAll env outs ans = some env') (h : Replay rest env' evs vs) :
      Replay (.prim p inner ins outs rest) env (⟨p, xs, ans⟩ :: evs) vs
  | call (p cvs ivs body ins outs rest env e1 e2 env' xs ans evs evs' vs) (hx : ins.mapM (read env) = some xs)
      (h1 : writeAll (fun _ => none) cvs [] = some e1) (h2 : writeAll e1 ivs xs = some e2)
      (hb : Replay body e2 evs ans) (hw : writeAll env outs ans = some env') (h : Replay rest env' evs' vs) :
      Replay (.call p cvs ivs body ins outs rest) env (evs ++ evs') vs

/-- The state goes through the executions from left to right: a handled primitive gets the current state and gives
the next one, any other primitive is bound and leaves it alone. -/
inductive Threads (bind : P → List V → Option (List V)) (rules : Rules P V S) : S → List (Event P V) → S → Prop
  | nil (s) : Threads bind rules s [] s
  | handled (s s1 s2 p xs ans evs h) (hp : rules p = some h) (he : h s xs = some (ans, s1))
      (ht : Threads bind rules s1 evs s2) : Threads bind rules s (⟨p, xs, ans⟩ :: evs) s2
  | bound (s s2 p xs ans evs) (hp : rules p = none) (he : bind p xs = some ans)
      (ht : Threads bind rules s evs s2) : Threads bind rules s (⟨p, xs, ans⟩ :: evs) s2

/-! ### Theorems -/

theorem Replay.prims {c : Code P V} {env : Env V} {evs vs} (h : Replay c env evs vs) : evs.map (·.prim) = c.prims := by
  induction h with
  | done => rfl
  | prim _ _ _ _ _ _ _ _ _ _ _ _ _ _ ih => simp [Code.prims, ih]
  | call _ _ _ _ _ _ _ _ _ _ _ _ _ _ _ _ _ _ _ _ _ _ ih1 ih2 => simp [Code.prims, ih1, ih2]

theorem Threads.append {bind : P → List V → Option (List V)} {rules : Rules P V S} {s s1 s2 : S} {l m}
    (h : Threads bind rules s l s1) (h' : Threads bind rules s1 m s2) : Threads bind rules s (l ++ m) s2 := by
  induction h with
  | nil => exact h'
  | handled s s1 s2 p xs ans evs h hp he ht ih => exact .handled _ _ _ _ _ _ _ h hp he (ih h')
  | bound s s2 p xs ans evs hp he ht ih => exact .bound _ _ _ _ _ _ hp he (ih h')

theorem Threads.split {bind : P → List V → Option (List V)} {rules : Rules P V S} {s s2 : S} {l m}
    (h : Threads bind rules s (l ++ m) s2) : ∃ s1, Threads bind rules s l s1 ∧ Threads bind rules s1 m s2 := by
  induction l generalizing s with
  | nil => exact ⟨s, .nil s, h⟩
  | cons e l ih =>
    cases h with
    | handled _ s1 _ p xs ans evs hh hp he ht =>
      obtain ⟨s', h1, h2⟩ := ih ht
      exact ⟨s', .handled _ _ _ _ _ _ _ hh hp he h1, h2⟩
    | bound _ _ p xs ans evs hp he ht =>
      obtain ⟨s', h1, h2⟩ := ih ht
      exact ⟨s', .bound _ _ _ _ _ _ hp he h1, h2⟩

/-- C30.  The transformed function returns `(vs, s')` if and only if there is a sequence of executions, one for
each primitive of the program in program order (including those of called jaxprs), that accounts for the values and
through which the state goes from left to right, handled primitives being executed by their handler. -/
theorem effect_handler_iff (bind : P → List V → Option (List V)) (rules : Rules P V S) (c : Code P V) (env : Env V)
    (s s' : S) (vs : List V) :
    eval bind rules c env s = some (vs, s') ↔ ∃ evs, Replay c env evs vs ∧ Threads bind rules s evs s' := by
  induction c generalizing env s s' vs with
  | done outs =>
    simp only [eval, Option.map_eq_some_iff, Prod.mk.injEq]
    constructor
    · rintro ⟨vs', h, rfl, rfl⟩
      exact ⟨[], .done _ _ _ h, .nil _⟩
    · rintro ⟨evs, h, ht⟩
      cases h with | done _ _ _ h =>
      cases ht
      exact ⟨vs, h, rfl, rfl⟩
  | prim p inner ins outs rest ih =>
    simp only [eval, Option.bind_eq_bind, Option.bind_eq_some_iff]
    constructor
    · rintro ⟨xs, hx, ⟨ans, s1⟩, hr, env', hw, hrest⟩
      obtain ⟨evs, h1, h2⟩ := (ih env' s1 s' vs).1 hrest
      refine ⟨⟨p, xs, ans⟩ :: evs, .prim _ _ _ _ _ _ _ _ _ _ _ hx hw h1, ?_⟩
      rcases hp : rules p with _ | h <;> simp only [execPrim, hp] at hr
      · simp only [Option.map_eq_some_iff, Prod.mk.injEq] at hr
        obtain ⟨a, ha, rfl, rfl⟩ := hr
        exact .bound _ _ _ _ _ _ hp ha h2
      · exact .handled _ _ _ _ _ _ _ h hp hr h2
    · rintro ⟨evs, h, ht⟩
      cases h with | prim _ _ _ _ _ _ env' xs ans evs _ hx hw h =>
      cases ht with
      | handled _ s1 _ _ _ _ _ hh hp he ht =>
        refine ⟨xs, hx, (ans, s1), ?_, env', hw, (ih _ _ _ _).2 ⟨_, h, ht⟩⟩
        simp only [execPrim, hp]; exact he
      | bound _ _ _ _ _ _ hp he ht =>
        refine ⟨xs, hx, (ans, s), ?_, env', hw, (ih _ _ _ _).2 ⟨_, h, ht⟩⟩
        simp [execPrim, hp, he]
  | call p cvs ivs body ins outs rest ihb ihr =>
    simp only [eval, Option.bind_eq_bind, Option.bind_eq_some_iff]
    constructor
    · rintro ⟨xs, hx, e1, h1, e2, h2, ⟨ans, s1⟩, hb, env', hw, hrest⟩
      obtain ⟨evs, hb1, hb2⟩ := (ihb _ _ _ _).1 hb
      obtain ⟨evs', hr1, hr2⟩ := (ihr _ _ _ _).1 hrest
      exact ⟨evs ++ evs', .call _ _ _ _ _ _ _ _ _ _ _ _ _ _ _ _ hx h1 h2 hb1 hw hr1, hb2.append hr2⟩
    · rintro ⟨evs, h, ht⟩
      cases h with | call _ _ _ _ _ _ _ _ e1 e2 env' xs ans evs evs' _ hx h1 h2 hb hw h =>
      obtain ⟨s1, t1, t2⟩ := ht.split
      exact ⟨xs, hx, e1, h1, e2, h2, (ans, s1), (ihb _ _ _ _).2 ⟨_, hb, t1⟩, env', hw, (ihr _ _ _ _).2 ⟨_, h, t2⟩⟩

/-- C30.  Each primitive of the program is executed exactly once, in program order. -/
theorem effect_handler_program_order (bind : P → List V → Option (List V)) (rules : Rules P V S) (c : Code P V)
    (env : Env V) (s s' : S) (vs : List V) (h : eval bind rules c env s = some (vs, s')) :
    ∃ evs, evs.map (·.prim) = c.prims ∧ Replay c env evs vs ∧ Threads bind rules s evs s' := by
  obtain ⟨evs, h1, h2⟩ := (effect_handler_iff bind rules c env s s' vs).1 h
  exact ⟨evs, h1.prims, h1, h2⟩

/-- C30.  Without a handler for any primitive of the program, the transformed function is the original one and the
state is returned unchanged (including the exceptions). -/
theorem effect_handler_no_handlers (bind : P → List V → Option (List V)) (rules : Rules P V S) (c : Code P V)
    (hc : ∀ p ∈ c.prims, rules p = none) (env : Env V) (s : S) :
    eval bind rules c env s = (plain bind c env).map (fun vs => (vs, s)) := by
  induction c generalizing env s with
  | done outs => rfl
  | prim p inner ins outs rest ih =>
    have hp := hc p (by simp [Code.prims])
    simp only [eval, plain, execPrim, hp, Option.bind_eq_bind]
    rcases ins.mapM (read env) with _ | xs
    · rfl
    simp only [Option.bind_some]
    rcases bind p xs with _ | a
    · rfl
    simp only [Option.map_some, Option.bind_some]
    rcases writeAll env outs a with _ | env'
    · rfl
    simp only [Option.bind_some]
    exact ih (fun q hq => hc q (by simp [Code.prims, hq])) env' s
  | call p cvs ivs body ins outs rest ihb ihr =>
    simp only [eval, plain, Option.bind_eq_bind]
    rcases ins.mapM (read env) with _ | xs
    · rfl
    simp only [Option.bind_some]
    rcases writeAll (fun _ => none) cvs [] with _ | e1
    · rfl
    simp only [Option.bind_some]
    rcases writeAll e1 ivs xs with _ | e2
    · rfl
    simp only [Option.bind_some]
    rw [ihb (fun q hq => hc q (by simp [Code.prims, hq]))]
    rcases plain bind body e2 with _ | a
    · rfl
    simp only [Option.map_some, Option.bind_some]
    rcases writeAll env outs a with _ | env'
    · rfl
    simp only [Option.bind_some]
    exact ihr (fun q hq => hc q (by simp [Code.prims, hq])) env' s

theorem plain_congr (bind bind' : P → List V → Option (List V)) (c : Code P V) (hc : ∀ p ∈ c.prims, bind p = bind' p)
    (env : Env V) : plain bind c env = plain bind' c env := by
  induction c generalizing env with
  | done outs => rfl
  | prim p inner ins outs rest ih =>
    have hr : ∀ env, plain bind rest env = plain bind' rest env :=
      fun env => ih (fun q hq => hc q (by simp [Code.prims, hq])) env
    simp only [plain, hc p (by simp [Code.prims]), hr]
  | call p cvs ivs body ins outs rest ihb ihr =>
    have hb : ∀ env, plain bind body env = plain bind' body env :=
      fun env => ihb (fun q hq => hc q (by simp [Code.prims, hq])) env
    have hr : ∀ env, plain bind rest env = plain bind' rest env :=
      fun env => ihr (fun q hq => hc q (by simp [Code.prims, hq])) env
    simp only [plain, hb, hr]

/-- C30.  A handler whose answer does not depend on the state is a redefinition of its primitive: the values are
those of plain evaluation with the redefined primitives (the state never influences the values). -/
theorem effect_handler_values (bind bind' : P → List V → Option (List V)) (rules : Rules P V S) (c : Code P V)
    (hh : ∀ p h, rules p = some h → ∀ s xs, (h s xs).map (·.1) = bind' p xs)
    (hn : ∀ p, rules p = none → bind' p = bind p) (env : Env V) (s : S) :
    (eval bind rules c env s).map (·.1) = plain bind' c env := by
  induction c generalizing env s with
  | done outs =>
    simp only [eval, plain, Option.map_map]
    rcases outs.mapM (read env) with _ | vs <;> rfl
  | prim p inner ins outs rest ih =>
    simp only [eval, plain, Option.bind_eq_bind]
    rcases ins.mapM (read env) with _ | xs
    · rfl
    simp only [Option.bind_some]
    have hstep : ∀ r : Option (List V × S), r.map (·.1) = bind' p xs →
        (r.bind (fun r => (writeAll env outs r.1).bind (fun env' => eval bind rules rest env' r.2))).map (·.1) =
          (bind' p xs).bind (fun r => (writeAll env outs r).bind (fun env' => plain bind' rest env')) := by
      intro r hr
      rw [← hr]
      rcases r with _ | ⟨a, s1⟩
      · rfl
      simp only [Option.bind_some, Option.map_some]
      rcases writeAll env outs a with _ | env'
      · rfl
      simp only [Option.bind_some]
      exact ih env' s1
    apply hstep
    rcases hp : rules p with _ | h
    · simp only [execPrim, hp]
      rw [hn p hp, Option.map_map]
      rcases bind p xs with _ | a <;> rfl
    · simp only [execPrim, hp]; exact hh p h hp s xs
  | call p cvs ivs body ins outs rest ihb ihr =>
    simp only [eval, plain, Option.bind_eq_bind]
    rcases ins.mapM (read env) with _ | xs
    · rfl
    simp only [Option.bind_some]
    rcases writeAll (fun _ => none) cvs [] with _ | e1
    · rfl
    simp only [Option.bind_some]
    rcases writeAll e1 ivs xs with _ | e2
    · rfl
    simp only [Option.bind_some]
    rw [← ihb e2 s]
    rcases eval bind rules body e2 s with _ | ⟨a, s1⟩
    · rfl
    simp only [Option.bind_some, Option.map_some]
    rcases writeAll env outs a with _ | env'
    · rfl
    simp only [Option.bind_some]
    exact ihr env' s1

/-- Every primitive of the program that takes functions as arguments has a handler. -/
def Supported (needs : P → Bool) (rules : Rules P V S) (c : Code P V) : Prop :=
  ∀ p ∈ c.prims, needs p = true → (rules p).isSome

theorem Threads.congr {bind bind' : P → List V → Option (List V)} {rules : Rules P V S} {s s' : S}
    {evs : List (Event P V)} (hb : ∀ p ∈ evs.map (·.prim), rules p = none → bind p = bind' p)
    (h : Threads bind rules s evs s') : Threads bind' rules s evs s' := by
  induction h with
  | nil s => exact .nil s
  | handled s s1 s2 p xs ans evs h hp he ht ih =>
    exact .handled _ _ _ _ _ _ _ h hp he (ih (fun q hq => hb q (by simp only [List.map_cons, List.mem_cons]; exact .inr hq)))
  | bound s s2 p xs ans evs hp he ht ih =>
    refine .bound _ _ _ _ _ _ hp ?_ (ih (fun q hq => hb q (by simp only [List.map_cons, List.mem_cons]; exact .inr hq)))
    rw [← hb p (by simp) hp]; exact he

theorem Threads.runs {needs : P → Bool} {ref : P → List V → Option (List V)} {rules : Rules P V S} {s s' : S}
    {evs : List (Event P V)} (h : Threads (rawBind needs ref) rules s evs s') :
    (∀ p ∈ evs.map (·.prim), needs p = true → (rules p).isSome) ∧ Threads ref rules s evs s' := by
  induction h with
  | nil s => exact ⟨by simp, .nil s⟩
  | handled s s1 s2 p xs ans evs h hp he ht ih =>
    refine ⟨?_, .handled _ _ _ _ _ _ _ h hp he ih.2⟩
    intro q hq hn
    simp only [List.map_cons, List.mem_cons] at hq
    rcases hq with rfl | hq
    · simp [hp]
    · exact ih.1 q hq hn
  | bound s s2 p xs ans evs hp he ht ih =>
    rcases hnp : needs p with _ | _
    · rw [rawBind, hnp] at he
      refine ⟨?_, .bound _ _ _ _ _ _ hp he ih.2⟩
      intro q hq hn
      simp only [List.map_cons, List.mem_cons] at hq
      rcases hq with rfl | hq
      · rw [hnp] at hn; exact absurd hn (by simp)
      · exact ih.1 q hq hn
    · rw [rawBind, hnp] at he
      exact absurd he (by simp)

/-- C30 (partial).  The transformed function returns `(vs, s')` if and only if every primitive of the program that
takes functions as arguments (`custom_jvp_call`, `custom_vjp_call`) has a handler, and there is a sequence of executions
as in the property, where a primitive without a handler computes what it computes in JAX. -/
theorem effect_handler_returns_partial (needs : P → Bool) (ref : P → List V → Option (List V)) (rules : Rules P V S)
    (c : Code P V) (env : Env V) (s s' : S) (vs : List V) :
    eval (rawBind needs ref) rules c env s = some (vs, s') ↔
      Supported needs rules c ∧ ∃ evs, Replay c env evs vs ∧ Threads ref rules s evs s' := by
  rw [effect_handler_iff]
  constructor
  · rintro ⟨evs, hr, ht⟩
    refine ⟨?_, evs, hr, ht.runs.2⟩
    have := ht.runs.1
    rw [hr.prims] at this
    exact this
  · rintro ⟨hs, evs, hr, ht⟩
    refine ⟨evs, hr, ht.congr ?_⟩
    intro p hp hn
    rw [hr.prims] at hp
    funext xs
    rcases hnp : needs p with _ | _
    · simp [rawBind, hnp]
    · have := hs p hp hnp
      rw [hn] at this
      exact absurd this (by simp)

/-- C30 (partial).  Without a handler for any primitive of the program, none of which takes functions as arguments, the
transformed function is the original one and the state is returned unchanged. -/
theorem effect_handler_unhandled_partial (needs : P → Bool) (ref : P → List V → Option (List V)) (rules : Rules P V S)
    (c : Code P V) (hc : ∀ p ∈ c.prims, rules p = none) (hs : ∀ p ∈ c.prims, needs p = false) (env : Env V) (s : S) :
    eval (rawBind needs ref) rules c env s = (plain ref c env).map (fun vs => (vs, s)) := by
  rw [effect_handler_no_handlers _ _ _ hc, plain_congr _ ref c (fun p hp => by funext xs; simp [rawBind, hs p hp])]

/-- C30 (negation).  A program that uses a primitive that takes functions as arguments and has no handler raises, for
all handlers of other primitives, although the program itself runs: e.g. `lambda x: jax.nn.relu(x) + 1`. -/
theorem effect_handler_custom_jvp_raises (needs : P → Bool) (ref : P → List V → Option (List V)) (rules : Rules P V S)
    (c : Code P V) (p : P) (hp : p ∈ c.prims) (hn : needs p = true) (hr : rules p = none) (env : Env V) (s : S) :
    eval (rawBind needs ref) rules c env s = none := by
  rcases h : eval (rawBind needs ref) rules c env s with _ | ⟨vs, s'⟩
  · rfl
  · have := ((effect_handler_returns_partial needs ref rules c env s s' vs).1 h).1 p hp hn
    rw [hr] at this
    exact absurd this (by simp)

/-- C30 (negation).  Only the handlers of the primitives in `prims` matter: a handler for a call primitive or for
pjit, and a handler for a primitive that occurs only inside a scan, cond or while, is never used. -/
theorem effect_handler_other_handlers_ignored (bind : P → List V → Option (List V)) (rules rules' : Rules P V S)
    (c : Code P V) (hc : ∀ p ∈ c.prims, rules p = rules' p) (env : Env V) (s : S) :
    eval bind rules c env s = eval bind rules' c env s := by
  induction c generalizing env s with
  | done outs => rfl
  | prim p inner ins outs rest ih =>
    have hp := hc p (by simp [Code.prims])
    have hr : ∀ env s, eval bind rules rest env s = eval bind rules' rest env s :=
      fun env s => ih (fun q hq => hc q (by simp [Code.prims, hq])) env s
    simp only [eval, execPrim, hp, hr]
  | call p cvs ivs body ins outs rest ihb ihr =>
    have hb : ∀ env s, eval bind rules body env s = eval bind rules' body env s :=
      fun env s => ihb (fun q hq => hc q (by simp [Code.prims, hq])) env s
    have hr : ∀ env s, eval bind rules rest env s = eval bind rules' rest env s :=
      fun env s => ihr (fun q hq => hc q (by simp [Code.prims, hq])) env s
    simp only [eval, hb, hr]

/-! ### Instances -/

section
/-- Primitive 0 is addition of 1, 1 is doubling, 2 is `pjit`, 3 is a `scan` whose body uses primitive 0. -/
private def b : Nat → List Int → Option (List Int)
  | 0, [x] => some [x + 1]
  | 1, [x] => some [2 * x]
  | 3, [x] => some [x + 1 + 1]
  | _, _ => none

/-- Counts the executions of `p`. -/
private def count (p : Nat) : Rules Nat Int Nat := fun q => if q = p then some (fun s xs => (b p xs).map (fun a => (a, s + 1))) else none

/-- `y = x + 1; z = pjit(a => 2 * (a + 1)) y; z + 1`. -/
private def prog : Code Nat Int :=
  .prim 0 [] [.var 0] [1] (.call 2 [] [5] (.prim 0 [] [.var 5] [6] (.prim 1 [] [.var 6] [7] (.done [.var 7]))) [.var 1] [2]
    (.prim 0 [] [.var 2] [3] (.done [.var 3])))

example : effectHandler b (count 0) [] [0] prog [] 0 [10] = some ([25], 3) := by decide

example : prog.prims = [0, 0, 1, 0] := rfl

/-- Primitive 4 is a `custom_jvp_call` (`relu`). -/
private def ref : Nat → List Int → Option (List Int)
  | 4, [x] => some [if x < 0 then 0 else x]
  | p, xs => b p xs

/-- `relu(x) + 1`. -/
private def reluProg : Code Nat Int := .prim 4 [0] [.var 0] [1] (.prim 0 [] [.var 1] [2] (.done [.var 2]))

/-- `effect_handler_custom_jvp_raises`: `lambda x: relu(x) + 1` runs, the transformed function raises, and with a handler
for `custom_jvp_call` it runs. -/
example : plain ref reluProg (fun x => if x = 0 then some (-3) else none) = some [1] ∧
    effectHandler (rawBind (· == 4) ref) (count 0) [] [0] reluProg [] 0 [-3] = none ∧
    effectHandler (rawBind (· == 4) ref) (fun q => if q = 4 then some (fun s xs => (ref 4 xs).map (·, s + 1)) else none)
      [] [0] reluProg [] 0 [-3] = some ([1], 1) := by decide

/-- `effect_handler_unhandled_partial`, `effect_handler_returns_partial`. -/
example : (∀ p ∈ prog.prims, (p == 4) = false) ∧ Supported (· == 4) (count 0) prog := by
  constructor
  · decide
  · intro p hp hn
    have : p = 4 := by simpa using hn
    subst this
    revert hp
    decide

/-- C30 (negation): a handler for `pjit` is not called. -/
theorem handler_for_pjit_ignored : effectHandler b (count 2) [] [0] prog [] 0 [10] = some ([25], 0) := by decide

/-- C30 (negation): `scan(x + 1)` twice: a handler for the addition is not called. -/
theorem handler_inside_scan_ignored :
    effectHandler b (count 0) [] [0] (.prim 3 [0, 0] [.var 0] [1] (.done [.var 1])) [] 0 [10] = some ([12], 0) := by
  decide
end

end Verif.Effect
