/-!
# C46: dynamic contexts

`/repo/oryx/core/trace_util.py:100-127`.
-/

namespace Verif.Util.Ctx

variable {M C : Type} [DecidableEq M]

/-- What a thread does with dynamic contexts, under changing trace states. `M` is the type of opaque
trace states, `C` of contexts (the users of trace_util.py:109-127). -/
inductive Prog (M C : Type) where
  | done
  /-- `get_dynamic_context(...)`, then the rest -/
  | get (k : Prog M C)
  /-- `with new_dynamic_context(_, c): body`, then the rest -/
  | withCtx (c : C) (body k : Prog M C)
  /-- the body runs under another trace state, then the rest under the old one -/
  | under (m : M) (body k : Prog M C)
  /-- `try: body except Exception: pass`, then the rest -/
  | tryExcept (body k : Prog M C)
  /-- an exception from the body of a `with` -/
  | raise

/-- `_thread_local_state.dynamic_contexts`: a dictionary from trace states to stacks, top last in the
code and first here (trace_util.py:104). -/
abbrev Store (M C : Type) := M → Option (List C)

/-- Does the rest run, and which exception stopped it? `lookup` is the `ValueError` of
`get_dynamic_context` (trace_util.py:126). -/
inductive Stop where
  | fine | user | lookup
  deriving DecidableEq

/-- What a run does: the contexts seen (`none` for the `ValueError`), the store after it, and how it
stopped (the observable result of running trace_util.py:109-127). -/
structure Res (M C : Type) where
  seen : List (Option C)
  store : Store M C
  stop : Stop

/-- Entering `new_dynamic_context`, `trace_util.py:111-114`. -/
def push (m : M) (c : C) (s : Store M C) : Store M C :=
  fun m' => if m' = m then some (c :: (s m).getD []) else s m'

/-- The `finally` clause, `trace_util.py:117-120`. `pop` on a missing or empty stack would raise; see
`C46_contexts_restored`. -/
def pop (m : M) (s : Store M C) : Store M C :=
  fun m' => if m' = m then
    match s m with
    | some (_ :: c :: cs) => some (c :: cs)
    | _ => none
  else s m'

/-- Run the rest after a block that did not raise (Python, around trace_util.py:109-127). -/
def andThen (r : Res M C) (k : Store M C → Res M C) : Res M C :=
  match r.stop with
  | .fine =>
    let r' := k r.store
    { r' with seen := r.seen ++ r'.seen }
  | _ => r

/-- Running a program under the trace state `m`. The context manager keeps the trace state it was
entered under (`master`) (trace_util.py:109-127). -/
def run : Prog M C → M → Store M C → Res M C
  | .done, _, s => ⟨[], s, .fine⟩
  | .get k, m, s => match s m with
    | some (c :: _) =>
      let r := run k m s
      { r with seen := some c :: r.seen }
    | _ => ⟨[none], s, .lookup⟩
  | .withCtx c body k, m, s =>
    let r := run body m (push m c s)
    andThen { r with store := pop m r.store } fun s => run k m s
  | .under m' body k, m, s => andThen (run body m' s) fun s => run k m s
  | .tryExcept body k, m, s =>
    let r := run body m s
    andThen { r with stop := .fine } fun s => run k m s
  | .raise, _, s => ⟨[], s, .user⟩

/-- Specification: lexical scoping. `env m` is the context of the innermost enclosing `with` entered
under the trace state `m`. -/
def spec : Prog M C → M → (M → Option C) → List (Option C) × Stop
  | .done, _, _ => ([], .fine)
  | .get k, m, env => match env m with
    | some c => let r := spec k m env; (some c :: r.1, r.2)
    | none => ([none], .lookup)
  | .withCtx c body k, m, env =>
    let r := spec body m fun m' => if m' = m then some c else env m'
    match r.2 with
    | .fine => let r' := spec k m env; (r.1 ++ r'.1, r'.2)
    | e => (r.1, e)
  | .under m' body k, m, env =>
    let r := spec body m' env
    match r.2 with
    | .fine => let r' := spec k m env; (r.1 ++ r'.1, r'.2)
    | e => (r.1, e)
  | .tryExcept body k, m, env =>
    let r := spec body m env
    let r' := spec k m env
    (r.1 ++ r'.1, r'.2)
  | .raise, _, _ => ([], .user)

/-- No empty stack is kept: the code deletes the entry (`trace_util.py:119-120`). -/
def Clean (s : Store M C) : Prop := ∀ m, s m ≠ some []

/-- The innermost context (trace_util.py:127). -/
def topOf (s : Store M C) : M → Option C := fun m => (s m).bind List.head?

theorem pop_push (m : M) (c : C) (s : Store M C) (h : Clean s) : pop m (push m c s) = s := by
  funext m'
  by_cases hm : m' = m
  · subst hm
    simp only [pop, push, if_true]
    rcases hs : s m' with _ | (_ | ⟨a, as⟩)
    · rfl
    · exact (h m' hs).elim
    · rfl
  · simp [pop, push, hm]

theorem clean_push (m : M) (c : C) (s : Store M C) (h : Clean s) : Clean (push m c s) := by
  intro m'
  simp only [push]
  split
  · simp
  · exact h m'

theorem top_push (m : M) (c : C) (s : Store M C) :
    topOf (push m c s) = fun m' => if m' = m then some c else topOf s m' := by
  funext m'
  simp only [topOf, push]
  split <;> simp

theorem run_spec (p : Prog M C) : ∀ (m : M) (s : Store M C), Clean s →
    (run p m s).store = s ∧ ((run p m s).seen, (run p m s).stop) = spec p m (topOf s) := by
  induction p with
  | done => intro m s h; exact ⟨rfl, rfl⟩
  | raise => intro m s h; exact ⟨rfl, rfl⟩
  | get k ih =>
    intro m s h
    obtain ⟨i1, i2⟩ := ih m s h
    simp only [run, spec, topOf]
    rcases hs : s m with _ | (_ | ⟨a, as⟩)
    · exact ⟨rfl, rfl⟩
    · exact (h m hs).elim
    · simp only [Option.bind_some, List.head?_cons]
      refine ⟨i1, ?_⟩
      rw [← i2]
  | withCtx c body k ihb ihk =>
    intro m s h
    obtain ⟨b1, b2⟩ := ihb m (push m c s) (clean_push m c s h)
    obtain ⟨k1, k2⟩ := ihk m s h
    rw [top_push] at b2
    simp only [run, spec, ← b2, ← k2]
    rw [b1, pop_push m c s h]
    unfold andThen
    rcases hstop : (run body m (push m c s)).stop
    · exact ⟨k1, rfl⟩
    · exact ⟨rfl, by simp⟩
    · exact ⟨rfl, by simp⟩
  | under m' body k ihb ihk =>
    intro m s h
    obtain ⟨b1, b2⟩ := ihb m' s h
    obtain ⟨k1, k2⟩ := ihk m s h
    simp only [run, spec, ← b2, ← k2]
    unfold andThen
    rcases hstop : (run body m' s).stop
    · simp only [b1]; exact ⟨k1, trivial⟩
    · exact ⟨b1, by simp [hstop]⟩
    · exact ⟨b1, by simp [hstop]⟩
  | tryExcept body k ihb ihk =>
    intro m s h
    obtain ⟨b1, b2⟩ := ihb m s h
    obtain ⟨k1, k2⟩ := ihk m s h
    simp only [run, spec, ← b2, ← k2]
    unfold andThen
    simp only [b1]
    exact ⟨k1, trivial⟩

/-- **C46, restored.** Whatever the program does, including exceptions and nested traces, the contexts
of every trace state are afterwards what they were before. -/
theorem C46_contexts_restored (p : Prog M C) (m : M) (s : Store M C) (h : Clean s) :
    (run p m s).store = s := (run_spec p m s h).1

/-- **C46, none left.** A thread that starts without contexts ends without contexts. -/
theorem C46_none_left (p : Prog M C) (m : M) : (run p m fun _ => none).store = fun _ => none :=
  C46_contexts_restored p m _ fun _ h => nomatch h

/-- **C46, innermost.** Every `get_dynamic_context` returns the context of the innermost enclosing
`with` that was entered under the same trace state, and raises if there is none. -/
theorem C46_innermost_context (p : Prog M C) (m : M) :
    ((run p m fun _ => none).seen, (run p m fun _ => none).stop) = spec p m fun _ => none :=
  (run_spec p m (fun _ => none) fun _ h => nomatch h).2

/-- A nested example: the inner context shadows the outer one, is removed although the body raises, and
a new trace state does not see the outer one. -/
example : (run (.withCtx "a" (.tryExcept (.withCtx "b" (.get .raise) .done)
      (.get (.tryExcept (.under 1 (.get .done) .done) .done))) .done : Prog Nat String) 0
      fun _ => none).seen = [some "b", some "a", none] := by decide

end Verif.Util.Ctx
