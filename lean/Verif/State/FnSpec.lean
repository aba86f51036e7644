/-
C91: `state.spec` of functions (oryx/core/state/function.py:299-316) and of lists and tuples of functions.
-/
import Verif.State.SeqProps

namespace Verif.State.FnSpec
open Verif.State.Seq

/-! ### Model -/

/-- What goes wrong: different shapes in a primitive, arguments with another structure than the function unpacks,
Python's `if` on a traced value, a keyword value that is not an array type (function.py:314). -/
inductive Err where
  | shape
  | structure
  | unbound
  | concretization
  | notArray
  | emptyTuple
  deriving DecidableEq

/-- A keyword argument: its truth value, and whether JAX can trace its type (`True`, `1.`; not a string)
(function.py:302, 314). -/
structure KwVal where
  truth : Bool
  traceable : Bool

/-- The body of a Python function on arrays (the `f` of function.py:300), once its arguments are unpacked: `prim` binds a
primitive and appends its results to the local variables, `branch` is Python's `if` on an array, `option` is Python's `if` on
a keyword argument with a default. -/
inductive Prog (P : Type) where
  | ret (out : PyVal Nat)
  | prim (p : P) (ins : List Nat) (rest : Prog P)
  | branch (x : Nat) (a b : Prog P)
  | option (k : String) (dflt : Bool) (a b : Prog P)

/-- A Python function (the `f` of function.py:300): whether it has the keyword `init_key` (function.py:303), and its body,
which depends on the containers of the arguments.  The variables of the body are the key, if there is one, and the leaves of
the arguments. -/
structure Fn (P : Type) where
  hasKey : Bool
  body : List (PyVal Unit) → Except Err (Prog P)

mutual
/-- `tree_flatten` (JAX; used by function.py:313-314). -/
def leaves {D : Type} : PyVal D → List D
  | .arr d => [d]
  | .tup l => leavesAll l
  | .lst l => leavesAll l
/-- `tree_flatten` of the elements (JAX; used by function.py:313-314). -/
def leavesAll {D : Type} : List (PyVal D) → List D
  | [] => []
  | x :: xs => leaves x ++ leavesAll xs
end

/-- Read a local variable (function bodies of function.py:300). -/
def readVar {D : Type} (env : List D) (i : Nat) : Except Err D :=
  match env[i]? with
  | some d => .ok d
  | none => .error .unbound

/-- Read the operands of a primitive (function bodies of function.py:300). -/
def readVars {D : Type} (env : List D) : List Nat → Except Err (List D)
  | [] => .ok []
  | i :: is => (readVar env i).bind fun d => (readVars env is).map (d :: ·)

mutual
/-- The result of a function (function bodies of function.py:300). -/
def readOut {D : Type} (env : List D) : PyVal Nat → Except Err (PyVal D)
  | .arr i => (readVar env i).map .arr
  | .tup l => (readOuts env l).map .tup
  | .lst l => (readOuts env l).map .lst
/-- The elements of the result of a function (function bodies of function.py:300). -/
def readOuts {D : Type} (env : List D) : List (PyVal Nat) → Except Err (List (PyVal D))
  | [] => .ok []
  | x :: xs => (readOut env x).bind fun y => (readOuts env xs).map (y :: ·)
end

/-- Run the body of a function: Python does not see whether its arrays are concrete or traced; what a primitive does, and
what `if` does with an array and with a keyword argument, depends on it (function.py:300, 314). -/
def run {P D : Type} (bind : P → List D → Except Err (List D)) (truth : D → Except Err Bool)
    (option : String → Bool → Except Err Bool) : Prog P → List D → Except Err (PyVal D)
  | .ret out, env => readOut env out
  | .prim p ins rest, env =>
    (readVars env ins).bind fun xs => (bind p xs).bind fun ys => run bind truth option rest (env ++ ys)
  | .branch x a b, env =>
    (readVar env x).bind fun v => (truth v).bind fun t =>
      if t then run bind truth option a env else run bind truth option b env
  | .option k dflt a b, env =>
    (option k dflt).bind fun t => if t then run bind truth option a env else run bind truth option b env

/-- Arrays `V`, their shapes and dtypes `A`, and what JAX guarantees of primitives: the shapes and dtypes of their results,
and whether they raise, depend on the shapes and dtypes of the operands only (`jax.eval_shape`, function.py:314).
`key0` is `random.PRNGKey(0)` (function.py:309). -/
structure Jax (P V A : Type) where
  aval : V → A
  truth : V → Except Err Bool
  impl : P → List V → Except Err (List V)
  abs : P → List A → Except Err (List A)
  sound : ∀ p xs, abs p (xs.map aval) = (impl p xs).map (List.map aval)
  key0 : V

variable {P V A : Type}

/-- Keyword arguments, in order (function.py:302). -/
abbrev Kw := List (String × KwVal)

/-- A keyword argument in a call: its value or the default. (function bodies of function.py:300). -/
def staticOption (kw : Kw) (k : String) (dflt : Bool) : Except Err Bool :=
  match kw.lookup k with
  | some v => .ok v.truth
  | none => .ok dflt

/-- A keyword argument under `jax.eval_shape(fun, *in_specs, **kwargs)` (function.py:314): what is given is traced. -/
def tracedOption (kw : Kw) (k : String) (dflt : Bool) : Except Err Bool :=
  match kw.lookup k with
  | some _ => .error .concretization
  | none => .ok dflt

/-- The containers of the arguments. (what a function body of function.py:300 unpacks). -/
def containers {D : Type} (args : List (PyVal D)) : List (PyVal Unit) := mapAll (fun _ => ()) args

/-- The local variables at the start: the key, if the function takes one, and the leaves of the arguments
(function.py:306-311). -/
def startEnv {D : Type} (f : Fn P) (key : D) (args : List (PyVal D)) : List D :=
  (if f.hasKey then [key] else []) ++ leavesAll args

/-- `f(*args, init_key=key, **kw)`, without `init_key` for functions that do not take it (a call of the `f` of
function.py:300). -/
def callFn (J : Jax P V A) (f : Fn P) (key : V) (args : List (PyVal V)) (kw : Kw) : Except Err (PyVal V) :=
  (f.body (containers args)).bind fun prog => run J.impl J.truth (staticOption kw) prog (startEnv f key args)

/-- `trace_util.stage(f, dynamic=True)(*args, **kw)` as in `init` (function.py:281-282), which traces the arguments and
keeps the keyword arguments as they are; the result is given by its shapes and dtypes. -/
def stageFn (J : Jax P V A) (f : Fn P) (args : List (PyVal A)) (kw : Kw) : Except Err (PyVal A) :=
  (f.body (containers args)).bind fun prog =>
    run J.abs (fun _ => .error .concretization) (staticOption kw) prog (startEnv f (J.aval J.key0) args)

/-- `make_array_spec` of an array or of an `ArraySpec` (api.py:147-148, function.py:313). -/
def specOfArg (J : Jax P V A) : V ⊕ A → A
  | .inl v => J.aval v
  | .inr a => a

/-- `state.spec(f)(*args, **kw)` (function.py:302-316); arguments are arrays or specs. -/
def fnSpec (J : Jax P V A) (f : Fn P) (args : List (PyVal (V ⊕ A))) (kw : Kw) : Except Err (PyVal A) :=
  let inSpecs := mapAll (specOfArg J) args
  if kw.all (fun x => x.2.traceable) then
    (f.body (containers inSpecs)).bind fun prog =>
      run J.abs (fun _ => .error .concretization) (tracedOption kw) prog (startEnv f (J.aval J.key0) inSpecs)
  else .error .notArray

/-! ### Specification -/

/-- The shape and dtype that an argument, an array or a spec, stands for. -/
def shapeOf (J : Jax P V A) : V ⊕ A → A := Sum.elim J.aval id

/-- The body does not look at the values of arrays with Python's `if`. -/
def Prog.NoBranch : Prog P → Prop
  | .ret _ => True
  | .prim _ _ rest => rest.NoBranch
  | .branch _ _ _ => False
  | .option _ _ a b => a.NoBranch ∧ b.NoBranch

/-- A function that JAX can trace, for all structures of arguments. -/
def Traceable (f : Fn P) : Prop := ∀ st prog, f.body st = .ok prog → prog.NoBranch

/-- The body does not return a Python list. -/
def Prog.NoList : Prog P → Prop
  | .ret out => notLst out
  | .prim _ _ rest => rest.NoList
  | .branch _ a b => a.NoList ∧ b.NoList
  | .option _ _ a b => a.NoList ∧ b.NoList

/-! ### Lemmas -/

mutual
theorem leaves_map {D E : Type} (g : D → E) : (v : PyVal D) → leaves (v.map g) = (leaves v).map g
  | .arr _ => rfl
  | .tup l => leavesAll_map g l
  | .lst l => leavesAll_map g l
theorem leavesAll_map {D E : Type} (g : D → E) : (l : List (PyVal D)) → leavesAll (mapAll g l) = (leavesAll l).map g
  | [] => rfl
  | x :: xs => by simp only [mapAll, leavesAll, leaves_map g x, leavesAll_map g xs, List.map_append]
end

theorem containers_map {D E : Type} (g : D → E) (l : List (PyVal D)) : containers (mapAll g l) = containers l := by
  simp only [containers, mapAll_comp]

theorem readVar_map {D E : Type} (g : D → E) (env : List D) (i : Nat) :
    readVar (env.map g) i = (readVar env i).map g := by
  simp only [readVar, List.getElem?_map]
  rcases env[i]? with _ | d <;> rfl

theorem readVars_map {D E : Type} (g : D → E) (env : List D) (is : List Nat) :
    readVars (env.map g) is = (readVars env is).map (List.map g) := by
  induction is with
  | nil => rfl
  | cons i is ih =>
    simp only [readVars, readVar_map, ih]
    rcases readVar env i with e | d
    · rfl
    · rcases readVars env is with e | ds <;> rfl

mutual
theorem readOut_map {D E : Type} (g : D → E) (env : List D) : (out : PyVal Nat) →
    readOut (env.map g) out = (readOut env out).map (PyVal.map g)
  | .arr i => by
    simp only [readOut, readVar_map]
    rcases readVar env i with e | d <;> rfl
  | .tup l => by
    simp only [readOut, readOuts_map g env l]
    rcases readOuts env l with e | d <;> rfl
  | .lst l => by
    simp only [readOut, readOuts_map g env l]
    rcases readOuts env l with e | d <;> rfl
theorem readOuts_map {D E : Type} (g : D → E) (env : List D) : (l : List (PyVal Nat)) →
    readOuts (env.map g) l = (readOuts env l).map (mapAll g)
  | [] => rfl
  | x :: xs => by
    simp only [readOuts, readOut_map g env x, readOuts_map g env xs]
    rcases readOut env x with e | d
    · rfl
    · rcases readOuts env xs with e | ds <;> rfl
end

theorem startEnv_map (f : Fn P) {D E : Type} (g : D → E) (key : D) (args : List (PyVal D)) :
    startEnv f (g key) (mapAll g args) = (startEnv f key args).map g := by
  unfold startEnv
  rw [leavesAll_map]
  split <;> simp

/-- What tracing finds, where it does not stop at an `if`, is what the concrete run does. -/
theorem run_abs (J : Jax P V A) (oc oa : String → Bool → Except Err Bool)
    (ho : ∀ k d, oa k d = .error .concretization ∨ oa k d = oc k d) (prog : Prog P) : ∀ env : List V,
    run J.abs (fun _ => .error .concretization) oa prog (env.map J.aval) = .error .concretization ∨
      run J.abs (fun _ => .error .concretization) oa prog (env.map J.aval) =
        (run J.impl J.truth oc prog env).map (PyVal.map J.aval) := by
  induction prog with
  | ret out => intro env; right; exact readOut_map _ _ _
  | prim p ins rest ih =>
    intro env
    simp only [run, readVars_map]
    rcases readVars env ins with e | xs
    · right; rfl
    · simp only [Except.map, Except.bind, J.sound]
      rcases J.impl p xs with e | ys
      · right; rfl
      · simp only [← List.map_append]
        exact ih (env ++ ys)
  | branch x a b iha ihb =>
    intro env
    simp only [run, readVar_map]
    rcases readVar env x with e | v
    · right; rfl
    · left; rfl
  | option k d a b iha ihb =>
    intro env
    simp only [run]
    rcases ho k d with h | h
    · left; rw [h]; rfl
    · rw [h]
      rcases oc k d with e | t
      · right; rfl
      · cases t
        · exact ihb env
        · exact iha env

theorem run_noBranch (J : Jax P V A) (o : String → Bool → Except Err Bool) (prog : Prog P) (hp : prog.NoBranch) :
    ∀ env : List V, run J.abs (fun _ => .error .concretization) o prog (env.map J.aval) =
        (run J.impl J.truth o prog env).map (PyVal.map J.aval) := by
  induction prog with
  | ret out => intro env; exact readOut_map _ _ _
  | prim p ins rest ih =>
    intro env
    simp only [run, readVars_map]
    rcases readVars env ins with e | xs
    · rfl
    · simp only [Except.map, Except.bind, J.sound]
      rcases J.impl p xs with e | ys
      · rfl
      · simp only [← List.map_append]
        exact ih hp (env ++ ys)
  | branch x a b iha ihb => exact absurd hp id
  | option k d a b iha ihb =>
    intro env
    simp only [run]
    rcases o k d with e | t
    · rfl
    · cases t
      · exact ihb hp.2 env
      · exact iha hp.1 env

theorem specOfArg_eq (J : Jax P V A) : specOfArg J = shapeOf J := by
  funext x
  cases x <;> rfl

theorem tracedOption_nil : tracedOption [] = staticOption [] := rfl

/-! ### Theorems -/

/-- C91.  If `state.spec(f)` returns a spec for arguments, then `f` returns, on every arguments of these shapes and dtypes,
with every key, something with that spec. -/
theorem C91_spec_sound (J : Jax P V A) (f : Fn P) (args : List (PyVal (V ⊕ A))) (kw : Kw) (s : PyVal A)
    (h : fnSpec J f args kw = .ok s) (key : V) (hk : J.aval key = J.aval J.key0) (vals : List (PyVal V))
    (hv : mapAll J.aval vals = mapAll (shapeOf J) args) :
    ∃ out, callFn J f key vals kw = .ok out ∧ out.map J.aval = s := by
  simp only [fnSpec, specOfArg_eq] at h
  split at h
  · rw [← hv, containers_map, ← hk, startEnv_map] at h
    unfold callFn
    rcases hb : f.body (containers vals) with e | prog <;> rw [hb] at h
    · exact absurd h (by simp [Except.bind])
    · simp only [Except.bind] at h ⊢
      have ho : ∀ k d, tracedOption kw k d = .error .concretization ∨ tracedOption kw k d = staticOption kw k d := by
        intro k d
        unfold tracedOption staticOption
        rcases kw.lookup k with _ | v
        · right; rfl
        · left; rfl
      rcases run_abs J (staticOption kw) (tracedOption kw) ho prog (startEnv f key vals) with h1 | h1 <;> rw [h] at h1
      · exact absurd h1 (by simp)
      · rcases hr : run J.impl J.truth (staticOption kw) prog (startEnv f key vals) with e | out <;> rw [hr] at h1
        · exact absurd h1 (by simp [Except.map])
        · refine ⟨out, rfl, ?_⟩
          simp only [Except.map, Except.ok.injEq] at h1
          exact h1.symm
  · exact absurd h (by simp)

/-- C91 (partial: no keyword arguments).  For a function that JAX can trace, `state.spec(f)(*args)` is the spec of
`f(*vals)`, for all arguments of these shapes and dtypes and every key; the one raises if and only if the other does. -/
theorem C91_spec_partial (J : Jax P V A) (f : Fn P) (hf : Traceable f) (args : List (PyVal (V ⊕ A))) (key : V)
    (hk : J.aval key = J.aval J.key0) (vals : List (PyVal V)) (hv : mapAll J.aval vals = mapAll (shapeOf J) args) :
    fnSpec J f args [] = (callFn J f key vals []).map (PyVal.map J.aval) := by
  simp only [fnSpec, specOfArg_eq, callFn, List.all_nil, if_true]
  rw [← hv, containers_map, ← hk, startEnv_map]
  rcases hb : f.body (containers vals) with e | prog
  · rfl
  · simp only [Except.bind, tracedOption_nil]
    exact run_noBranch J _ prog (hf _ _ hb) _

/-- C91.  What `init` stages, with any keyword arguments, has the shapes of what the function returns: keyword arguments
keep their values. -/
theorem C91_stage (J : Jax P V A) (f : Fn P) (hf : Traceable f) (kw : Kw) (key : V)
    (hk : J.aval key = J.aval J.key0) (vals : List (PyVal V)) :
    stageFn J f (mapAll J.aval vals) kw = (callFn J f key vals kw).map (PyVal.map J.aval) := by
  simp only [stageFn, callFn]
  rw [containers_map, ← hk, startEnv_map]
  rcases hb : f.body (containers vals) with e | prog
  · rfl
  · simp only [Except.bind]
    exact run_noBranch J _ prog (hf _ _ hb) _

/-- C91.  `init` and calls follow the branch that the given value of a keyword argument selects. -/
theorem C91_static_option (J : Jax P V A) (f : Fn P) (kw : Kw) (k : String) (v : KwVal) (d : Bool) (a b : Prog P)
    (hk : kw.lookup k = some v) (key : V) (vals : List (PyVal V)) (specs : List (PyVal A))
    (hb : f.body (containers vals) = .ok (.option k d a b)) (hs : containers specs = containers vals) :
    callFn J f key vals kw = callFn J ⟨f.hasKey, fun _ => .ok (if v.truth then a else b)⟩ key vals kw ∧
    stageFn J f specs kw = stageFn J ⟨f.hasKey, fun _ => .ok (if v.truth then a else b)⟩ specs kw := by
  constructor
  · simp only [callFn, hb, Except.bind, run, staticOption, hk]
    cases v.truth <;> rfl
  · simp only [stageFn, hs, hb, Except.bind, run, staticOption, hk]
    cases v.truth <;> rfl

/-- C91 (negation).  A function that tests a keyword argument has no spec when that argument is given, whatever the
arguments, although `init` accepts it and calls work (`C91_stage`). -/
theorem C91_kwargs_raises (J : Jax P V A) (f : Fn P) (args : List (PyVal (V ⊕ A))) (kw : Kw) (k : String) (d : Bool)
    (a b : Prog P) (hb : f.body (containers args) = .ok (.option k d a b)) (hk : kw.lookup k ≠ none) :
    fnSpec J f args kw = .error .concretization ∨ fnSpec J f args kw = .error .notArray := by
  simp only [fnSpec, containers_map, hb]
  split
  · left
    simp only [Except.bind, run, tracedOption]
    rcases h : kw.lookup k with _ | v
    · exact absurd h hk
    · rfl
  · right; rfl

/-- C91 (negation).  A keyword argument that is not an array type makes `state.spec` raise for every function. -/
theorem C91_kwargs_notArray (J : Jax P V A) (f : Fn P) (args : List (PyVal (V ⊕ A))) (kw : Kw)
    (h : ∃ x ∈ kw, x.2.traceable = false) : fnSpec J f args kw = .error .notArray := by
  simp only [fnSpec]
  rw [if_neg]
  intro hall
  obtain ⟨x, hx, ht⟩ := h
  rw [List.all_eq_true] at hall
  rw [hall x hx] at ht
  exact absurd ht (by simp)

theorem readOut_notLst {D : Type} (env : List D) (out : PyVal Nat) (v : PyVal D) (h : readOut env out = .ok v)
    (hn : notLst out) : notLst v := by
  cases out with
  | arr i =>
    simp only [readOut] at h
    rcases hr : readVar env i with e | d <;> rw [hr] at h
    · exact absurd h (by simp [Except.map])
    · simp only [Except.map, Except.ok.injEq] at h
      subst h; trivial
  | tup l =>
    simp only [readOut] at h
    rcases hr : readOuts env l with e | d <;> rw [hr] at h
    · exact absurd h (by simp [Except.map])
    · simp only [Except.map, Except.ok.injEq] at h
      subst h; trivial
  | lst l => exact absurd hn id

theorem run_notLst {D : Type} (bind : P → List D → Except Err (List D)) (truth : D → Except Err Bool)
    (o : String → Bool → Except Err Bool) (prog : Prog P) (hp : prog.NoList) : ∀ env v,
    run bind truth o prog env = .ok v → notLst v := by
  induction prog with
  | ret out => intro env v h; exact readOut_notLst env out v h hp
  | prim p ins rest ih =>
    intro env v h
    simp only [run] at h
    rcases h1 : readVars env ins with e | xs <;> rw [h1] at h
    · exact absurd h (by simp [Except.bind])
    · simp only [Except.bind] at h
      rcases h2 : bind p xs with e | ys <;> rw [h2] at h
      · exact absurd h (by simp)
      · exact ih hp _ v h
  | branch x a b iha ihb =>
    intro env v h
    simp only [run] at h
    rcases h1 : readVar env x with e | d <;> rw [h1] at h
    · exact absurd h (by simp [Except.bind])
    · simp only [Except.bind] at h
      rcases h2 : truth d with e | t <;> rw [h2] at h
      · exact absurd h (by simp)
      · cases t
        · exact ihb hp.2 env v h
        · exact iha hp.1 env v h
  | option k d a b iha ihb =>
    intro env v h
    simp only [run] at h
    rcases h2 : o k d with e | t <;> rw [h2] at h
    · exact absurd h (by simp [Except.bind])
    · cases t
      · exact ihb hp.2 env v h
      · exact iha hp.1 env v h

/-- C91 (partial: no keyword arguments, no Python lists as results).  The spec of any nesting of lists and tuples of
functions that JAX can trace is the spec of what calling it returns: `spec([f, g])(x)` that of `g(f(x))`. -/
theorem C91_seq_partial (J : Jax P V A) (key : V) (hk : J.aval key = J.aval J.key0) (o : Obj (Fn P))
    (hf : Related (fun f f' => f = f' ∧ Traceable f ∧ ∀ st prog, f.body st = .ok prog → prog.NoList) o o)
    (args : List (PyVal V)) (out : PyVal V) (o' : Obj (Fn P))
    (h : callAndUpdate (fun f xs => (callFn J f key xs []).map (fun y => (y, f))) Err.emptyTuple o args = .ok (out, o')) :
    spec (fun f ss => fnSpec J f (mapAll Sum.inr ss) []) Err.emptyTuple o (mapAll J.aval args) =
      .ok (out.map J.aval) := by
  refine (spec_sound (step := fun f xs => (callFn J f key xs []).map (fun y => (y, f))) (emptyTuple := Err.emptyTuple)
    (fun f ss => fnSpec J f (mapAll Sum.inr ss) []) J.aval _ ?_ o o args out o' hf h).1
  rintro t s xs w s' ⟨rfl, ht, hl⟩ hs
  rcases hc : callFn J t key xs [] with e | y <;> simp only [hc] at hs
  · exact absurd hs (by simp [Except.map])
  · simp only [Except.map, Except.ok.injEq, Prod.mk.injEq] at hs
    obtain ⟨rfl, rfl⟩ := hs
    refine ⟨?_, ⟨rfl, ht, hl⟩, ?_⟩
    · rw [C91_spec_partial J t ht _ key hk xs ?_, hc]
      · rfl
      · rw [mapAll_comp, mapAll_comp]
        rfl
    · unfold callFn at hc
      rcases hb : t.body (containers xs) with e | prog <;> rw [hb] at hc
      · exact absurd hc (by simp [Except.bind])
      · exact run_notLst _ _ _ prog (hl _ _ hb) _ _ hc

/-! ### Witnesses -/

/-- Vectors; their shape is the length.  `false` adds two vectors, `true` concatenates two. -/
def demoJ : Jax Bool (List Int) Nat where
  aval := List.length
  truth v := match v with
    | [x] => .ok (x ≠ 0)
    | _ => .error .shape
  impl p xs := match p, xs with
    | false, [a, b] => if a.length = b.length then .ok [a.zipWith (· + ·) b] else .error .shape
    | true, [a, b] => .ok [a ++ b]
    | _, _ => .error .shape
  abs p xs := match p, xs with
    | false, [a, b] => if a = b then .ok [a] else .error .shape
    | true, [a, b] => .ok [a + b]
    | _, _ => .error .shape
  sound p xs := by
    cases p <;> rcases xs with _ | ⟨a, _ | ⟨b, _ | ⟨c, r⟩⟩⟩ <;> simp [Except.map]
    split
    · rename_i h; simp [h]
    · rfl
  key0 := [0, 0]

/-- `lambda x, init_key, training=False: (concatenate(init_key, x), x + x) if training else (x + x, x)`. -/
def demoF : Fn Bool where
  hasKey := true
  body st := match st with
    | [.arr _] => .ok (.option "training" false
        (.prim true [0, 1] (.prim false [1, 1] (.ret (.tup [.arr 2, .arr 3]))))
        (.prim false [1, 1] (.ret (.tup [.arr 2, .arr 1]))))
    | _ => .error .structure

theorem demoF_traceable : Traceable demoF := by
  intro st prog h
  rcases st with _ | ⟨x, _ | ⟨y, r⟩⟩
  · simp [demoF] at h
  · cases x <;> simp only [demoF, Except.ok.injEq, reduceCtorEq] at h
    subst h
    simp [Prog.NoBranch]
  · cases x <;> simp [demoF] at h

/-- With the default, the spec; with `training=True`, `init` and calls work and `spec` raises. -/
example : fnSpec demoJ demoF [.arr (.inr 3)] [] = .ok (.tup [.arr 3, .arr 3]) ∧
    callFn demoJ demoF [5, 6] [.arr [1, 2, 3]] [] = .ok (.tup [.arr [2, 4, 6], .arr [1, 2, 3]]) ∧
    stageFn demoJ demoF [.arr 3] [("training", ⟨true, true⟩)] = .ok (.tup [.arr 5, .arr 3]) ∧
    callFn demoJ demoF [5, 6] [.arr [1, 2, 3]] [("training", ⟨true, true⟩)] =
      .ok (.tup [.arr [5, 6, 1, 2, 3], .arr [2, 4, 6]]) ∧
    fnSpec demoJ demoF [.arr (.inr 3)] [("training", ⟨true, true⟩)] = .error .concretization ∧
    fnSpec demoJ demoF [.arr (.inr 3)] [("mode", ⟨true, false⟩)] = .error .notArray :=
  ⟨rfl, rfl, rfl, rfl, rfl, rfl⟩

/-- `lambda a, b: concatenate(a, b)`. -/
def demoG : Fn Bool where
  hasKey := false
  body st := match st with
    | [.arr _, .arr _] => .ok (.prim true [0, 1] (.ret (.arr 2)))
    | _ => .error .structure

theorem demoG_ok : Traceable demoG ∧ ∀ st prog, demoG.body st = .ok prog → prog.NoList := by
  constructor <;> intro st prog h
  all_goals
    rcases st with _ | ⟨x, _ | ⟨y, _ | ⟨z, r⟩⟩⟩
    · simp [demoG] at h
    · cases x <;> simp [demoG] at h
    · cases x <;> cases y <;> simp only [demoG, Except.ok.injEq, reduceCtorEq] at h
      subst h
      simp [Prog.NoBranch, Prog.NoList, notLst]
    · cases x <;> cases y <;> simp [demoG] at h

theorem demoF_noList : ∀ st prog, demoF.body st = .ok prog → prog.NoList := by
  intro st prog h
  rcases st with _ | ⟨x, _ | ⟨y, r⟩⟩
  · simp [demoF] at h
  · cases x <;> simp only [demoF, Except.ok.injEq, reduceCtorEq] at h
    subst h
    simp [Prog.NoList, notLst]
  · cases x <;> simp [demoF] at h

/-- The list `[f, g]`: its hypotheses, its call and its spec. -/
example : Related (fun f f' => f = f' ∧ Traceable f ∧ ∀ st prog, f.body st = .ok prog → prog.NoList)
      (.lst [.leaf demoF, .leaf demoG]) (.lst [.leaf demoF, .leaf demoG]) ∧
    callAndUpdate (fun f xs => (callFn demoJ f [5, 6] xs []).map (fun y => (y, f))) Err.emptyTuple
        (.lst [.leaf demoF, .leaf demoG]) [.arr [1, 2, 3]] =
      .ok (.arr [2, 4, 6, 1, 2, 3], .lst [.leaf demoF, .leaf demoG]) ∧
    spec (fun f ss => fnSpec demoJ f (mapAll Sum.inr ss) []) Err.emptyTuple (.lst [.leaf demoF, .leaf demoG]) [.arr 3] =
      .ok (.arr 6) := by
  refine ⟨⟨⟨rfl, demoF_traceable, demoF_noList⟩, ⟨rfl, demoG_ok⟩, trivial⟩, rfl, rfl⟩

end Verif.State.FnSpec
