import Mathlib.Probability.Independence.InfinitePi
import Mathlib.Data.Real.Basic
import Mathlib.MeasureTheory.Constructions.BorelSpace.Real

/-!
# Programs with plates: `ppl.plate`, `random_variable(…, plate=…)` and named axes

Model of `/repo/oryx/core/ppl/plate_util.py:59-71` and `/repo/oryx/core/ppl/transformations.py:254-364` (the
parts that draw samples and tag them), run under `jax.vmap(…, axis_name=…)`.

Conventions (simplifications):

* A PRNG key is the path of `PRNGKey`, `random.split` and `random.fold_in` operations that produced it, the last
  one first. The randomness of a key is `ω key` for a function `ω : Key → Ω`: the generator is idealised, in that
  different paths are different keys. The samplers of JAX and TFP are functions of `ω key` and of values.
* Values are real numbers, variables are numbered; `prim` stands for any deterministic computation.
* A program given to `plate` draws only from the key it is given (it does not close over other keys), as
  `f(key, *args)`; it can read every value.
* `lax.axis_index(a)` is the index of the lane along the axis `a` that an enclosing `vmap(…, axis_name=a)` (or
  `pmap`) maps over; `none`: no such axis is in scope.
* Tagged values are reaped with mode `strict` (`transformations.py:284`). The harvest of a call primitive passes
  the names of its body on to the caller (`harvest.py:569-584`, modelled in `Verif.Harvest`).
-/

namespace Verif.Plate

/-- The operations that derive keys (`jax.random`, used at plate_util.py:64). -/
inductive Step where
  | seed (n : ℕ)
  | split (n i : ℕ)
  | foldIn (i : ℕ)
deriving DecidableEq

/-- A key: the operations that produced it, the last one first (`jax.random`, used at plate_util.py:64). -/
abbrev Key := List Step

/-- A probabilistic program as the sequence of its operations (the programs of transformations.py:254-364).
`plate x a k body r rest`: `x = plate(f, name=a)(key_k, …)`, where `f` runs `body` and returns variable `r`. -/
inductive Prog (Ω : Type) where
  | done
  | prim (x : ℕ) (g : (ℕ → ℝ) → ℝ) (rest : Prog Ω)
  | split (y k n i : ℕ) (rest : Prog Ω)
  | foldIn (y k i : ℕ) (rest : Prog Ω)
  | draw (x k : ℕ) (h : Ω → (ℕ → ℝ) → ℝ) (rest : Prog Ω)
  | tag (name : String) (x : ℕ) (rest : Prog Ω)
  | plate (x : ℕ) (axis : String) (k : ℕ) (body : Prog Ω) (r : ℕ) (rest : Prog Ω)

/-- `NameError` of `lax.axis_index` (plate_util.py:64), and the `ValueError` of harvest for a name that is
tagged twice (harvest.py:511-516). -/
inductive Err where
  | noAxis (axis : String)
  | duplicate (name : String)
deriving DecidableEq

variable {Ω : Type}

/-- Store a value or a key (an assignment in the program; the environment of transformations.py:254-364). -/
def set {α : Type} (env : ℕ → α) (x : ℕ) (v : α) : ℕ → α := fun y => if y = x then v else env y

/-- The reaps of a call are sown again in the caller, in mode `strict` (harvest.py:569-584, 511-516). -/
def merge : List (String × ℝ) → List (String × ℝ) → Except Err (List (String × ℝ))
  | reaps, [] => .ok reaps
  | reaps, (n, v) :: inner =>
    if (reaps.map Prod.fst).contains n then .error (.duplicate n) else merge (reaps ++ [(n, v)]) inner

/-- Running a program in one lane: `axes` gives the lane's index along every axis in scope. Returns the final
values and the reaped values, in order (`trace(f)`, transformations.py:390-392). The line of `plate` is
`make_plate`: `key = random.fold_in(key, lax.axis_index(name)); f(key, …)` (plate_util.py:59-71). -/
def exec (axes : String → Option ℕ) (ω : Key → Ω) :
    Prog Ω → (ℕ → Key) → (ℕ → ℝ) → List (String × ℝ) → Except Err ((ℕ → ℝ) × List (String × ℝ))
  | .done, _, env, reaps => .ok (env, reaps)
  | .prim x g rest, keys, env, reaps => exec axes ω rest keys (set env x (g env)) reaps
  | .split y k n i rest, keys, env, reaps =>
    exec axes ω rest (set keys y (.split n i :: keys k)) env reaps
  | .foldIn y k i rest, keys, env, reaps =>
    exec axes ω rest (set keys y (.foldIn i :: keys k)) env reaps
  | .draw x k h rest, keys, env, reaps =>
    exec axes ω rest keys (set env x (h (ω (keys k)) env)) reaps
  | .tag n x rest, keys, env, reaps =>
    if (reaps.map Prod.fst).contains n then .error (.duplicate n)
    else exec axes ω rest keys env (reaps ++ [(n, env x)])
  | .plate x a k body r rest, keys, env, reaps =>
    match axes a with
    | none => .error (.noAxis a)
    | some i => do
      let out ← exec axes ω body (fun _ => .foldIn i :: keys k) env []
      let reaps ← merge reaps out.2
      exec axes ω rest keys (set env x (out.1 r)) reaps

/-- `f(key, *args)` in one lane: every key of the program is derived from `key`
(the calling convention of transformations.py:254-364). -/
def call (axes : String → Option ℕ) (ω : Key → Ω) (f : Prog Ω) (key : Key) (args : ℕ → ℝ) :
    Except Err ((ℕ → ℝ) × List (String × ℝ)) :=
  exec axes ω f (fun _ => key) args []

/-- `plate(f, name=a)(key, *args)` in one lane (transformations.py:287-332, plate_util.py:59-71): the same
operations as inside a program. -/
def callPlate (a : String) (axes : String → Option ℕ) (ω : Key → Ω) (f : Prog Ω) (key : Key) (args : ℕ → ℝ) :
    Except Err ((ℕ → ℝ) × List (String × ℝ)) :=
  match axes a with
  | none => .error (.noAxis a)
  | some i => call axes ω f (.foldIn i :: key) args

/-- The axes in scope inside `vmap(…, axis_name=a)` in lane `i` (`jax.vmap`; example at
transformations.py:301-317). -/
def withAxis (axes : String → Option ℕ) (a : String) (i : ℕ) : String → Option ℕ :=
  fun b => if b = a then some i else axes b

/-- `vmap(prog, axis_name=a)(keys, args)`: the results of the lanes (`jax.vmap`; example at
transformations.py:301-317). -/
def vmap {β : Type} (a : String) (n : ℕ) (prog : (String → Option ℕ) → Key → (ℕ → ℝ) → β)
    (axes : String → Option ℕ) (keys : Fin n → Key) (args : Fin n → ℕ → ℝ) : Fin n → β :=
  fun i => prog (withAxis axes a i) (keys i) (args i)

/-- `random.split(key, n)` (`jax.random`; example at transformations.py:315). -/
def splitKeys (n : ℕ) (key : Key) : Fin n → Key := fun i => .split n i :: key

end Verif.Plate
