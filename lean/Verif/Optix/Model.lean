import Mathlib.Analysis.SpecialFunctions.Sqrt
import Mathlib.Analysis.SpecialFunctions.Pow.Real
import Mathlib.Algebra.Order.Floor.Ring
import Mathlib.Algebra.BigOperators.Fin

/-!
# Model of `oryx.experimental.optimizers.optix`

`/repo/oryx/experimental/optimizers/optix.py`, with the part of `oryx.core.state` it relies on
(`core/state/function.py`, `core/state/module.py`).

Conventions (simplifications):

* A pytree of updates or parameters with a fixed structure is the vector `ι → ℝ` of all the entries
  of all its leaves; `tree_map` of an elementwise function is the pointwise function. Only `clip`
  looks at the tree structure and has its own model (`clipTree`).
* Floats are real numbers.
* A stateful function (one with an `init_key` keyword) is given by what `state.init` observes of it:
  the variables it declares (`init`, the `reap` of the tag `variable`) and, given values planted for
  the variables, its output and the assignments it makes (`run`, the `plant`/`harvest` composition).
  That `init` and `call_and_update` of a function are exactly these two is C21-C22
  (`Verif.State`).
-/

namespace Verif.Optix

/-- The value of a variable of a module: an array of the shape of the updates, a scalar, a PRNG key
or a nested module (its variables) (the values given to `state.variable` in optix.py:88-246). -/
inductive Val (ι : Type) where
  | arr (a : ι → ℝ)
  | num (x : ℝ)
  | key (k : Nat)
  | mod (vars : List (String × Val ι))

/-- `variables` dictionaries, `core/state/function.py:159-167`. -/
abbrev Vars (ι : Type) := List (String × Val ι)

/-- Exceptions. `undeclared` is `ValueError: No variable declared for assign`
(`core/state/function.py:193`), `duplicate` is `Variable has already been reaped`
(`core/interpreters/harvest.py:516`), `missing` is a variable of the wrong kind. -/
inductive Err where
  | undeclared (name : String)
  | duplicate (name : String)
  | missing (name : String)
  | unexpectedKeyword
  deriving DecidableEq

/-- A function `update(updates, params[, init_key])`. A function without `init_key` declares no
variables and assigns none (`core/state/function.py:256-264`). `takesKey` says whether the function has
the keyword argument `init_key`. -/
structure Fn (ι : Type) where
  takesKey : Bool := true
  init : (ι → ℝ) → (ι → ℝ) → Except Err (Vars ι)
  run : Vars ι → (ι → ℝ) → (ι → ℝ) → Except Err ((ι → ℝ) × Vars ι)

variable {ι : Type}

/-- `{**variables, **assigns}` for assigned names that are all declared,
`core/state/function.py:194`. -/
def overwrite (vars assigns : Vars ι) : Vars ι :=
  vars.map fun kv => (kv.1, (assigns.lookup kv.1).getD kv.2)

/-- `FunctionModule.call_and_update`, `core/state/function.py:189-194`. -/
def callAndUpdate (f : Fn ι) (vars : Vars ι) (updates params : ι → ℝ) :
    Except Err ((ι → ℝ) × Vars ι) := do
  let r ← f.run vars updates params
  match r.2.find? (fun kv => (vars.lookup kv.1).isNone) with
  | some kv => throw (.undeclared kv.1)
  | none => pure (r.1, overwrite vars r.2)

/-! ### Stateless transformations -/

/-- A function without the `init_key` keyword, `core/state/function.py:256-264`. -/
def pureFn (g : (ι → ℝ) → (ι → ℝ) → (ι → ℝ)) : Fn ι where
  takesKey := false
  init _ _ := .ok []
  run _ u p := .ok (g u p, [])

/-- `scale(step_size)`, `optix.py:175-181`. -/
def scale (stepSize : ℝ) : Fn ι := pureFn fun u _ i => stepSize * u i

/-- `global_norm`, `optix.py:69-71`: the sum over leaves of sums of squares. -/
noncomputable def globalNorm [Fintype ι] (items : ι → ℝ) : ℝ := Real.sqrt (∑ i, items i ^ 2)

/-- `clip_by_global_norm(max_norm)`, `optix.py:74-85`. -/
noncomputable def clipByGlobalNormMap [Fintype ι] (maxNorm : ℝ) (updates : ι → ℝ) : ι → ℝ :=
  let gNorm := globalNorm updates
  fun i => if gNorm < maxNorm then updates i else updates i * (maxNorm / gNorm)

/-- `clip_by_global_norm` as an update function (optix.py:74-85). -/
noncomputable def clipByGlobalNorm [Fintype ι] (maxNorm : ℝ) : Fn ι :=
  pureFn fun u _ => clipByGlobalNormMap maxNorm u

/-! ### Stateful transformations -/

/-- Read an array variable (a planted `state.variable`) (optix.py:88-172). -/
def getArr (vars : Vars ι) (name : String) : Except Err (ι → ℝ) :=
  match vars.lookup name with
  | some (.arr a) => .ok a
  | _ => .error (.missing name)

/-- Read a scalar variable (optix.py:151-246). -/
def getNum (vars : Vars ι) (name : String) : Except Err ℝ :=
  match vars.lookup name with
  | some (.num a) => .ok a
  | _ => .error (.missing name)

/-- Read a key variable (optix.py:200-220). -/
def getKey (vars : Vars ι) (name : String) : Except Err Nat :=
  match vars.lookup name with
  | some (.key a) => .ok a
  | _ => .error (.missing name)

/-- `trace(decay, nesterov)`, `optix.py:88-104`. -/
def trace (decay : ℝ) (nesterov : Bool) : Fn ι where
  init _ _ := .ok [("trace", .arr fun _ => 0)]
  run vars u _ := do
    let tr ← getArr vars "trace"
    let f := fun (g t : ι → ℝ) i => g i + decay * t i
    let updateTrace := f u tr
    let out := if nesterov then f u updateTrace else updateTrace
    pure (out, [("trace", .arr updateTrace)])

/-- `_update_moment`, `optix.py:107-109`. -/
def updateMoment (updates moments : ι → ℝ) (decay : ℝ) (order : Nat) : ι → ℝ :=
  fun i => (1 - decay) * updates i ^ order + decay * moments i

/-- `scale_by_rms(decay, eps)`, `optix.py:112-127`. -/
noncomputable def scaleByRms (decay eps : ℝ) : Fn ι where
  init _ _ := .ok [("nu", .arr fun _ => 0)]
  run vars u _ := do
    let nu ← getArr vars "nu"
    let nu := updateMoment u nu decay 2
    pure (fun i => u i / Real.sqrt (nu i + eps), [("nu", .arr nu)])

/-- `scale_by_stddev(decay, eps)`, `optix.py:130-148`. -/
noncomputable def scaleByStddev (decay eps : ℝ) : Fn ι where
  init _ _ := .ok [("mu", .arr fun _ => 0), ("nu", .arr fun _ => 0)]
  run vars u _ := do
    let mu ← getArr vars "mu"
    let nu ← getArr vars "nu"
    let mu := updateMoment u mu decay 1
    let nu := updateMoment u nu decay 2
    pure (fun i => u i / Real.sqrt (nu i - mu i ^ 2 + eps), [("mu", .arr mu), ("nu", .arr nu)])

/-- `scale_by_adam(b1, b2, eps)`, `optix.py:151-172`. -/
noncomputable def scaleByAdam (b1 b2 eps : ℝ) : Fn ι where
  init _ _ := .ok [("count", .num 0), ("mu", .arr fun _ => 0), ("nu", .arr fun _ => 0)]
  run vars u _ := do
    let count ← getNum vars "count"
    let mu ← getArr vars "mu"
    let nu ← getArr vars "nu"
    let mu := updateMoment u mu b1 1
    let nu := updateMoment u nu b2 2
    let count := count + 1
    let muHat := fun i => mu i / (1 - b1 ^ count)
    let nuHat := fun i => nu i / (1 - b2 ^ count)
    pure (fun i => muHat i / (Real.sqrt (nuHat i) + eps),
      [("mu", .arr mu), ("nu", .arr nu), ("count", .num count)])

/-- `scale_by_schedule(step_size_fn)`, `optix.py:184-197`. -/
def scaleBySchedule (stepSizeFn : ℝ → ℝ) : Fn ι where
  init _ _ := .ok [("count", .num 0)]
  run vars u _ := do
    let count ← getNum vars "count"
    pure (fun i => stepSizeFn count * u i, [("count", .num (count + 1))])

/-- `add_noise(eta, gamma, seed)`, `optix.py:200-220`. `draw k` is `random.split(k, num_vars + 1)`:
the next key and the standard normal noise drawn with the other keys. -/
noncomputable def addNoise (draw : Nat → Nat × (ι → ℝ)) (eta gamma : ℝ) (seed : Nat) : Fn ι where
  init _ _ := .ok [("count", .num 0), ("rng_key", .key seed)]
  run vars u _ := do
    let count ← getNum vars "count"
    let rngKey ← getKey vars "rng_key"
    let variance := eta / (1 + count) ^ gamma
    let d := draw rngKey
    pure (fun i => u i + variance * d.2 i, [("count", .num (count + 1)), ("rng_key", .key d.1)])

/-- Python's `%` on floats (optix.py:235). -/
noncomputable def fmod (a b : ℝ) : ℝ := a - b * ⌊a / b⌋

open Classical in
/-- `apply_every(k)`, `optix.py:223-246`. -/
noncomputable def applyEvery (k : Nat) : Fn ι where
  init _ _ := .ok [("count", .num 0), ("grad_acc", .arr fun _ => 0)]
  run vars u _ := do
    let count ← getNum vars "count"
    let gradAcc ← getArr vars "grad_acc"
    let c := fmod count k
    let acc : ℝ := if c ≠ 0 then 1 else 0
    let gradAcc := fun i => acc * gradAcc i + u i
    let emit : ℝ := if c = k - 1 then 1 else 0
    pure (fun i => emit * gradAcc i, [("grad_acc", .arr gradAcc), ("count", .num (count + 1))])

/-! ### chain -/

/-- The loop of `chain` during `init`, `optix.py:249-261`: `state.init(update_fn, name=name)` tags
the module as a variable if it has any (`core/state/function.py:289-293`, strict mode), then the
module is called on the current updates. -/
def chainInit : List (String × Fn ι) → Vars ι → (ι → ℝ) → (ι → ℝ) → Except Err (Vars ι)
  | [], acc, _, _ => .ok acc
  | (name, f) :: rest, acc, u, p => do
    let vars ← f.init u p
    let acc ← (if vars.isEmpty then pure acc
      else if (acc.lookup name).isSome then throw (.duplicate name)
      else pure (acc ++ [(name, .mod vars)]))
    let r ← callAndUpdate f vars u p
    chainInit rest acc r.1 p

/-- The loop of `chain` during a call. The module's variables are planted if it declared any
(`core/state/function.py:274-279`); `Module.__call__` (`core/state/module.py:144-147`) assigns the
updated module under its name. `recordEmpty` says whether `sow` of a module without variables (a
pytree without leaves) is recorded by `harvest`: see DESIGN.md, "optix". `assigns` in clobber
mode: a later assignment of the same name replaces an earlier one. -/
def chainRun (recordEmpty : Bool) :
    List (String × Fn ι) → Vars ι → Vars ι → (ι → ℝ) → (ι → ℝ) →
      Except Err ((ι → ℝ) × Vars ι)
  | [], _, assigns, u, _ => .ok (u, assigns)
  | (name, f) :: rest, planted, assigns, u, p => do
    let vars0 ← f.init u p
    let vars := if vars0.isEmpty then vars0
      else match planted.lookup name with
        | some (.mod vars) => vars
        | _ => vars0
    let r ← callAndUpdate f vars u p
    let assigns := if r.2.isEmpty && !recordEmpty then assigns
      else (assigns.filter fun kv => kv.1 != name) ++ [(name, .mod r.2)]
    chainRun recordEmpty rest planted assigns r.1 p

/-- `chain` of named update functions (optix.py:249-261). -/
def chainNamed (recordEmpty : Bool) (fns : List (String × Fn ι)) : Fn ι where
  init u p := chainInit fns [] u p
  run planted u p := chainRun recordEmpty fns planted [] u p

/-- `chain(*args, **kwargs)`, `optix.py:249-261`: positional functions are named `update_{i}`. -/
def chain (recordEmpty : Bool) (args : List (Fn ι)) (kwargs : List (String × Fn ι) := []) : Fn ι :=
  chainNamed recordEmpty ((args.zipIdx.map fun fi => (s!"update_{fi.2}", fi.1)) ++ kwargs)

/-- `sgd`, `optix.py:264-265`. -/
def sgd (recordEmpty : Bool) (learningRate momentum : ℝ) (nesterov : Bool) : Fn ι :=
  chain recordEmpty [trace momentum nesterov, scale (-learningRate)]

/-- `noisy_sgd`, `optix.py:268-271`. -/
noncomputable def noisySgd (recordEmpty : Bool) (draw : Nat → Nat × (ι → ℝ))
    (learningRate eta gamma : ℝ) (seed : Nat) : Fn ι :=
  chain recordEmpty [trace 0 false, scale (-learningRate), addNoise draw eta gamma seed]

/-- `adam`, `optix.py:274-275`. -/
noncomputable def adam (recordEmpty : Bool) (learningRate b1 b2 eps : ℝ) : Fn ι :=
  chain recordEmpty [scaleByAdam b1 b2 eps, scale (-learningRate)]

/-- `rmsprop`, `optix.py:278-282`. -/
noncomputable def rmsprop (recordEmpty : Bool) (learningRate decay eps : ℝ) (centered : Bool) : Fn ι :=
  if centered then chain recordEmpty [scaleByStddev decay eps, scale (-learningRate)]
  else chain recordEmpty [scaleByRms decay eps, scale (-learningRate)]

/-! ### Running an update function over a history -/

/-- Successive `call_and_update`s of a module: the outputs and the final variables.
(a history of calls of core/state/function.py:189-194). -/
def runFrom (f : Fn ι) : Vars ι → List ((ι → ℝ) × (ι → ℝ)) → Except Err (List (ι → ℝ) × Vars ι)
  | vars, [] => .ok ([], vars)
  | vars, (u, p) :: hist => do
    let r ← callAndUpdate f vars u p
    let rest ← runFrom f r.2 hist
    pure (r.1 :: rest.1, rest.2)

/-- `state.init(update)(key, updates, params)` on the first pair, then successive calls on the whole
history (a history of calls of core/state/function.py:189-194). -/
def runHist (f : Fn ι) : List ((ι → ℝ) × (ι → ℝ)) → Except Err (List (ι → ℝ))
  | [] => .ok []
  | (u, p) :: hist => do
    let vars ← f.init u p
    let r ← runFrom f vars ((u, p) :: hist)
    pure r.1

/-! ### Optimisation -/

/-- `apply_updates`, `optix.py:285-286`. -/
def applyUpdates (params updates : ι → ℝ) : ι → ℝ := fun i => params i + updates i

/-- The scan of `optimize`, `optix.py:299-315`, over `gradient_descent(update, objective)`
(`optix.py:289-296`): `grad` is `jax.grad(objective)`; the module `opt` has the variables of
`update`. -/
def optimizeFrom (grad : (ι → ℝ) → (ι → ℝ)) (update : Fn ι) :
    Nat → Vars ι → (ι → ℝ) → Except Err ((ι → ℝ) × Vars ι)
  | 0, vars, params => .ok (params, vars)
  | n + 1, vars, params => do
    let r ← callAndUpdate update vars (grad params) params
    optimizeFrom grad update n r.2 (applyUpdates params r.1)

/-- `optimize(objective, update, num_iters)`, `optix.py:299-315`. `gradient_descent` calls
`update(updates, params, init_key=init_key)` (`optix.py:293`): a `TypeError` if `update` has no such
keyword. `lax.scan` traces its body once, whatever the number of iterations (`optix.py:311`). -/
def optimize (grad : (ι → ℝ) → (ι → ℝ)) (update : Fn ι) (numIters : Nat) (params : ι → ℝ) :
    Except Err (ι → ℝ) := do
  if !update.takesKey then throw .unexpectedKeyword
  let vars ← update.init (grad params) params
  let _ ← callAndUpdate update vars (grad params) params
  let r ← optimizeFrom grad update numIters vars params
  pure r.1

/-! ### clip -/

/-- A pytree: a leaf (an array, given by the list of its entries), or a container of subtrees
(tuple, list or dictionary) (JAX pytrees, as mapped at optix.py:60-66). -/
inductive Tree where
  | leaf (a : List ℝ)
  | node (kids : List Tree)

/-- `jnp.clip(x, -max_delta, max_delta)` of an array (optix.py:64). -/
noncomputable def clipArr (maxDelta : ℝ) (a : List ℝ) : List ℝ :=
  a.map fun x => min (max x (-maxDelta)) maxDelta

/-- `jnp.clip` of any object: a `TypeError` (`none`) for a container (optix.py:64). -/
noncomputable def jnpClip (maxDelta : ℝ) : Tree → Option (List ℝ)
  | .leaf a => some (clipArr maxDelta a)
  | .node _ => none

mutual
/-- `tree_map(lambda g: …, updates)` for a function that may raise (optix.py:64). -/
def treeMapM (f : List ℝ → Option (List ℝ)) : Tree → Option Tree
  | .leaf a => (f a).map .leaf
  | .node kids => (treeMapAll f kids).map .node
/-- `tree_map` over the children (optix.py:64). -/
def treeMapAll (f : List ℝ → Option (List ℝ)) : List Tree → Option (List Tree)
  | [] => some []
  | t :: ts => do
    let t ← treeMapM f t
    let ts ← treeMapAll f ts
    pure (t :: ts)
end

/-- `clip(max_delta)`, `optix.py:60-66`: the function mapped over the leaves ignores its argument `g`
and clips the whole `updates`. -/
noncomputable def clipTree (maxDelta : ℝ) (updates : Tree) : Option Tree :=
  treeMapM (fun _g => jnpClip maxDelta updates) updates

end Verif.Optix
