/-
Model of oryx/core/ppl/effect_handler.py: `eval_jaxpr_with_state`, the rules for call primitives and pjit, and
`make_effect_handler`.
-/
namespace Verif.Effect

/-- A literal or a variable (`Environment.read`, effect_handler.py:149-155). -/
inductive Atom (V : Type) where
  | lit (v : V)
  | var (x : Nat)

/-- The equations of a jaxpr followed by its outvars.  `P` are the primitives (with their parameters).
`prim` is an equation evaluated by a user handler or `bind`; `inner` lists the primitives inside the jaxprs it may
have among its parameters (scan, cond, while).  `call` is an equation of a call primitive or
`pjit`, with the jaxpr it calls (the argument `jaxpr` of effect_handler.py:164-212).  Simplification: map primitives
are not modelled (their `in_axes` are not extended for the leaves of the state, 243-252). -/
inductive Code (P V : Type) where
  | done (outs : List (Atom V))
  | prim (p : P) (inner : List P) (ins : List (Atom V)) (outs : List Nat) (rest : Code P V)
  | call (p : P) (constvars invars : List Nat) (body : Code P V) (ins : List (Atom V)) (outs : List Nat)
      (rest : Code P V)

/-- `Environment.env` (effect_handler.py:134-161). -/
abbrev Env (V : Type) := Nat → Option V

variable {P V S : Type}

/-- `Environment.read` (effect_handler.py:149-155); `none` is the `ValueError`. -/
def read (env : Env V) : Atom V → Option V
  | .lit v => some v
  | .var x => env x

/-- `safe_map(env.write, vars, vals)` (effect_handler.py:157-161, 189-190, 208-211); `none` for different lengths. -/
def writeAll (env : Env V) : List Nat → List V → Option (Env V)
  | [], [] => some env
  | x :: xs, v :: vs => writeAll (fun y => if y = x then some v else env y) xs vs
  | _, _ => none

/-- The handlers: from a primitive to a function of the state and the operands.
(the dictionary `rules` of effect_handler.py:164-212). -/
abbrev Rules (P V S : Type) := P → Option (S → List V → Option (List V × S))

/-- `eqn.primitive.bind(*invals, **params)` (effect_handler.py:207).  The evaluator does not call `get_bind_params`, as
`jax.core.eval_jaxpr` does, so that binding a primitive that takes functions as arguments (`needs`: `custom_jvp_call`,
`custom_vjp_call`) raises; `ref` is what the primitive computes. -/
def rawBind (needs : P → Bool) (ref : P → List V → Option (List V)) : P → List V → Option (List V) :=
  fun p xs => if needs p then none else ref p xs

/-- The last two branches of effect_handler.py:204-207: the handler of the primitive, or `bind`. -/
def execPrim (bind : P → List V → Option (List V)) (rules : Rules P V S) (p : P) (s : S) (xs : List V) :
    Option (List V × S) :=
  match rules p with
  | some h => h s xs
  | none => (bind p xs).map (fun a => (a, s))

/-- `eval_jaxpr_with_state` (effect_handler.py:164-212) with `default_call_interpreter_rule` (215-252) and
`_pjit_effect_handler_rule` (262-302), from the environment on.  Binding a call primitive to the traced function
is evaluating the function; a call body is evaluated with no consts (239, 268).  `bind` is `rawBind`.  The result of a primitive is a
list, of length one without `multiple_results`. -/
def eval (bind : P → List V → Option (List V)) (rules : Rules P V S) : Code P V → Env V → S → Option (List V × S)
  | .done outs, env, s => (outs.mapM (read env)).map (fun vs => (vs, s))
  | .prim p _ ins outs rest, env, s => do
    let xs ← ins.mapM (read env)
    let r ← execPrim bind rules p s xs
    let env' ← writeAll env outs r.1
    eval bind rules rest env' r.2
  | .call _ constvars invars body ins outs rest, env, s => do
    let xs ← ins.mapM (read env)
    let e1 ← writeAll (fun _ => none) constvars []
    let e2 ← writeAll e1 invars xs
    let r ← eval bind rules body e2 s
    let env' ← writeAll env outs r.1
    eval bind rules rest env' r.2

/-- `make_effect_handler(handlers)(f)(state, *args)` (effect_handler.py:305-343), where `f` is traced to a jaxpr
with constants.  Pytrees are flat lists. -/
def effectHandler (bind : P → List V → Option (List V)) (rules : Rules P V S) (constvars invars : List Nat)
    (body : Code P V) (consts : List V) (s : S) (args : List V) : Option (List V × S) := do
  let e1 ← writeAll (fun _ => none) constvars consts
  let e2 ← writeAll e1 invars args
  eval bind rules body e2 s

/-- `jax.core.eval_jaxpr`: plain evaluation; a call evaluates its body (the reference semantics, not part of oryx). -/
def plain (bind : P → List V → Option (List V)) : Code P V → Env V → Option (List V)
  | .done outs, env => outs.mapM (read env)
  | .prim p _ ins outs rest, env => do
    let xs ← ins.mapM (read env)
    let r ← bind p xs
    let env' ← writeAll env outs r
    plain bind rest env'
  | .call _ constvars invars body ins outs rest, env => do
    let xs ← ins.mapM (read env)
    let e1 ← writeAll (fun _ => none) constvars []
    let e2 ← writeAll e1 invars xs
    let r ← plain bind body e2
    let env' ← writeAll env outs r
    plain bind rest env'

end Verif.Effect
