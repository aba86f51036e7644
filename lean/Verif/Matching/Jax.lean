/-
JAX expressions and their evaluation (oryx/experimental/matching/jax_rewrite.py).

Values are an abstract type `V`, primitives an abstract type `P` with a semantics
`sem : P → List V → Option (List V)` and a flag `multi` (`multiple_results`).  Shapes, dtypes and
parameters are not modelled (parameters are part of `P`).
-/

namespace Verif.JaxRewrite

variable {V P : Type}

/-- JAX expressions: `JaxVar`, `Literal`, `Primitive`, `Part`, `BoundExpression`,
`CallPrimitive`/`PjitPrimitive` (jax_rewrite.py:285-739).  The name of a variable is a number. -/
inductive JExpr (V P : Type) where
  | var (name : Nat)
  | lit (v : V)
  | prim (p : P) (ops : List (JExpr V P))
  | part (e : JExpr V P) (i : Nat)
  | bound (es : List (JExpr V P)) (consts : List (Nat × V))
  | call (ops : List (JExpr V P)) (body : JExpr V P) (names : List Nat)

/-- What an expression evaluates to: one JAX value, or a tuple of them (jax_rewrite.py:221-252). -/
inductive Val (V : Type) where
  | one (v : V)
  | tuple (l : List V)

/-- An evaluation environment (jax_rewrite.py:218, `Env = Dict[str, Any]`). -/
abbrev Env (V : Type) := Nat → Option V

/-- `dict(zip(names, args))` on top of an environment: later entries win (jax_rewrite.py:678, 725). -/
def bindAll : List Nat → List V → Env V → Env V
  | n :: ns, a :: as, env => bindAll ns as (fun m => if m = n then some a else env m)
  | _, _, env => env

/-- `dict(zip(names, args, strict=True))` (jax_rewrite.py:678, 725, 845): an error if the lengths
differ. -/
def bindStrict (names : List Nat) (args : List V) : Option (Env V) :=
  if names.length = args.length then some (bindAll names args (fun _ => none)) else none

/-- `dict(self.consts, **env)` (jax_rewrite.py:612): the environment overrides the constants. -/
def withConsts (consts : List (Nat × V)) (env : Env V) : Env V := fun n =>
  match env n with
  | some v => some v
  | none => bindAll (consts.map Prod.fst) (consts.map Prod.snd) (fun _ => none) n

/-- The result of binding a primitive: a single value, or a tuple if `multiple_results`.
(`Primitive.evaluate`, jax_rewrite.py:502-506). -/
def primResult (multi : P → Bool) (sem : P → List V → Option (List V)) (p : P) (args : List V) :
    Option (Val V) :=
  match sem p args with
  | none => none
  | some rs => if multi p then some (.tuple rs) else
    match rs with
    | [r] => some (.one r)
    | _ => none

mutual
/-- `evaluate` (jax_rewrite.py:221-247, 279-282 and the `evaluate` methods).  Running the body of a call
primitive under its transformation is modelled as running it directly. -/
def evaluate (multi : P → Bool) (sem : P → List V → Option (List V)) :
    JExpr V P → Env V → Option (Val V)
  | .var n, env => (env n).bind fun v => some (.one v)                                -- 374-377
  | .lit v, _ => some (.one v)                                                         -- 314-316
  | .prim p ops, env => (evaluateL multi sem ops env).bind (primResult multi sem p)   -- 502-506
  | .part e i, env =>                                                                  -- 560-561
    (evaluate multi sem e env).bind fun r =>
      match r with
      | .tuple l => (l[i]?).bind fun v => some (.one v)
      | .one _ => none
  | .bound es consts, env =>                                                           -- 610-612
    (evaluateL multi sem es (withConsts consts env)).bind fun vs => some (.tuple vs)
  | .call ops body names, env =>                                                       -- 674-687, 721-737
    (evaluateL multi sem ops env).bind fun args =>
      (bindStrict names args).bind fun sub => evaluate multi sem body sub
/-- `evaluate_tuple` (jax_rewrite.py:250-252); the components are single values. -/
def evaluateL (multi : P → Bool) (sem : P → List V → Option (List V)) :
    List (JExpr V P) → Env V → Option (List V)
  | [], _ => some []
  | e :: es, env =>
    (evaluate multi sem e env).bind fun r =>
      match r with
      | .one v => (evaluateL multi sem es env).bind fun vs => some (v :: vs)
      | .tuple _ => none
end

/-! ### Jaxprs -/

/-- An input of an equation: a variable or a literal (`eqn.invars` at jax_rewrite.py:769-772). -/
inductive JAtom (V : Type) where
  | var (n : Nat)
  | lit (v : V)

mutual
/-- A jaxpr: constant variables, input variables, equations, outputs (the argument of jax_rewrite.py:759). -/
inductive Jaxpr (V P : Type) where
  | mk (constvars invars : List Nat) (eqns : List (JEqn V P)) (outs : List (JAtom V))
/-- An equation: a primitive, or a call (`call_jaxpr` of a call primitive, or the closed jaxpr of a
`pjit` with its constants) (jax_rewrite.py:788-803). -/
inductive JEqn (V P : Type) where
  | prim (p : P) (ins : List (JAtom V)) (outs : List Nat)
  | call (ins : List (JAtom V)) (body : Jaxpr V P) (consts : List V) (outs : List Nat)
end

/-- Reading an atom (JAX, not part of oryx). -/
def readAtom (env : Env V) : JAtom V → Option V
  | .var n => env n
  | .lit v => some v

/-- Reading several atoms (JAX, not part of oryx). -/
def readAtoms (env : Env V) : List (JAtom V) → Option (List V)
  | [] => some []
  | a :: as => (readAtom env a).bind fun v => (readAtoms env as).bind fun vs => some (v :: vs)

mutual
/-- The meaning of a jaxpr: `jax.core.eval_jaxpr` (the reference semantics, not part of oryx). -/
def evalJaxpr (sem : P → List V → Option (List V)) : Jaxpr V P → List V → List V → Option (List V)
  | .mk constvars invars eqns outs, consts, args =>
    if constvars.length = consts.length ∧ invars.length = args.length then
      (evalEqns sem eqns (bindAll invars args (bindAll constvars consts (fun _ => none)))).bind
        fun env => readAtoms env outs
    else none
/-- Running the equations in order (JAX, not part of oryx). -/
def evalEqns (sem : P → List V → Option (List V)) : List (JEqn V P) → Env V → Option (Env V)
  | [], env => some env
  | eqn :: eqns, env => (evalEqn sem eqn env).bind fun env' => evalEqns sem eqns env'
/-- Running one equation (JAX, not part of oryx). -/
def evalEqn (sem : P → List V → Option (List V)) : JEqn V P → Env V → Option (Env V)
  | .prim p ins outs, env =>
    (readAtoms env ins).bind fun args => (sem p args).bind fun rs =>
      if outs.length = rs.length then some (bindAll outs rs env) else none
  | .call ins body consts outs, env =>
    (readAtoms env ins).bind fun args => (evalJaxpr sem body consts args).bind fun rs =>
      if outs.length = rs.length then some (bindAll outs rs env) else none
end

/-! ### From jaxprs to expressions -/

/-- The environment of `jaxpr_to_expressions` (jax_rewrite.py:767). -/
abbrev EEnv (V P : Type) := Nat → Option (JExpr V P)

/-- `write_env` mapped over names and expressions (jax_rewrite.py:774-777, 782, 787, 808). -/
def writeAll : List Nat → List (JExpr V P) → EEnv V P → EEnv V P
  | n :: ns, e :: es, env => writeAll ns es (fun m => if m = n then some e else env m)
  | _, _, env => env

/-- `read_env` (jax_rewrite.py:769-772). -/
def readE (env : EEnv V P) : JAtom V → Option (JExpr V P)
  | .var n => env n
  | .lit v => some (.lit v)

/-- `read_env` mapped over atoms (jax_rewrite.py:789, 811). -/
def readEs (env : EEnv V P) : List (JAtom V) → Option (List (JExpr V P))
  | [] => some []
  | a :: as => (readE env a).bind fun v => (readEs env as).bind fun vs => some (v :: vs)

/-- Writing the outputs of an equation (jax_rewrite.py:806-810): `Part`s of a multiple-output expression,
or the expression itself. -/
def writeOut (multi : Bool) (out : JExpr V P) (outs : List Nat) (env : EEnv V P) : Option (EEnv V P) :=
  if multi then some (writeAll outs ((List.range outs.length).map fun i => .part out i) env)
  else match outs with
    | o :: _ => some (writeAll [o] [out] env)
    | [] => none

mutual
/-- `jaxpr_to_expressions` (jax_rewrite.py:759-811).  `custom_expressions` (line 740) is empty. -/
def toExprs (multi : P → Bool) : Jaxpr V P → Option (List (JExpr V P))
  | .mk constvars invars eqns outs =>
    (toExprsEqns multi eqns
      (writeAll invars (invars.map .var) (writeAll constvars (constvars.map .var) (fun _ => none)))).bind
      fun env => readEs env outs
/-- The loop at jax_rewrite.py:788-810. -/
def toExprsEqns (multi : P → Bool) : List (JEqn V P) → EEnv V P → Option (EEnv V P)
  | [], env => some env
  | eqn :: eqns, env => (toExprsEqn multi eqn env).bind fun env' => toExprsEqns multi eqns env'
/-- One equation (jax_rewrite.py:789-810).  Calls: lines 791-803; the constants of a `pjit`'s closed jaxpr
are dropped (line 800 binds `{}`). -/
def toExprsEqn (multi : P → Bool) : JEqn V P → EEnv V P → Option (EEnv V P)
  | .prim p ins outs, env =>
    (readEs env ins).bind fun ops => writeOut (multi p) (.prim p ops) outs env
  | .call ins body _ outs, env =>
    match body with
    | .mk cs invars eqns bouts =>
      (readEs env ins).bind fun ops => (toExprs multi (.mk cs invars eqns bouts)).bind fun es =>
        writeOut true (.call ops (.bound es []) invars) outs env
end

/-- `make_bound_expression` (jax_rewrite.py:814-826), from the traced jaxpr and its constants. -/
def makeBound (multi : P → Bool) : Jaxpr V P → List V → Option (JExpr V P × List Nat)
  | .mk constvars invars eqns outs, consts =>
    (toExprs multi (.mk constvars invars eqns outs)).bind fun es =>
      some (.bound es (constvars.zip consts), invars)

/-- `rewrite` (jax_rewrite.py:829-848) on the flattened arguments. -/
def rewrite (multi : P → Bool) (sem : P → List V → Option (List V)) (j : Jaxpr V P) (consts : List V)
    (rule : JExpr V P → Option (JExpr V P)) (args : List V) : Option (Val V) :=
  (makeBound multi j consts).bind fun be => (rule be.1).bind fun e =>
    (bindStrict be.2 args).bind fun env => evaluate multi sem e env

end Verif.JaxRewrite
