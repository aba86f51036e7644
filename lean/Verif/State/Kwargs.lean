import Verif.Util.Kwargs

/-
C69.  Model of the keyword arguments of function modules: `eval_jaxpr_with_kwargs`
(oryx/core/state/function.py:98-136), the rule of layers (oryx/experimental/nn/function.py:34-47) and
`Layer.call_and_update` (oryx/experimental/nn/base.py:244-266).
-/
namespace Verif.State.Kw

variable {P V K : Type}

/-- A dictionary of keyword arguments, by its lookup function (`kwargs`, function.py:98).  Keyword values are Python
values of a type `K`; the arrays of a jaxpr are of type `V`. -/
abbrev Kwargs (K : Type) := String → Option K

/-- `dict(recorded, **kwargs)` (function.py:127): what is given overrides what is recorded. -/
def merge (recorded kwargs : Kwargs K) : Kwargs K := fun k => (kwargs k).or (recorded k)

/-- A literal or a variable (function.py:102-106). -/
inductive Atom (V : Type) where
  | lit (v : V)
  | var (x : Nat)

/-- The equations of a jaxpr followed by its outvars (function.py:114-136).  `prim` is an equation without jaxpr, `sub`
one with a jaxpr among its parameters: the `call_jaxpr` of a call or map primitive (`isCall`, trace_util.py:92-97) or
that of another primitive (pjit, scan, cond, layer_cau, ...; with several jaxprs only one is modelled).  `recorded` is the
parameter `kwargs` of the equation, empty if there is none (function.py:127). -/
inductive Code (P V K : Type) where
  | done (outs : List (Atom V))
  | prim (p : P) (recorded : Kwargs K) (ins : List (Atom V)) (outs : List Nat) (rest : Code P V K)
  | sub (isCall : Bool) (p : P) (recorded : Kwargs K) (invars : List Nat) (body : Code P V K) (ins : List (Atom V))
      (outs : List Nat) (rest : Code P V K)

/-- `env` (function.py:111). -/
abbrev Env (V : Type) := Nat → Option V

/-- `read` (function.py:102-106); `none` is the `KeyError`. -/
def read (env : Env V) : Atom V → Option V
  | .lit v => some v
  | .var x => env x

/-- `safe_map(write, vars, vals)` (function.py:108-113, 132-135); `none` for different lengths. -/
def writeAll (env : Env V) : List Nat → List V → Option (Env V)
  | [], [] => some env
  | x :: xs, v :: vs => writeAll (fun y => if y = x then some v else env y) xs vs
  | _, _ => none

/-- What a primitive does, given the function of its jaxpr, if it has one, its keyword arguments and its operands:
`eqn.primitive.bind` (function.py:131) or a rule (function.py:128-129).  The result of a primitive is a list, of length one
without `multiple_results`. -/
abbrev Sem (V K : Type) := Option (List V → Option (List V)) → Kwargs K → List V → Option (List V)

/-- `jax.core.eval_jaxpr` (JAX; reference semantics for function.py:98-136). -/
def plain (bind : P → Sem V K) : Code P V K → Env V → Option (List V)
  | .done outs, env => outs.mapM (read env)
  | .prim p recorded ins outs rest, env => do
    let xs ← ins.mapM (read env)
    let r ← bind p none recorded xs
    let env' ← writeAll env outs r
    plain bind rest env'
  | .sub _ p recorded invars body ins outs rest, env => do
    let xs ← ins.mapM (read env)
    let r ← bind p (some (fun ys => (writeAll (fun _ => none) invars ys).bind (plain bind body))) recorded xs
    let env' ← writeAll env outs r
    plain bind rest env'

/-- The registered rule with the merged keyword arguments, or `bind` (function.py:126-131). -/
def execPrim (bind : P → Sem V K) (rules : P → Option (Sem V K)) (kwargs : Kwargs K) (p : P)
    (f : Option (List V → Option (List V))) (recorded : Kwargs K) (xs : List V) : Option (List V) :=
  match rules p with
  | some rule => rule f (merge recorded kwargs) xs
  | none => bind p f recorded xs

/-- Function.py:131 for a primitive that takes functions as arguments (`needs`: `custom_jvp_call`, `custom_vjp_call`):
`bind` is called without `get_bind_params`, which raises.  It is a rule that raises for every primitive that has no rule
of its own. -/
def rawRules (needs : P → Bool) (rules : P → Option (Sem V K)) (p : P) : Option (Sem V K) :=
  match rules p with
  | some r => some r
  | none => if needs p then some (fun _ _ _ => none) else none

/-- `eval_jaxpr_with_kwargs` (function.py:98-136) from the environment on; `rules` is `rawRules` of `kwargs_rules`.  The function of a
call primitive is evaluated with the keyword arguments (function.py:117-121), that of another primitive is a parameter
and stays as it is (function.py:122-124). -/
def evalK (bind : P → Sem V K) (rules : P → Option (Sem V K)) (kwargs : Kwargs K) : Code P V K → Env V → Option (List V)
  | .done outs, env => outs.mapM (read env)
  | .prim p recorded ins outs rest, env => do
    let xs ← ins.mapM (read env)
    let r ← execPrim bind rules kwargs p none recorded xs
    let env' ← writeAll env outs r
    evalK bind rules kwargs rest env'
  | .sub isCall p recorded invars body ins outs rest, env => do
    let xs ← ins.mapM (read env)
    let f : List V → Option (List V) := fun ys =>
      (writeAll (fun _ => none) invars ys).bind
        (fun e => if isCall then evalK bind rules kwargs body e else plain bind body e)
    let r ← execPrim bind rules kwargs p (some f) recorded xs
    let env' ← writeAll env outs r
    evalK bind rules kwargs rest env'

/-- `FunctionModule._cau_jaxpr` on flat arguments (function.py:182-186): consts, then the arguments. -/
def cauJaxpr (bind : P → Sem V K) (rules : P → Option (Sem V K)) (constvars invars : List Nat) (code : Code P V K)
    (consts args : List V) (kwargs : Kwargs K) : Option (List V) := do
  let e1 ← writeAll (fun _ => none) constvars consts
  let e2 ← writeAll e1 invars args
  evalK bind rules kwargs code e2

/-! ### Layers -/

/-- What the code asks of Python values: an array as a keyword value, the array that is the value of `rng` (`none` for
`None`), and truth values (base.py:246-253, 259). -/
structure Py (V K : Type) where
  key : V → K
  asKey : K → Option V
  ofBool : Bool → K
  truthy : K → Bool
  asKey_key : ∀ v, asKey (key v) = some v
  truthy_ofBool : ∀ b, truthy (ofBool b) = b

/-- A layer (base.py:157-286): the signatures of `_call` and `_update`, the number of constants and of leaves of the
layer among the flat arguments, and the two methods, from the leaves of the layer, the arguments and the keyword
arguments to the flat outputs and the leaves of the new layer.  `stop_gradient` (base.py:264) does not change values. -/
structure Layer (V K : Type) where
  nconsts : Nat
  nleaves : Nat
  callSig : Util.Sig
  updSig : Util.Sig
  call : List V → List V → Kwargs K → Option (List V)
  update : List V → List V → Kwargs K → Option (List V)

/-- `kwargs_util.filter_kwargs` (kwargs_util.py:41-68), which decides key by key. -/
def filterKw (s : Util.Sig) (kw : Kwargs K) : Kwargs K := fun k =>
  match kw k with
  | none => none
  | some v => if (Util.filterKwargs s [(k, v)]).isEmpty then none else some v

/-- A dictionary without a key (`kwargs.pop(key, None)`, nn/function.py:39; the parameters `rng` and `has_rng` in the
signatures of base.py:244, 257). -/
def erase (kw : Kwargs K) (k : String) : Kwargs K := fun j => if j = k then none else kw j

/-- `dict(kw, key=v)` (base.py:253, 261, nn/function.py:42). -/
def insert (kw : Kwargs K) (k : String) (v : K) : Kwargs K := fun j => if j = k then some v else kw j

/-- `has_rng=False` in the signature, `kwargs.pop('has_rng', False)` (base.py:257, nn/function.py:39). -/
def hasRng (py : Py V K) (kw : Kwargs K) : Bool :=
  match kw "has_rng" with
  | some v => py.truthy v
  | none => false

/-- `Layer._call_and_update` (base.py:257-266). -/
def cauImpl (py : Py V K) (L : Layer V K) (leaves args : List V) (kw : Kwargs K) : Option (List V) :=
  let go (args : List V) (kw : Kwargs K) : Option (List V) := do
    let out ← L.call leaves args (filterKw L.callSig kw)
    let new ← L.update leaves args (filterKw L.updSig kw)
    pure (out ++ new)
  if hasRng py kw then
    match args with
    | [] => none
    | rng :: args => go args (insert (erase kw "has_rng") "rng" (py.key rng))
  else go args (erase kw "has_rng")

/-- `rng` of `call_and_update`, if it is given and not `None` (base.py:244-246). -/
def rngOf (py : Py V K) (kw : Kwargs K) : Option V := (kw "rng").bind py.asKey

/-- The arguments with which `call_and_update` binds `layer_cau_p` (base.py:246-255). -/
def boundArgs (py : Py V K) (args : List V) (kw : Kwargs K) : List V :=
  match rngOf py kw with
  | some rng => rng :: args
  | none => args

/-- The parameter `kwargs` with which `call_and_update` binds `layer_cau_p` (base.py:246-255). -/
def boundKwargs (py : Py V K) (kw : Kwargs K) : Kwargs K :=
  insert (erase kw "rng") "has_rng" (py.ofBool (rngOf py kw).isSome)

/-- `Layer.call_and_update` (base.py:244-255): staging the implementation and binding it runs it. -/
def callAndUpdate (py : Py V K) (L : Layer V K) (leaves args : List V) (kw : Kwargs K) : Option (List V) :=
  cauImpl py L leaves (boundArgs py args kw) (boundKwargs py kw)

/-- `layer_cau_p.bind` (primitive.py:193-228): the staged implementation, run with the recorded keyword arguments, on the
constants and the flat arguments. -/
def layerBind (py : Py V K) (L : Layer V K) : Sem V K := fun _ recorded xs =>
  let ys := xs.drop L.nconsts
  cauImpl py L (ys.take L.nleaves) (ys.drop L.nleaves) recorded

/-- `layer_cau_kwargs_rule` (nn/function.py:34-44). -/
def layerRule (py : Py V K) (L : Layer V K) : Sem V K := fun _ kwargs xs =>
  let ys := xs.drop L.nconsts
  let leaves := ys.take L.nleaves
  let args := ys.drop L.nleaves
  let kw := erase kwargs "has_rng"
  if hasRng py kwargs then
    match args with
    | [] => none
    | rng :: args => callAndUpdate py L leaves args (insert kw "rng" (py.key rng))
  else callAndUpdate py L leaves args kw

/-- The primitives of a function that calls layers: layers and others (nn/function.py:47). -/
inductive LPrim (P V K : Type) where
  | layer (L : Layer V K)
  | other (p : P)

/-- `bind` of these primitives (base.py:254, function.py:131). -/
def lbind (py : Py V K) (bind : P → Sem V K) : LPrim P V K → Sem V K
  | .layer L => layerBind py L
  | .other p => bind p

/-- `kwargs_rules` with the rule of `layer_cau_p` only (nn/function.py:47). -/
def lrules (py : Py V K) : LPrim P V K → Option (Sem V K)
  | .layer L => some (layerRule py L)
  | .other _ => none

/-- A function that calls layers, before it is staged: `layer` is `layer(*args, rng=rng, **kw)` with the leaves of the
layer (variables of the function) and the constants of its implementation, the others are as in `Code` (the functions given to `init`, function.py:226-293).  The
keyword arguments other than `rng` are static. -/
inductive Src (P V K : Type) where
  | done (outs : List (Atom V))
  | layer (L : Layer V K) (kw : Kwargs K) (rng : Option (Atom V)) (consts leaves args : List (Atom V))
      (outs : List Nat) (rest : Src P V K)
  | prim (p : P) (recorded : Kwargs K) (ins : List (Atom V)) (outs : List Nat) (rest : Src P V K)
  | sub (isCall : Bool) (p : P) (recorded : Kwargs K) (invars : List Nat) (body : Src P V K) (ins : List (Atom V))
      (outs : List Nat) (rest : Src P V K)

/-- Staging (function.py:281-282): a call of a layer is recorded as `layer_cau` with the flag `has_rng` and the key as the
first argument (base.py:246-255). -/
def stage (py : Py V K) : Src P V K → Code (LPrim P V K) V K
  | .done outs => .done outs
  | .layer L kw rng consts leaves args outs rest =>
    .prim (.layer L) (insert (erase kw "rng") "has_rng" (py.ofBool rng.isSome)) 
      (consts ++ (leaves ++ (rng.toList ++ args))) outs
      (stage py rest)
  | .prim p recorded ins outs rest => .prim (.other p) recorded ins outs (stage py rest)
  | .sub c p recorded invars body ins outs rest =>
    .sub c (.other p) recorded invars (stage py body) ins outs (stage py rest)

end Verif.State.Kw
