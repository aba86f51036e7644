/-
Model of calling a module inside a stateful function: `Module.__call__` (oryx/core/state/module.py:130-153) and
the re-tagging of the variables at the end of `init` (oryx/core/state/function.py:283-293).
-/
import Verif.State.Model

namespace Verif.State

open Verif.Harvest

/-- The dictionary of variables of a module that went through a `sow` (a `Module` is a pytree whose leaves are
those of its variables, function.py:196-210). -/
def asVars {V : Type} : Val V → Dict V
  | .dict f => f
  | _ => fun _ => none

/-- `{k: module.variable(val, name=k, key=init_key) for k, val in variables.items()}` (function.py:283-287). -/
def retagAll {V : Type} : List String → Prog V (Dict V) (Dict V)
  | [] => .pure .ok
  | n :: ns => .seq (variableP n .strict (fun d => (d n).getD .zeros) (fun d v k => if k = n then some v else d k))
      (retagAll ns)

/-- `module.variable(mod, name=name, key=init_key)` when the module has variables (function.py:289-293). -/
def retagModule {V : Type} (name : String) (ns : List String) : Prog V (Dict V) (Dict V) :=
  if ns.isEmpty then .pure .ok else variableP name .strict .dict (fun _ v => asVars v)

/-- Lines 283-293 of function.py. -/
def retag {V : Type} (name : Option String) (ns : List String) : Prog V (Dict V) (Dict V) :=
  match name with
  | none => retagAll ns
  | some name => retagModule name ns

/-- `{k: assign(val, name=k) for k, val in new_module.variables().items()}` (module.py:148-151); the results are
only used in `tie_in`. -/
def assignAll {V : Type} : List String → Prog V (Dict V) Unit
  | [] => .pure (fun _ => .ok ())
  | n :: ns => .seq (assignP n .clobber (fun d => (d n).getD .zeros) (fun d _ => d)) (assignAll ns)

/-- Lines 144-152 of module.py. -/
def assignModule {V : Type} (name : Option String) (ns : List String) : Prog V (Dict V) Unit :=
  match name with
  | some name => assignP name .clobber .dict (fun _ _ => ())
  | none => assignAll ns

/-- `{**self._variables, **assigns}` (function.py:194). -/
def mergeVars {V : Type} (assigned : List String) (vars assigns : Dict V) : Dict V :=
  fun n => if assigned.contains n then assigns n else vars n

/-- `init(f, name=name)(init_key, x)(x)` as part of a traced function, when it does not raise.  `r` computes the
initial variables (function.py:280), `ns` are their names, `m.jaxpr` and `m.assigned` the staged
`call_and_update` of the module.  `tie_in` returns its second argument. -/
def nestedBody {V K X Y : Type} (r : Prog V (K × X) (Dict V)) (ns : List String) (m : FModule V X Y) :
    Prog V (K × X) Y :=
  .seq (.inline id r (fun a d => (d, a.2)))
    (.seq (.inline (fun a => a.1) (retag m.name ns) (fun a d => (d, a.2)))
      (.seq (.inline id m.jaxpr (fun a y => (y.1, mergeVars m.assigned a.1 y.2)))
        (.inline (fun a => a.2) (assignModule m.name ns) (fun a _ => a.1))))

/-- `nestedBody` with the `ValueError` of function.py:190-193, which is raised while the outer function is
traced. -/
def nestedModule {V K X Y : Type} (r : Prog V (K × X) (Dict V)) (ns : List String) (m : FModule V X Y) :
    Except SErr (Prog V (K × X) Y) :=
  match m.assigned.find? (fun n => (m.variables n).isNone) with
  | some n => .error (.noVariable n)
  | none => .ok (nestedBody r ns m)

/-- The program `fun key x => init(f, name=name)(key, x)(x)` for a function with an `init_key` argument, traced
at `(key, x)` (function.py:255-293, module.py:130-153). -/
def initCall {V K X Y : Type} (fuel : Nat) (key0 : K) (f : Prog V (K × X) Y) (name : Option String) (key : K)
    (x : X) : Except SErr (Prog V (K × X) Y) :=
  match functionInit fuel key0 f name key x, metaOf reapS f [], reap reapS f with
  | .ok m, .ok me, .ok r => nestedModule r (me.map (·.1)) m
  | .error e, _, _ => .error e
  | _, .error e, _ => .error (.tracing e)
  | _, _, .error e => .error (.tracing e)

/-- The same for a function without an `init_key` argument (function.py:257-264). -/
def statelessInitCall {V K X Y : Type} (f : Prog V X Y) (name : Option String) : Except SErr (Prog V (K × X) Y) :=
  nestedModule (.pure (fun _ => .ok (fun _ => none))) [] (statelessInit f name)

end Verif.State
