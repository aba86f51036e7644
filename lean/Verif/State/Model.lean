/-
Model of oryx/core/state/{module,function,api}.py: stateful functions and modules, on top of harvest.
A stateful function is a program that takes an initialisation key and an argument, tags its state with
`variable` and its state updates with `assign`.
Simplification: the code between the tags contains no `custom_jvp`/`custom_vjp` call; if it does, the module raises when
it is called, because function.py:131 binds the primitive without its functions (`Kw.module_custom_jvp_raises`).
-/
import Verif.Harvest.Model

namespace Verif.State

open Verif.Harvest

/-- module.py:34-35. -/
def variableTag : String := "variable"
/-- Models module.py:35. -/
def assignTag : String := "assign"

/-- Settings of the `reap` that finds the variables (function.py:270-272). -/
def reapS : Settings := ⟨variableTag, [], none, true⟩
/-- Settings of the `plant` that injects the variables (function.py:274-277). -/
def varS : Settings := ⟨variableTag, [], none, false⟩
/-- Settings of the `harvest` that collects the assignments (function.py:279). -/
def asgS : Settings := ⟨assignTag, [], none, false⟩

/-- `variable(value, name=.., mode=..)` (module.py:38-57). -/
def variableP {V A C : Type} (name : String) (mode : Mode) (enc : A → Val V) (dec : A → Val V → C) :
    Prog V A C := .sow variableTag name mode enc (fun _ => true) dec

/-- `assign(value, name=.., mode=..)` (module.py:60-80). -/
def assignP {V A C : Type} (name : String) (mode : Mode) (enc : A → Val V) (dec : A → Val V → C) :
    Prog V A C := .sow assignTag name mode enc (fun _ => true) dec

/-- Errors of the stateful API (function.py:193 and errors of harvest). -/
inductive SErr
  | tracing (e : Err)        -- raised by harvest while tracing
  | running (e : RErr)       -- failure of the computation
  | noVariable (n : String)  -- `ValueError('No variable declared for assign: ..')`, function.py:193
  deriving DecidableEq, Repr

/-- `FunctionModule` (function.py:156-221).  `jaxpr` is the staged `call_and_update` function and `assigned`
the keys of the dictionary of assignments in its `out_tree` (static).  Simplification: keyword arguments and
`kwargs_rules` (function.py:98-136) are not modelled: `jaxpr` is run as it is. -/
structure FModule (V X Y : Type) where
  name : Option String
  variables : Dict V
  jaxpr : Prog V (Dict V × X) (Y × Dict V)
  assigned : List String

/-- `replace` (function.py:172-175). -/
def FModule.replace {V X Y : Type} (m : FModule V X Y) (vars : Dict V) : FModule V X Y :=
  { m with variables := vars }

/-- `call_and_update` (function.py:189-194). -/
def FModule.callAndUpdate {V X Y : Type} (fuel : Nat) (m : FModule V X Y) (x : X) :
    Except SErr (Y × Dict V) :=
  match run fuel m.jaxpr (m.variables, x) with
  | .error e => .error (.running e)
  | .ok (out, assigns) =>
    match m.assigned.find? (fun n => (m.variables n).isNone) with
    | some n => .error (.noVariable n)
    | none => .ok (out, fun n => if m.assigned.contains n then assigns n else m.variables n)

/-- `call` (function.py:177-178): the first component. -/
def FModule.call {V X Y : Type} (fuel : Nat) (m : FModule V X Y) (x : X) : Except SErr Y :=
  (m.callAndUpdate fuel x).map (·.1)

/-- `update` (function.py:180-181): the module of the second component. -/
def FModule.update {V X Y : Type} (fuel : Nat) (m : FModule V X Y) (x : X) : Except SErr (FModule V X Y) :=
  match m.callAndUpdate fuel x with
  | .error e => .error e
  | .ok r => .ok (m.replace r.2)

/-- The staged `apply_f` (function.py:274-277): `f` with its variables planted and the key
`random.PRNGKey(0)`.  `P0` is the dictionary of initial variables (only its keys are used). -/
def applyF {V K X Y : Type} (key0 : K) (f : Prog V (K × X) Y) (P0 : Dict V) :
    Except Err (Prog V (Dict V × X) Y) :=
  match plantCheck varS f P0 [] with
  | .error e => .error e
  | .ok _ => .ok (.seq (.pure (fun a => .ok ((key0, a.2), a.1)))
      (.seq (plantT varS f P0) (.pure (fun r => .ok r.1))))

/-- `init(f)(init_key, x)` for a function with an `init_key` argument (function.py:255-294).  Outside of an
enclosing transformation the `module.variable` calls of lines 283-294 return their argument. -/
def functionInit {V K X Y : Type} (fuel : Nat) (key0 : K) (f : Prog V (K × X) Y) (name : Option String)
    (key : K) (x : X) : Except SErr (FModule V X Y) :=
  match reap reapS f with
  | .error e => .error (.tracing e)
  | .ok r =>
    match run fuel r (key, x) with
    | .error e => .error (.running e)
    | .ok vars =>
      match applyF key0 f vars with
      | .error e => .error (.tracing e)
      | .ok g =>
        match plant asgS g (fun _ => none) with
        | .error e => .error (.tracing e)
        | .ok h =>
          match metaOf asgS h [], callAndReap asgS h with
          | .ok m, .ok j => .ok ⟨name, vars, j, m.map (·.1)⟩
          | .error e, _ => .error (.tracing e)
          | _, .error e => .error (.tracing e)

/-- `init(f)` for a function without an `init_key` argument (function.py:257-264): no variables, and
`cau_f` returns the (empty) variables. -/
def statelessInit {V X Y : Type} (f : Prog V X Y) (name : Option String) : FModule V X Y :=
  ⟨name, fun _ => none, .inline (fun a => a.2) f (fun a y => (y, a.1)), []⟩

/-- A history of updates (a history of calls of function.py:180-181). -/
def updates {V X Y : Type} (fuel : Nat) : FModule V X Y → List X → Except SErr (FModule V X Y)
  | m, [] => .ok m
  | m, x :: xs =>
    match m.update fuel x with
    | .error e => .error e
    | .ok m' => updates fuel m' xs

end Verif.State
