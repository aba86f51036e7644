/-
Stateful functions written with `variable`, `assign` and any number of modules, each of which may be called any number
of times (oryx/core/state/module.py:38-153, function.py:248-294): the program that harvest sees (`Stmt.prog`) and,
separately, what the user expects it to do (`Stmt.exec`).
-/
import Verif.State.NestedProps

namespace Verif.State

open Verif.Harvest

/-- The variables of a module whose variables are named `ns`: the structure of the pytree is static
(function.py:196-210). -/
abbrev Vars (V : Type) (ns : List String) : Type := { d : Dict V // ∀ n, (d n).isSome ↔ n ∈ ns }

/-- The variables of a dictionary as the variables of a module (models the structure kept by tree_unflatten,
function.py:204-210). -/
def Vars.of {V : Type} (ns : List String) (d : Dict V) : Vars V ns :=
  ⟨fun k => if k ∈ ns then some ((d k).getD .zeros) else none, fun n => by by_cases h : n ∈ ns <;> simp [h]⟩

/-- A function `f` with a name, together with what `init(f, name=name)` computes while the outer function is traced:
the reap `r` of its variables, their names `ns` and the module `m` (function.py:270-294). -/
structure Inner (V K X Y : Type) where
  f : Prog V (K × X) Y
  name : Option String
  r : Prog V (K × X) (Dict V)
  ns : List String
  m : FModule V X Y

/-! ### Layers -/

/-- The leaves of a layer: its `params` and its `state` (`Layer.flatten`, base.py:279-283).  The metadata `info` and
the name are static (aux data of the pytree). -/
abbrev LayerVars (V : Type) : Type := Val V × Val V

/-- A template `cls(*init_args, **init_kwargs)` of a class of layers (base.py:318-324).  `fresh` is
`cls.initialize(key, *specs, *init_args, **init_kwargs)` without the metadata (base.py:305-315, 524-526), `specOf` is
`make_array_spec` of the arguments (base.py:339), `call` and `update` are the outputs of `_call_and_update`, the second
one the layer with the updated state (base.py:247-256).  Simplifications: the metadata `info` of the layer depends only
on the specs, which are static, and is part of the functions `call` and `update`; no keyword arguments (C69). -/
structure Tmpl (V K S X Y : Type) where
  specOf : X → S
  fresh : K → S → Except RErr (LayerVars V)
  call : LayerVars V → X → Except RErr Y
  update : LayerVars V → X → Except RErr (LayerVars V)

/-- `variables()`: `dict(params=self.params, state=self.state)` (base.py:185-187). -/
def LayerVars.dict {V : Type} (l : LayerVars V) : Dict V :=
  fun n => if n = "params" then some l.1 else if n = "state" then some l.2 else none

/-- `layer.replace(**layer_params)` for a dictionary with the keys `params` and `state` (base.py:293-302). -/
def LayerVars.ofDict {V : Type} (d : Dict V) : LayerVars V := ((d "params").getD .zeros, (d "state").getD .zeros)

/-- `template_build` (base.py:305-315) for a key or `None`; every failure is `fail` (for `None` it is a
`ValueError`). -/
def Tmpl.build {V K S X Y : Type} (T : Tmpl V K S X Y) : Option K → X → Except RErr (LayerVars V)
  | none, _ => .error .fail
  | some k, x => T.fresh k (T.specOf x)

/-- `Layer._call_and_update` (base.py:247-256): the output and the updated layer. -/
def Tmpl.callAndUpdate {V K S X Y : Type} (T : Tmpl V K S X Y) (l : LayerVars V) (x : X) :
    Except RErr (Y × LayerVars V) :=
  match T.call l x with
  | .error e => .error e
  | .ok y =>
    match T.update l x with
    | .error e => .error e
    | .ok l' => .ok (y, l')

/-- `template.init(key, x, name=name)` as part of a traced function (base.py:337-354).  The build is one
`template_init` equation (base.py:347-348), and what it sows is not seen by harvest (harvest.py:391-410). -/
def Tmpl.initP {V K S X Y : Type} (T : Tmpl V K S X Y) (name : Option String) : Prog V (K × X) (Dict V) :=
  .seq (.pure (fun a => (T.build (some a.1) a.2).map LayerVars.dict))
    (match name with
     | some n => variableP n .strict .dict (fun _ v => asVars v)
     | none =>
       .seq (variableP "params" .strict (fun d => (d "params").getD .zeros) (fun d v k => if k = "params" then some v else d k))
        (.seq (variableP "state" .strict (fun d => (d "state").getD .zeros) (fun d v k => if k = "state" then some v else d k))
          (.pure .ok)))

/-- `layer(x)` as part of a traced function: `Module.__call__` (module.py:144-153) with `Layer.call_and_update`, which
is one `layer_cau` equation (base.py:235-245). -/
def Tmpl.callP {V K S X Y : Type} (T : Tmpl V K S X Y) (name : Option String) : Prog V (Dict V × X) Y :=
  .seq (.pure (fun a => (T.callAndUpdate (LayerVars.ofDict a.1) a.2).map (fun q => (q.1, q.2.dict))))
    (.inline (fun a => a.2)
      (match name with
       | some n => assignP n .clobber .dict (fun _ _ => ())
       | none =>
         .seq (assignP "params" .clobber (fun d => (d "params").getD .zeros) (fun d _ => d))
          (.seq (assignP "state" .clobber (fun d => (d "state").getD .zeros) (fun d _ => d)) (.pure (fun _ => .ok ()))))
      (fun a _ => a.1))

/-- `template(x, init_key=key, name=name)` as part of a traced function (base.py:332-335). -/
def Tmpl.prog {V K S X Y : Type} (T : Tmpl V K S X Y) (name : Option String) : Prog V (K × X) Y :=
  .seq (.inline id (T.initP name) (fun a d => (d, a.2))) (T.callP name)

/-- A template seen as a module of a stateful function: its variables are `params` and `state`, and all of them are
assigned when it is called (base.py:185-187, 337-354). -/
def Tmpl.inner {V K S X Y : Type} (T : Tmpl V K S X Y) (name : Option String) : Inner V K X Y where
  f := T.prog name
  name := name
  r := .pure (fun a => (T.build (some a.1) a.2).map LayerVars.dict)
  ns := ["params", "state"]
  m := ⟨name, fun _ => none,
    .pure (fun a => (T.callAndUpdate (LayerVars.ofDict a.1) a.2).map (fun q => (q.1, q.2.dict))), ["params", "state"]⟩

/-- The module is a layer made by a template. -/
def Inner.IsLayer {V K X Y : Type} (I : Inner V K X Y) : Prop :=
  ∃ (S : Type) (T : Tmpl V K S X Y) (name : Option String), I = T.inner name

/-- A straight-line stateful function: `code` is anything that neither declares variables nor assigns; `var` is
`variable(value, name=..)` (module.py:38-57), `assign` is `assign(value, name=..)` (module.py:60-80), `init` is
`init(f, name=..)(key, x)` (function.py:248-294) of a function or
`init(template, name=..)(key, x)` (base.py:529-534), and `call` is `m(x)` (module.py:130-153) for a module value computed
before, e.g. the result of an `init` or of `m.update(x)`.  Calls with keyword arguments are C69. -/
inductive Stmt (V K : Type) : Type → Type → Type 1
  | code {A B : Type} (p : Prog V A B) : Stmt V K A B
  | seq {A B C : Type} (p : Stmt V K A B) (q : Stmt V K B C) : Stmt V K A C
  | var {A B : Type} (name : String) (value : A → Val V) (cont : A → Val V → B) : Stmt V K A B
  | assign {A B : Type} (name : String) (value : A → Val V) (cont : A → Val V → B) : Stmt V K A B
  | init {A B X Y : Type} (I : Inner V K X Y) (args : A → K × X) (cont : A → Vars V I.ns → B) : Stmt V K A B
  | call {A B X Y : Type} (I : Inner V K X Y) (module : A → Vars V I.ns) (arg : A → X) (cont : A → Y → B) : Stmt V K A B

/-- The program traced by the transformations of `init`: `variable` and `assign` are sows; `init` computes the reap
of the variables and tags them (function.py:280-294); a call runs the staged function, merges the assignments
(function.py:189-194) and assigns the result (module.py:143-152). -/
def Stmt.prog {V K : Type} : {A B : Type} → Stmt V K A B → Prog V A B
  | _, _, .code p => p
  | _, _, .seq p q => .seq p.prog q.prog
  | _, _, .var n value cont => variableP n .strict value cont
  | _, _, .assign n value cont => assignP n .clobber value cont
  | _, _, .init I args cont => .inline args (.seq I.r (retag I.name I.ns)) (fun a d => cont a (Vars.of I.ns d))
  | _, _, .call I module arg cont =>
    .inline (fun a => ((module a).1, arg a))
      (.seq (.inline id I.m.jaxpr (fun a y => (y.1, mergeVars I.m.assigned a.1 y.2)))
        (.inline (fun a => a.2) (assignModule I.name I.ns) (fun a _ => a.1)))
      cont

/-! ### Specification -/

/-- The state of the module `name` with variables `ns` inside of the state of an outer module. -/
def slice {V : Type} (name : Option String) (ns : List String) (held : Dict V) : Option (Dict V) :=
  match name with
  | none => if ns.all (fun n => (held n).isSome) then some held else none
  | some n => match held n with
    | some (.dict d) => some d
    | _ => none

/-- `{**d, **e}`. -/
def over {V : Type} (d e : Dict V) : Dict V := fun k => (e k).or (d k)

/-- What a user expects: the function is run on the state `held` (`{}` while it is initialised) and returns its
output, the variables that it declared and the assignments that it made.

* `variable` is the value held, or its argument while the function is initialised;
* the last `assign` of a name counts;
* `init` gives the module whose state is held, or a fresh one (its initialiser is run in any case);
* calling a module is its `call_and_update`, and assigns its new state to the place where its state is kept. -/
def Stmt.exec {V K : Type} (fuel : Nat) (held : Dict V) :
    {A B : Type} → Stmt V K A B → A → Dict V × Dict V → Except SErr (B × Dict V × Dict V)
  | _, _, .code p, a, s =>
    match run fuel p a with
    | .error e => .error (.running e)
    | .ok b => .ok (b, s)
  | _, _, .seq p q, a, s =>
    match p.exec fuel held a s with
    | .error e => .error e
    | .ok (b, s') => q.exec fuel held b s'
  | _, _, .var n value cont, a, s =>
    let v := (held n).getD (value a)
    .ok (cont a v, over s.1 (fun k => if k = n then some v else none), s.2)
  | _, _, .assign n value cont, a, s =>
    .ok (cont a (value a), s.1, over s.2 (fun k => if k = n then some (value a) else none))
  | _, _, .init I args cont, a, s =>
    match run fuel I.r (args a) with
    | .error e => .error (.running e)
    | .ok d =>
      let vars := Vars.of I.ns ((slice I.name I.ns held).getD d)
      .ok (cont a vars, over s.1 (inherit I.name vars.1), s.2)
  | _, _, .call I module arg cont, a, s =>
    match (I.m.replace (module a).1).callAndUpdate fuel (arg a) with
    | .error e => .error e
    | .ok (y, vars') => .ok (cont a y, s.1, over s.2 (inherit I.name vars'))

/-- The names under which a module keeps its state in the outer module. -/
def places (name : Option String) (ns : List String) : List String :=
  match name with
  | none => ns
  | some n => [n]

/-- The names of the state declared by a function, in order. -/
def Stmt.declared {V K : Type} : {A B : Type} → Stmt V K A B → List String
  | _, _, .seq p q => p.declared ++ q.declared
  | _, _, .var n _ _ => [n]
  | _, _, .init I _ _ => places I.name I.ns
  | _, _, _ => []

/-- The names given to `variable`. -/
def Stmt.plain {V K : Type} : {A B : Type} → Stmt V K A B → List String
  | _, _, .seq p q => p.plain ++ q.plain
  | _, _, .var n _ _ => [n]
  | _, _, _ => []

/-- The modules initialised by the function: their names and those of their variables. -/
def Stmt.modules {V K : Type} : {A B : Type} → Stmt V K A B → List (Option String × List String)
  | _, _, .seq p q => p.modules ++ q.modules
  | _, _, .init I _ _ => [(I.name, I.ns)]
  | _, _, _ => []

/-- `I` is what `init(f, name=name)` makes of `f` (for some key and argument); its variables are not hidden in `nest`
scopes, and a module with a name has variables (`named_stateless_raises`). -/
def Inner.IsInit {V K X Y : Type} (key0 : K) (I : Inner V K X Y) : Prop :=
  (∃ fuel k x, functionInit fuel key0 I.f I.name k x = .ok I.m) ∧ reap reapS I.f = .ok I.r ∧
  (∃ me, metaOf reapS I.f [] = .ok me ∧ I.ns = me.map (·.1)) ∧
  (∀ n ∈ I.m.assigned, (I.m.variables n).isSome) ∧ NestPlanted varS I.f I.m.variables ∧ (I.name = none ∨ I.ns ≠ [])

/-- The modules used by a function come from `init` (of a function or of a template), and the rest of the code neither declares nor assigns. -/
def Stmt.Made {V K : Type} (key0 : K) : {A B : Type} → Stmt V K A B → Prop
  | _, _, .code p => Foreign varS p ∧ Foreign asgS p
  | _, _, .seq p q => p.Made key0 ∧ q.Made key0
  | _, _, .init I _ _ => I.IsInit key0 ∨ I.IsLayer
  | _, _, .call I _ _ _ => I.IsInit key0 ∨ I.IsLayer
  | _, _, _ => True

/-- Only variables among `vs` are assigned and only modules among `ms` are called. -/
def Stmt.Assigns {V K : Type} (vs : List String) (ms : List (Option String × List String)) :
    {A B : Type} → Stmt V K A B → Prop
  | _, _, .seq p q => p.Assigns vs ms ∧ q.Assigns vs ms
  | _, _, .assign n _ _ => n ∈ vs
  | _, _, .call I _ _ _ => (I.name, I.ns) ∈ ms
  | _, _, _ => True

/-- `held` is a state of the function: it has a value for every variable and every module. -/
def Stmt.Holds {V K : Type} {A B : Type} (s : Stmt V K A B) (held : Dict V) : Prop :=
  (∀ n, (held n).isSome ↔ n ∈ s.declared) ∧
  ∀ m ∈ s.modules, ∃ d, slice m.1 m.2 held = some d ∧ ∀ n ∈ m.2, (d n).isSome

end Verif.State
