/-
C89.  Model of the wrapping of functions in primitives: `initial_style_bind`, `call_bind` and `InitialStylePrimitive`
(oryx/core/primitive.py:162-234), `stage` (oryx/core/trace_util.py:57-80) and `CustomInverse.__call__`
(oryx/core/interpreters/inverse/custom_inverse.py:45-56).
-/
namespace Verif.Util.Bind

/-- A pytree: an array or a container with a type, the names of its children and static data (`kind`) and its children.
`None` is a container without children.  (tree_util of JAX, used at primitive.py:175, 201 and trace_util.py:67-68.) -/
inductive Tree (V : Type) where
  | leaf (v : V)
  | node (kind : String) (children : List (Tree V))

/-- A `PyTreeDef` (primitive.py:175, trace_util.py:67). -/
abbrev TreeDef := Tree Unit

variable {V W A : Type}

mutual
/-- `tree_util.tree_leaves` (primitive.py:201). -/
def Tree.leaves : Tree V → List V
  | .leaf v => [v]
  | .node _ ts => leavesAll ts

/-- The leaves of the arguments (primitive.py:201, `tree_leaves(args)`). -/
def leavesAll : List (Tree V) → List V
  | [] => []
  | t :: ts => t.leaves ++ leavesAll ts
end

mutual
/-- The tree definition of a value (trace_util.py:67-68). -/
def Tree.treedef : Tree V → TreeDef
  | .leaf _ => .leaf ()
  | .node k ts => .node k (treedefAll ts)

/-- The tree definitions of the arguments (`in_tree`, trace_util.py:67). -/
def treedefAll : List (Tree V) → List TreeDef
  | [] => []
  | t :: ts => t.treedef :: treedefAll ts
end

mutual
/-- `tree_util.tree_unflatten` up to what is left of the leaves (primitive.py:189, 211). -/
def take : TreeDef → List V → Option (Tree V × List V)
  | .leaf _, [] => none
  | .leaf _, v :: vs => some (.leaf v, vs)
  | .node k ds, vs => (takeAll ds vs).map (fun r => (.node k r.1, r.2))

/-- As `take`, for a list of trees (primitive.py:189, 211). -/
def takeAll : List TreeDef → List V → Option (List (Tree V) × List V)
  | [], vs => some ([], vs)
  | d :: ds, vs =>
    match take d vs with
    | none => none
    | some (t, vs') => (takeAll ds vs').map (fun r => (t :: r.1, r.2))
end

/-- `tree_util.tree_unflatten` (primitive.py:189, 211); `none` is the `ValueError` for a wrong number of leaves. -/
def unflatten (d : TreeDef) (vs : List V) : Option (Tree V) :=
  match take d vs with
  | some (t, []) => some t
  | _ => none

/-- `tree_util.tree_unflatten` of the arguments (in `flatten_fun_nokwargs`, trace_util.py:68). -/
def unflattenAll (ds : List TreeDef) (vs : List V) : Option (List (Tree V)) :=
  match takeAll ds vs with
  | some (ts, []) => some ts
  | _ => none

/-- A user function of positional arguments and keyword arguments; `none` if it raises.  (`f` of primitive.py:162, 193;
simplification: keyword arguments are a list of pairs sorted by name, as JAX flattens dictionaries.) -/
abbrev Fun (V : Type) := List (Tree V) → List (String × Tree V) → Option (Tree V)

/-- `flatten_fun_nokwargs(lu.wrap_init(f, kwargs), in_tree)` (trace_util.py:61-68): a function of flat arguments to flat
results and the tree definition of the result; the keyword arguments are part of the function. -/
def flatFun (f : Fun V) (kw : List (String × Tree V)) (ins : List TreeDef) (vs : List V) : Option (List V × TreeDef) := do
  let args ← unflattenAll ins vs
  let out ← f args kw
  return (out.leaves, out.treedef)

/-- A `ClosedJaxpr` (trace_util.py:78): the constants and what evaluating the jaxpr with constants and arguments gives. -/
structure Jaxpr (V : Type) where
  literals : List V
  eval : List V → List V → Option (List V)

/-- `trace_to_jaxpr_dynamic` (trace_util.py:70-73; JAX, not part of oryx): from a function of flat arguments and their
abstract values to a jaxpr and the tree definition of the result; `none` if tracing raises. -/
abbrev Tracer (V A : Type) := (List V → Option (List V × TreeDef)) → List A → Option (Jaxpr V × TreeDef)

/-- `fun_impl` of `InitialStylePrimitive` (primitive.py:222-226): `split_list` and `eval_jaxpr`. -/
def impl (numConsts : Nat) (eval : List V → List V → Option (List V)) (vals : List V) : Option (List V) :=
  eval (vals.take numConsts) (vals.drop numConsts)

/-- `initial_style_bind(prim)(f)(*args, **kwargs)` (primitive.py:193-215), evaluated; `aval` is `get_shaped_aval`
(trace_util.py:41-46).  `custom_inverse(f)(*args, **kwargs)` is this function (custom_inverse.py:52-54). -/
def initialStyleBind (trace : Tracer V A) (aval : V → A) (f : Fun V) (args : List (Tree V)) (kw : List (String × Tree V)) :
    Option (Tree V) := do
  let (J, outTree) ← trace (flatFun f kw (treedefAll args)) ((leavesAll args).map aval)
  let flatArgs := leavesAll args
  let outs ← impl J.literals.length J.eval (J.literals ++ flatArgs)
  unflatten outTree outs

/-- The pytree `(args, kwargs)` (primitive.py:175). -/
def argTree (args : List (Tree V)) (kw : List (String × Tree V)) : List (Tree V) :=
  [.node "tuple" args, .node ("dict " ++ toString (kw.map (·.1))) (kw.map (·.2))]

/-- The positional and keyword arguments of a pytree `(args, kwargs)` with the names `names`
(`flatten_fun`, primitive.py:176). -/
def splitArgs (names : List String) : List (Tree V) → Option (List (Tree V) × List (String × Tree V))
  | [.node _ args, .node _ vals] => some (args, names.zip vals)
  | _ => none

/-- `call_bind(prim)(f)(*args, **kwargs)` (primitive.py:162-190), evaluated: `HigherOrderPrimitive.impl` calls the
flat function (primitive.py:83-86), which records the tree definition of the result. -/
def callBind (f : Fun V) (args : List (Tree V)) (kw : List (String × Tree V)) : Option (Tree V) := do
  let flat := leavesAll (argTree args kw)
  let ts ← unflattenAll (treedefAll (argTree args kw)) flat
  let (as, ks) ← splitArgs (kw.map (·.1)) ts
  let out ← f as ks
  unflatten out.treedef out.leaves

end Verif.Util.Bind
