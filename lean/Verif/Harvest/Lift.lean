import Verif.Harvest.Model

/-
C66, C67.  Harvesting a function that is itself a `vmap` or a `jvp` of a function with sows: the batching rule and the
JVP rule of `sow_p` (harvest.py:207-228) and what the reap and plant contexts see of them.
-/
namespace Verif.Harvest.Lift

/-- A primitive other than `sow`/`nest`: what it computes, its batching rule (physical arrays with the position of the
batch axis, `none` if not mapped) and its JVP rule (primals, tangents to tangent).
(the primitives that reach `default_process_primitive`, harvest.py:399-410). -/
structure Prim (V : Type) where
  run : List V → V
  batch : List (V × Option Nat) → V × Option Nat
  jvp : List V → List V → V

/-- Straight-line functions: each equation appends its results to the environment, `done` returns some of it.  `nest` is a
call of `nest(body, scope=scope)` (the functions transformed by harvest.py:685-785 and 1287-1327). -/
inductive Prog (V : Type) where
  | done (outs : List Nat)
  | op (p : Prim V) (ins : List Nat) (rest : Prog V)
  | sow (tag name : String) (mode : Mode) (x : Nat) (rest : Prog V)
  | nest (scope : String) (ins : List Nat) (body rest : Prog V)

/-- Errors: `invalidMode` (harvest.py:456), `alreadyReaped` (harvest.py:516), `alreadyPlanted` (harvest.py:1190-1191);
`unbound` never happens for jaxprs. -/
inductive Err
  | invalidMode | alreadyReaped (n : String) | alreadyPlanted (n : String) | unbound
  deriving DecidableEq

/-- How a transformation runs a function: the values `W` it works with, what it does for a primitive, and the rule for
`sow_p`: the value that is sown (`phys`) and the result made of the value that `sow_p.bind` returns (`back`).
(the trace that `bind_with_trace` reaches, harvest.py:296-305). -/
structure Rules (V W : Type) where
  op : Prim V → List W → W
  phys : W → V
  back : W → V → W

/-- No transformation (harvest.py:198-199). -/
def plain (V : Type) : Rules V V := ⟨fun p => p.run, id, fun _ v => v⟩

/-- `jax.vmap`: `_sow_batch_rule` sows the physical array and keeps the batch dimension (harvest.py:223-228). -/
def vmapped (V : Type) : Rules V (V × Option Nat) := ⟨fun p => p.batch, Prod.fst, fun w v => (v, w.2)⟩

/-- `jax.jvp`: `_sow_jvp` sows the primals and returns the tangents unchanged (harvest.py:207-212).  Values are pairs of
primal and tangent. -/
def jvped (V : Type) : Rules V (V × V) :=
  ⟨fun p ws => (p.run (ws.map Prod.fst), p.jvp (ws.map Prod.fst) (ws.map Prod.snd)), Prod.fst, fun w v => (v, w.2)⟩

variable {V W X Y : Type}

/-- A variable of the environment (jaxpr environments of JAX). -/
def get (env : List W) (x : Nat) : Except Err W := match env[x]? with | some w => .ok w | none => .error .unbound

/-- Variables of the environment (jaxpr environments of JAX). -/
def gets (env : List W) : List Nat → Except Err (List W)
  | [] => .ok []
  | x :: xs => do let w ← get env x; let ws ← gets env xs; return w :: ws

/-- The dictionary of reaped values: name, mode, and the value as a list of leaves with their paths (`[]` for a value sown
directly, the names inside for a scope) (harvest.py:495-506). -/
abbrev Reaps (X : Type) := List (String × Mode × List (List String × X))

/-- `ReapContext.handle_sow` (harvest.py:511-533) for the modes other than `cond_clobber`. -/
def handle (r : Reaps X) (n : String) (mode : Mode) (leaves : List (List String × X)) : Except Err (Reaps X) :=
  match r.find? (fun e => e.1 == n) with
  | some e => if mode.isClobber && e.2.1.isClobber then .ok ((n, mode, leaves) :: r.filter (fun e => e.1 ≠ n))
      else .error (.alreadyReaped n)
  | none => .ok ((n, mode, leaves) :: r)

/-- The leaves of a dictionary of reaps (`tree_util.tree_flatten` at harvest.py:563). -/
def leavesOf (r : Reaps X) : List (List String × X) := r.flatMap fun e => e.2.2.map fun l => (e.1 :: l.1, l.2)

/-- Sowing under a reap context (harvest.py:453-466, 511-533). -/
def sowInto (S : Settings) (r : Reaps X) (tag name : String) (mode : Mode) (x : X) : Except Err (Reaps X) :=
  if mode = .invalid then .error .invalidMode
  else match S.dispatch tag name with
    | .handle => handle r name mode [([], x)]
    | _ => .ok r

/-- The reaps of a scope, sown as one strict value (harvest.py:558-567). -/
def nestInto (S : Settings) (r ri : Reaps X) (scope : String) : Except Err (Reaps X) :=
  if ri.isEmpty then .ok r
  else match S.dispatch S.tag scope with
    | .handle => handle r scope .strict (leavesOf ri)
    | _ => .ok r

/-- `call_and_reap` of a transformed function (harvest.py:647-752): the outputs and the reaped values, as stored by `store`
(the code stores what `sow_p.bind` is given, `phys`). -/
def reapBy (L : Rules V W) (store : W → X) (S : Settings) : Prog V → List W → Reaps X → Except Err (List W × Reaps X)
  | .done outs, env, r => do let o ← gets env outs; return (o, r)
  | .op p ins rest, env, r => do
    let ws ← gets env ins
    reapBy L store S rest (env ++ [L.op p ws]) r
  | .sow tag name mode x rest, env, r => do
    let w ← get env x
    let r' ← sowInto S r tag name mode (store w)
    reapBy L store S rest (env ++ [L.back w (L.phys w)]) r'
  | .nest scope ins body rest, env, r => do
    let ws ← gets env ins
    let q ← reapBy L store S body ws []
    let r' ← nestInto S r q.2 scope
    reapBy L store S rest (env ++ q.1) r'

/-- `call_and_reap(f)`, `call_and_reap(vmap(f))`, `call_and_reap(jvp(f))` (harvest.py:685-730). -/
def reap (S : Settings) (P : Prog V) (env : List V) := reapBy (plain V) (plain V).phys S P env []
/-- Models harvest.py:685-730. -/
def reapVmap (S : Settings) (P : Prog V) (env : List (V × Option Nat)) := reapBy (vmapped V) (vmapped V).phys S P env []
/-- Models harvest.py:685-730. -/
def reapJvp (S : Settings) (P : Prog V) (env : List (V × V)) := reapBy (jvped V) (jvped V).phys S P env []

/-- Values to plant by path (harvest.py:1180). -/
abbrev Plants (V : Type) := List String → Option V

/-- `plant` of a transformed function (harvest.py:1188-1327): the outputs, and for specifications the values (with their
paths) that were replaced.  `done` is `_already_planted`, new in each scope. -/
def plantBy (L : Rules V W) (S : Settings) : Prog V → List W → Plants V → List String → Except Err (List W × List (List String × W))
  | .done outs, env, _, _ => do let o ← gets env outs; return (o, [])
  | .op p ins rest, env, pl, pd => do
    let ws ← gets env ins
    plantBy L S rest (env ++ [L.op p ws]) pl pd
  | .sow tag name mode x rest, env, pl, pd => do
    let w ← get env x
    if mode = .invalid then .error .invalidMode
    else match S.dispatch tag name with
      | .handle =>
        if pd.contains name then .error (.alreadyPlanted name)
        else match pl [name] with
          | some v => do
            let q ← plantBy L S rest (env ++ [L.back w v]) pl (if mode.isClobber then pd else name :: pd)
            return (q.1, ([name], w) :: q.2)
          | none => plantBy L S rest (env ++ [L.back w (L.phys w)]) pl pd
      | _ => plantBy L S rest (env ++ [L.back w (L.phys w)]) pl pd
  | .nest scope ins body rest, env, pl, pd => do
    let ws ← gets env ins
    let q ← plantBy L S body ws (fun p => pl (scope :: p)) []
    let q' ← plantBy L S rest (env ++ q.1) pl pd
    return (q'.1, q.2.map (fun e => (scope :: e.1, e.2)) ++ q'.2)

/-- Running a transformed function without harvesting: `sow` is the identity (harvest.py:198-200). -/
def runBy (L : Rules V W) : Prog V → List W → Except Err (List W)
  | .done outs, env => gets env outs
  | .op p ins rest, env => do
    let ws ← gets env ins
    runBy L rest (env ++ [L.op p ws])
  | .sow _ _ _ x rest, env => do
    let w ← get env x
    runBy L rest (env ++ [L.back w (L.phys w)])
  | .nest _ ins body rest, env => do
    let ws ← gets env ins
    let o ← runBy L body ws
    runBy L rest (env ++ o)

/-- Every primitive of the function satisfies `P` (a predicate on the model, no counterpart in harvest.py). -/
def Prog.All (P : Prim V → Prop) : Prog V → Prop
  | .done _ => True
  | .op p _ rest => P p ∧ rest.All P
  | .sow _ _ _ _ rest => rest.All P
  | .nest _ _ body rest => body.All P ∧ rest.All P

end Verif.Harvest.Lift
