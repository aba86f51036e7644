import Verif.Harvest.LiftComm

/-
C77.  `sow_cond` under `jax.vmap`: the batching rule of `sow_p` (harvest.py:222-228) sows the physical arrays of the value
and of the predicate, and the reap context then works with a predicate that may have a batch axis.  One name is followed
through straight-line code and scans.
-/
namespace Verif.Harvest.CondVmap

open Verif.LogProb.Batched (Arr)

/-- Errors of JAX: `lax.cond` of a predicate that is not a scalar, `lax.cond` of branches with results of different shapes
(harvest.py:529, 818-822) and `lax.select` of a predicate that is neither a scalar nor of the shape of the operands
(harvest.py:722). -/
inductive Err | predNotScalar | branchShapes | selectShape
  deriving DecidableEq

/-- The sows of one name with `sow_cond`, in program order: a sow outside of loops, or a `scan` of `k` steps whose body sows
the name once or more; the arrays of a body depend on the step.  `X` is the type of values, `Y` of predicates
(harvest.py:258-293, 826-917). -/
inductive Item (X Y : Type) where
  | sow (v : X) (p : Y)
  | loop (k : Nat) (first : Nat → X × Y) (more : List (Nat → X × Y))

/-- Change the values and the predicates (a helper of the model: used to go from batched values to physical arrays and to
lanes, harvest.py:222-228). -/
def Item.map {X Y X' Y' : Type} (f : X → X') (g : Y → Y') : Item X Y → Item X' Y'
  | .sow v p => .sow (f v) (g p)
  | .loop k first more => .loop k (fun t => (f (first t).1, g (first t).2)) (more.map fun e t => (f (e t).1, g (e t).2))

variable {R : Type}

/-- `lax.cond(pred, lambda: a, lambda: b)` (harvest.py:529; models JAX: the predicate is a scalar, the results have the same
shape). -/
def laxCond (p : Arr Bool) (a b : Arr R) : Except Err (Arr R) :=
  if p.shape ≠ [] then .error .predNotScalar
  else if a.shape ≠ b.shape then .error .branchShapes
  else .ok (if p.data [] then a else b)

/-- `pred | prev_reap.pred`, only reached with a scalar `pred` (harvest.py:530; the other operand is broadcast). -/
def orPred (p q : Arr Bool) : Arr Bool := ⟨q.shape, fun i => p.data [] || q.data i⟩

/-- `ReapContext.handle_sow` with mode `cond_clobber` for a name that is only sown in this mode (harvest.py:511-533): the
value and the predicate that are stored. -/
def store (prev : Option (Arr R × Arr Bool)) (v : Arr R) (p : Arr Bool) : Except Err (Arr R × Arr Bool) :=
  match prev with
  | none => .ok (v, p)
  | some (v0, p0) => (laxCond p v v0).map fun w => (w, orPred p p0)

/-- The sows of a body, in order (harvest.py:871-876: the body is reaped on its own). -/
def storeAll (prev : Option (Arr R × Arr Bool)) : List (Arr R × Arr Bool) → Except Err (Option (Arr R × Arr Bool))
  | [] => .ok prev
  | e :: l => do let q ← store prev e.1 e.2; storeAll (some q) l

/-- What the body of a loop reaps in step `t` (harvest.py:869-877). -/
def bodyReap (first : Nat → Arr R × Arr Bool) (more : List (Nat → Arr R × Arr Bool)) (t : Nat) :
    Except Err (Arr R × Arr Bool) := do
  let q ← storeAll (some (first t)) (more.map (fun e => e t))
  match q with
  | some q => .ok q
  | none => .ok (first t)

/-- `_update_clobber_carry` (harvest.py:816-824): the carried value and the carried predicate, a scalar. -/
def updateCarry (carry : Arr R × Bool) (q : Arr R × Arr Bool) : Except Err (Arr R × Bool) :=
  if q.2.shape ≠ [] then .error .predNotScalar
  else if q.1.shape ≠ carry.1.shape then .error .branchShapes
  else .ok (if q.2.data [] then (q.1, true) else carry)

/-- The steps of the scan with the carried reaps (harvest.py:868-885). -/
def steps (first : Nat → Arr R × Arr Bool) (more : List (Nat → Arr R × Arr Bool)) : Nat → Nat → Arr R × Bool →
    Except Err (Arr R × Bool)
  | 0, _, carry => .ok carry
  | k + 1, t, carry => do
    let q ← bodyReap first more t
    let c ← updateCarry carry q
    steps first more k (t + 1) c

/-- `jnp.zeros(aval.shape, aval.dtype)` and `lax.zeros_like_array` (harvest.py:722, 893-896). -/
def zeros (zero : R) (s : List Nat) : Arr R := ⟨s, fun _ => zero⟩

/-- `_reap_scan_rule` for one `cond_clobber` name (harvest.py:826-917): the body is traced once whatever the number of
steps (`_initial_style_jaxpr`, line 887; shapes do not depend on the step, so step 0 stands for it), then it is run `k`
times and the carried value is sown with the carried predicate. -/
def loopReap (zero : R) (k : Nat) (first : Nat → Arr R × Arr Bool) (more : List (Nat → Arr R × Arr Bool)) :
    Except Err (Arr R × Bool) := do
  let q ← bodyReap first more 0
  let c0 := (zeros zero q.1.shape, false)
  let _ ← updateCarry c0 q
  steps first more k 0 c0

/-- The entry of the name after all its sows (harvest.py:511-533, 913-915). -/
def collect (zero : R) (prev : Option (Arr R × Arr Bool)) : List (Item (Arr R) (Arr Bool)) →
    Except Err (Option (Arr R × Arr Bool))
  | [] => .ok prev
  | .sow v p :: l => do
    let q ← store prev v p
    collect zero (some q) l
  | .loop k first more :: l => do
    let c ← loopReap zero k first more
    let q ← store prev c.1 ⟨[], fun _ => c.2⟩
    collect zero (some q) l

/-- `select_from_pred` (harvest.py:717-724) with `lax.select` (models JAX: the predicate is a scalar or has the shape of the
operands). -/
def select (zero : R) (v : Arr R) (p : Arr Bool) : Except Err (Arr R) :=
  if p.shape = [] then .ok (if p.data [] then v else zeros zero v.shape)
  else if p.shape = v.shape then .ok ⟨v.shape, fun i => if p.data i then v.data i else zero⟩
  else .error .selectShape

/-- `reap(f)[name]` for the name, if it is sown (harvest.py:685-785). -/
def reap (zero : R) (h : List (Item (Arr R) (Arr Bool))) : Except Err (Option (Arr R)) := do
  let q ← collect zero none h
  match q with
  | none => .ok none
  | some q => (select zero q.1 q.2).map some

/-- A value seen by `vmap`: the physical array and the position of its batch axis, `none` if it is not mapped (models
JAX). -/
abbrev Batched (α : Type) := Arr α × Option Nat

/-- `reap(vmap(f))[name]`: `_sow_batch_rule` sows the physical arrays (harvest.py:222-228). -/
def reapVmap (zero : R) (h : List (Item (Batched R) (Batched Bool))) : Except Err (Option (Arr R)) :=
  reap zero (h.map (Item.map Prod.fst Prod.fst))

/-- Slice `i` of an array along axis `d` (models JAX). -/
def take {α : Type} (d i : Nat) (x : Arr α) : Arr α := ⟨x.shape.eraseIdx d, fun idx => x.data (idx.insertIdx d i)⟩

/-- The value in lane `i` (models JAX). -/
def lane {α : Type} (i : Nat) (w : Batched α) : Arr α :=
  match w.2 with | some d => take d i w.1 | none => w.1

/-- The sows of lane `i` (what the function sows in that lane, by the contract of JAX's batching rules). -/
def laneItems (i : Nat) (h : List (Item (Batched R) (Batched Bool))) : List (Item (Arr R) (Arr Bool)) :=
  h.map (Item.map (lane i) (lane i))

end Verif.Harvest.CondVmap
