import Verif.NN.BatchNorm

/-!
# Layers under `jax.vmap`

Model of `custom_layer_cau_batch` and `_layer_cau_batched`, `/repo/oryx/experimental/nn/base.py:406-483`, and of
`batch_fun` and `InitialStylePrimitive`, `/repo/oryx/core/primitive.py:113-164, 219-238`.

Simplifications: one `vmap` over `B` lanes; the leaves of one layer are mapped all or none (`layer_dims`); layer calls
have no constants (`num_consts = 0`).
-/

namespace Verif.NN

/-- A value under `vmap`: `batching.not_mapped`, or mapped along an axis, given by its lanes (the `vals` and `dims` of
base.py:406). -/
inductive BV (B : Nat) (α : Type) where
  | all (a : α)
  | mapped (axis : Nat) (f : Fin B → α)

/-- One lane of a value (`vmap`, base.py:406). -/
def BV.at {B : Nat} {α : Type} : BV B α → Fin B → α
  | .all a, _ => a
  | .mapped _ f, i => f i

/-- `dim is not not_mapped` (base.py:415, 423-426). -/
def BV.isMapped {B : Nat} {α : Type} : BV B α → Bool
  | .all _ => false
  | .mapped _ _ => true

/-- Application of a function to every lane; the axis is kept (base.py:406). -/
def BV.map {B : Nat} {α β : Type} (g : α → β) : BV B α → BV B β
  | .all a => .all (g a)
  | .mapped ax f => .mapped ax (fun i => g (f i))

/-- A layer under `vmap`: a layer other than `Serial`, or a `Serial` of such (base.py:416, combinator.py:26). -/
inductive VLayer (B : Nat) where
  | leaf (l : BV B Layer)
  | serial (ls : List (VLayer B))

/-- What a call returns under `vmap` (combinator.py:69-82). -/
inductive VOut (B : Nat) where
  | one (a : BV B Arr)
  | many (as : List (BV B Arr))

/-- `if not isinstance(args, tuple): args = (args,)`, `combinator.py:73-74`. -/
def VOut.args {B : Nat} : VOut B → List (BV B Arr)
  | .one a => [a]
  | .many as => as

/-- An error in some lane is an error: the lanes have the same shapes, and errors depend on shapes only (JAX, used by
base.py:453-471). -/
def seqE {α : Type} : {B : Nat} → (Fin B → Except Err α) → Except Err (Fin B → α)
  | 0, _ => .ok (fun i => i.elim0)
  | _ + 1, f => do
    let a ← f 0
    let g ← seqE (fun i => f i.succ)
    pure (Fin.cons a g)

/-- How the batching rules of JAX represent the output of a layer that is evaluated lane by lane: along which axis it is
mapped, or that it is not mapped because all lanes are equal (`out_dims`, base.py:453-471, primitive.py:113-117).  It
may depend on the layer, the input and the key; the lanes are what the layer computes. -/
structure Rep (B : Nat) where
  rep : BV B Layer → BV B Arr → Option (BV B Nat) → (Fin B → Arr) → BV B Arr
  lanes : ∀ l x r f i, (rep l x r f).at i = f i

/-- The call and the update of one layer that is not a `Serial`, on one example (base.py:257-266). -/
noncomputable def leafBoth (E : Env) (tr : Bool) (l : Layer) (x : Arr) (rng : Option Nat) : Except Err (Arr × Layer) := do
  let y ← leafCall E tr rng x l
  let l' ← leafUpdate x l
  pure (y, l')

/-- The layer that the generic rule returns.  Only a layer that is mapped is replaced by a new one: `BatchNorm` is the
only layer with an update of its own, and comes here only if it is mapped (base.py:453-471). -/
def newLeaf {B : Nat} (l : BV B Layer) (r : Fin B → Arr × Layer) : BV B Layer :=
  match l with
  | .all a => .all a
  | .mapped ax _ => .mapped ax (fun i => (r i).2)

/-- The generic batching rule: `batch_fun` of the implementation (base.py:453-471): every lane by itself. -/
noncomputable def vGeneric {B : Nat} (E : Env) (tr : Bool) (R : Rep B) (l : BV B Layer) (x : BV B Arr)
    (rng : Option (BV B Nat)) : Except Err (VOut B × VLayer B) := do
  let r ← seqE (fun i => leafBoth E tr (l.at i) (x.at i) (rng.map (·.at i)))
  pure (.one (R.rep l x rng (fun i => (r i).1)), .leaf (newLeaf l r))

/-- An array with a new first axis (`np.stack`), the result of `jax.vmap` with `out_axes=0` (base.py:433-437). -/
def stackArr {B : Nat} (f : Fin B → Arr) (shape : List Nat) : Arr :=
  ⟨B :: shape, (List.ofFn f).flatMap Arr.data⟩

/-- `B` copies of an array along a new first axis: `jax.vmap` of a function that does not use the mapped argument
(base.py:433-437). -/
def tile (B : Nat) (a : Arr) : Arr := stackArr (fun _ : Fin B => a) a.shape

/-- `B` copies of the leaves of a `BatchNorm` layer (base.py:433-437, normalization.py:143). -/
def tileBN (B : Nat) (bn : BN) : BN :=
  { bn with
    beta := bn.beta.map (tile B)
    gamma := bn.gamma.map (tile B)
    movingMean := tile B bn.movingMean
    movingVar := tile B bn.movingVar }

/-- `BatchNorm._call_batched` with the batch given by its examples (normalization.py:95-119). -/
noncomputable def bnBatched {B : Nat} (bn : BN) (tr : Bool) (f : Fin B → Arr) (i : Fin B) : Arr :=
  if tr then (bnTrain bn (List.ofFn f))[i.1]'(by simp [bnTrain]) else bnInfer bn (f i)

/-- The rule for a layer with `_call_and_update_batched` that is not mapped (base.py:417-452); the only such layer
with leaves is `BatchNorm`.  The call has been staged on the shapes of one example before (base.py:254-255).  A mapped
key makes the rule call `jax.vmap` over the keys around the batched method (base.py:431-440), which stacks `B` copies
of everything that is returned. -/
noncomputable def vBatchNorm {B : Nat} (E : Env) (tr : Bool) (bn : BN) (x : BV B Arr) (rng : Option (BV B Nat)) :
    Except Err (VOut B × VLayer B) := do
  let _ ← seqE (fun i => leafBoth E tr (.batchNorm bn) (x.at i) (rng.map (·.at i)))
  match x with
  | .all _ => throw .assertion
  | .mapped ax f =>
    if ax ≠ 0 then throw .assertion
    else if rng.any (·.isMapped) then
      pure (.one (.mapped 0 (fun _ => stackArr (bnBatched bn tr f) bn.shape)), .leaf (.all (.batchNorm
        (tileBN B (bnUpdateBatched bn (List.ofFn f))))))
    else pure (.one (.mapped 0 (bnBatched bn tr f)), .leaf (.all (.batchNorm (bnUpdateBatched bn (List.ofFn f)))))

/-- The batching rule (base.py:406-471) of the layers other than `Serial`.  `Pooling` also has
`_call_and_update_batched`, but no leaves, so that `mapping_over_layer` is true of it (base.py:423-424) and the generic
rule is used. -/
noncomputable def vLeaf {B : Nat} (E : Env) (tr : Bool) (R : Rep B) (l : BV B Layer) (x : BV B Arr)
    (rng : Option (BV B Nat)) : Except Err (VOut B × VLayer B) :=
  match l, x with
  | .all (.batchNorm bn), .all a =>
    if rng.any (·.isMapped) then vBatchNorm E tr bn x rng
    else do
      let r ← leafBoth E tr (.batchNorm bn) a (rng.bind fun k => match k with | .all k => some k | .mapped _ _ => none)
      pure (.one (.all r.1), .leaf (.all r.2))
  | .all (.batchNorm bn), .mapped _ _ => vBatchNorm E tr bn x rng
  | _, _ => vGeneric E tr R l x rng

/-- `random.split` of a key, lane by lane (combinator.py:75-76). -/
def splitBV {B : Nat} (E : Env) (k : BV B Nat) : BV B Nat × BV B Nat :=
  (k.map (fun a => (E.split a).1), k.map (fun a => (E.split a).2))

mutual
/-- `layer.call_and_update(*args, rng=rng)` under `vmap` (base.py:244-266, 406-471).  `Serial` has no
`_call_and_update_batched`: its implementation is batched (base.py:453-471), that is, its two loops are run with the
batching rule for its layers. -/
noncomputable def vCall {B : Nat} (E : Env) (tr : Bool) (R : Rep B) :
    VLayer B → List (BV B Arr) → Option (BV B Nat) → Except Err (VOut B × VLayer B)
  | .serial ls, args, rng => do
    if ls.isEmpty then throw .emptySerial
    let c ← vLoop E tr R ls (.many args) rng
    let u ← vLoop E tr R ls (.many args) rng
    pure (c.1, .serial u.2)
  | .leaf l, [x], rng => vLeaf E tr R l x rng
  | .leaf _, _, _ => .error .arity
/-- The loop of `Serial._call_and_update`, `combinator.py:69-82`, under `vmap`. -/
noncomputable def vLoop {B : Nat} (E : Env) (tr : Bool) (R : Rep B) :
    List (VLayer B) → VOut B → Option (BV B Nat) → Except Err (VOut B × List (VLayer B))
  | [], args, _ => .ok (args, [])
  | l :: ls, args, rng => do
    let keys := rng.map (splitBV E)
    let r ← vCall E tr R l args.args (keys.map Prod.snd)
    let rest ← vLoop E tr R ls r.1 (keys.map Prod.fst)
    pure (rest.1, r.2 :: rest.2)
end

end Verif.NN
