/-
C65.  Model of the batching and log_prob rules of the primitive `random_variable`
(oryx/distributions/distribution_extensions.py:37-81): random variables drawn under nested `jax.vmap`s.
-/
namespace Verif.LogProb.Batched

/-- An array: its shape and its entries (only indices in range are meaningful).
(the arrays of distribution_extensions.py:49-54). -/
structure Arr (α : Type) where
  shape : List Nat
  data : List Nat → α

/-- Where the axis of each enclosing `vmap` is in the physical array of a parameter: the `dims` that the batching rule is
given by the innermost `vmap`, the next one, and so on; `none` for a parameter that this `vmap` does not map
(distribution_extensions.py:61-80).  The rule passes the physical arrays on unchanged (`it.chain(new_consts, args)`,
line 74), so axes are only ever inserted.  `base` are the axes of the parameter without any `vmap` and `a k` is what is
inserted for level `k` (`k = 0` is the innermost `vmap`): the size of the level for shapes, the index for indices. -/
def place {β : Type} (base : List β) : Nat → List (Option Nat) → (Nat → β) → List β
  | _, [], _ => base
  | k, none :: ds, a => place base (k + 1) ds a
  | k, some d :: ds, a => place (base.insertIdx d (a k)) (k + 1) ds a

/-- The dims are positions that exist (`jax.vmap` raises otherwise); `r` is the rank.
(`dims` of distribution_extensions.py:61-72). -/
def ValidDims : Nat → List (Option Nat) → Prop
  | _, [] => True
  | r, none :: ds => ValidDims r ds
  | r, some d :: ds => d ≤ r ∧ ValidDims (r + 1) ds

/-- A parameter of the distribution: its physical array, its rank without `vmap`s and its dims.
(`args`, `dims` of distribution_extensions.py:61-72). -/
structure Param (α : Type) where
  arr : Arr α
  event : List Nat
  dims : List (Option Nat)

/-- The value of the parameter seen inside the `vmap`s, at the lanes `a`: `jax.vmap` takes the slice at `a k` along its
axis (distribution_extensions.py:72). -/
def Param.lane {α : Type} (p : Param α) (a : Nat → Nat) : List Nat → α :=
  fun ev => p.arr.data (place ev 0 p.dims a)

/-- The shape of the physical array belongs to the sizes `n k` of the levels (distribution_extensions.py:72). -/
def Param.Shaped {α : Type} (p : Param α) (n : Nat → Nat) : Prop :=
  ValidDims p.event.length p.dims ∧ p.arr.shape = place p.event 0 p.dims n

/-- The levels' indices or sizes in the order of the value's axes: `out_axes=0` puts the axis of each further `vmap` in
front (distribution_extensions.py:72), so the outermost level comes first. -/
def outerFirst {β : Type} : Nat → (Nat → β) → List β
  | 0, _ => []
  | k + 1, a => a k :: outerFirst k a

/-- One dimension of numpy's broadcasting rule (numpy, used inside `dist.log_prob`, distribution_extensions.py:53). -/
def bdim (a b : Nat) : Option Nat :=
  if a = b then some a else if a = 1 then some b else if b = 1 then some a else none

/-- Broadcasting of reversed shapes (aligned at the last axis).
(numpy, used inside `dist.log_prob`, distribution_extensions.py:53). -/
def brev : List Nat → List Nat → Option (List Nat)
  | [], t => some t
  | s, [] => some s
  | a :: s, b :: t => (bdim a b).bind fun c => (brev s t).map (c :: ·)

/-- `numpy.broadcast_shapes` of two shapes (used inside `dist.log_prob`, distribution_extensions.py:53). -/
def broadcast (s t : List Nat) : Option (List Nat) := (brev s.reverse t.reverse).map List.reverse

/-- The entry of an array of batch shape `s` that is used at index `idx` of the result: the last axes, and 0 along axes of
size one (numpy, used inside `dist.log_prob`, distribution_extensions.py:53). -/
def bindex (s idx : List Nat) : List Nat :=
  List.zipWith (fun d i => if d = 1 then 0 else i) s (idx.drop (idx.length - s.length))

/-- The batch shape of an array whose last `r` axes belong to the event.
(TFP, used inside `dist.log_prob`, distribution_extensions.py:53). -/
def batchShape (shape : List Nat) (r : Nat) : List Nat := shape.take (shape.length - r)

/-- All indices of a shape, the first axis slowest (the sum of distribution_extensions.py:53-54). -/
def indices : List Nat → List (List Nat)
  | [] => [[]]
  | n :: s => (List.range n).flatMap fun i => (indices s).map (i :: ·)

variable {α R : Type}

/-- `dist.log_prob(outval)` for a distribution rebuilt from its physical parameters (distribution_extensions.py:49-53): the
batch shapes of the parameters and of the value are broadcast and the log probability `logp` is computed for each entry.
This is what TFP documents for distributions; the checks it makes of event shapes are not modelled.  `none`: incompatible
shapes. -/
def distLogProb (logp : List (List Nat → α) → (List Nat → α) → R) (ps : List (Param α)) (v : Arr α) (vr : Nat) :
    Option (Arr R) :=
  ((ps.map fun p => batchShape p.arr.shape p.event.length).foldlM broadcast (batchShape v.shape vr)).map fun s =>
    ⟨s, fun idx => logp
      (ps.map fun p ev => p.arr.data (bindex (batchShape p.arr.shape p.event.length) idx ++ ev))
      (fun ev => v.data (bindex (batchShape v.shape vr) idx ++ ev))⟩

/-- `.sum(axis=list(range(batch_ndims)))` (distribution_extensions.py:53-54) of an array of rank `batch_ndims`; `none` when
the rank is another one (an error if it is smaller; not a scalar if it is larger). -/
def sumBatch [Add R] [Zero R] (batchNdims : Nat) (x : Arr R) : Option R :=
  if x.shape.length = batchNdims then some ((indices x.shape).map x.data).sum else none

/-- `random_variable_log_prob_rule` with the parameters and the value known (distribution_extensions.py:40-54);
`batch_ndims` is the number of enclosing `vmap`s (lines 72-79). -/
def rvLogProb [Add R] [Zero R] (logp : List (List Nat → α) → (List Nat → α) → R) (ps : List (Param α)) (v : Arr α)
    (vr levels : Nat) : Option R :=
  (distLogProb logp ps v vr).bind (sumBatch levels)

end Verif.LogProb.Batched
