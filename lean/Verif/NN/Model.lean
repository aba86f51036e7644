import Mathlib.Analysis.SpecialFunctions.Sqrt
import Mathlib.Analysis.SpecialFunctions.Log.Basic
import Mathlib.Analysis.SpecialFunctions.Trigonometric.Basic
import Mathlib.Algebra.BigOperators.Fin

/-!
# Model of `oryx.experimental.nn`

`/repo/oryx/experimental/nn/{base,combinator,core,reshape,convolution,pooling,normalization}.py` and
`/repo/oryx/core/state/registrations.py` (lists).

Conventions (simplifications):

* An array is its shape and the row-major list of its entries; entries are real numbers, dtypes are
  not modelled.
* `jax.random` is a parameter (`Env`).
* The JAX operations `dot`, `reshape`, `conv_general_dilated`, `conv_transpose`, `reduce_window` are written out.
* Explicit padding lists and `rhs_dilation` are not modelled. The only keyword arguments are
  `training` and `rng`.
* `layer_cau_p` is evaluated by running its body (`primitive.initial_style_bind`).
-/

namespace Verif.NN

/-- An array: shape and row-major entries (the arrays of core.py, convolution.py, pooling.py). -/
structure Arr where
  shape : List Nat
  data : List ℝ

/-- Every array of JAX has as many entries as its shape says (numpy). -/
def Arr.WF (a : Arr) : Prop := a.data.length = a.shape.prod

/-- All multi-indices of a shape, in row-major order (numpy). -/
def indices : List Nat → List (List Nat)
  | [] => [[]]
  | n :: s => (List.range n).flatMap fun i => (indices s).map (i :: ·)

/-- The row-major position of a multi-index (numpy). -/
def ravel : List Nat → List Nat → Nat
  | _ :: s, i :: idx => i * s.prod + ravel s idx
  | _, _ => 0

/-- Indexing (numpy). -/
def Arr.get (a : Arr) (idx : List Nat) : ℝ := a.data.getD (ravel a.shape idx) 0

/-- The exceptions (exceptions of base.py, combinator.py, convolution.py, reshape.py and of JAX). -/
inductive Err where
  /-- wrong number of arguments -/
  | arity
  /-- `Need to jax.vmap in order to batch`, or a rank JAX rejects -/
  | rank
  /-- incompatible shapes -/
  | shape
  /-- `rng is required when training is True` -/
  | noRng
  /-- `'int' object is not iterable`, `Reshape.initialize` -/
  | notIterable
  /-- `Cannot initialize template with None PRNGKey` -/
  | noKey
  /-- `not enough values to unpack`, flattening an empty `Serial` -/
  | emptySerial
  /-- the assertions of the batching rule, `base.py:427, 446` -/
  | assertion
  deriving DecidableEq

/-- `jax.random` and the parameter initialisers.
(the initialisers of core.py:47-70, convolution.py:76-100 and `random.split` at combinator.py:69-82, registrations.py:101-120). -/
structure Env where
  split : Nat → Nat × Nat
  splitN : Nat → Nat → List Nat
  bernoulli : Nat → ℝ → Nat → List Bool
  init : Nat → List Nat → List ℝ
  splitN_length : ∀ k n, (splitN k n).length = n
  bernoulli_length : ∀ k p n, (bernoulli k p n).length = n
  init_length : ∀ k s, (init k s).length = s.prod

/-! ### Leaf operations -/

/-- `np.dot(x, kernel) + bias`, `core.py:78-82`. The kernel has shape `(dim_in, dim_out)`. -/
def denseApply (kernel bias : Arr) (x : Arr) : Except Err Arr :=
  match kernel.shape with
  | [dimIn, dimOut] =>
    if x.shape.getLast? = some dimIn then
      .ok
        { shape := x.shape.dropLast ++ [dimOut]
          data := (List.range (x.shape.dropLast.prod * dimOut)).map fun i =>
            (∑ k ∈ Finset.range dimIn,
              x.data.getD (i / dimOut * dimIn + k) 0 * kernel.data.getD (k * dimOut + i % dimOut) 0)
            + bias.data.getD (i % dimOut) 0 }
    else .error .shape
  | _ => .error .shape

/-- The activations, `core.py:130-179`. -/
inductive Act where
  | relu | tanh | softplus | logSoftmax | softmax

/-- The entries of the row (last axis of length `n`) that position `i` is in.
(`axis=-1` of `LogSoftmax`/`Softmax`, core.py:162-172). -/
def row (x : Arr) (n i : Nat) : Nat → ℝ := fun j => x.data.getD (i / n * n + j) 0

/-- `_activate`, `core.py:147-179`. -/
noncomputable def actApply (a : Act) (x : Arr) : Except Err Arr :=
  match a with
  | .relu => .ok { x with data := x.data.map fun v => max v 0 }
  | .tanh => .ok { x with data := x.data.map Real.tanh }
  | .softplus => .ok { x with data := x.data.map fun v => Real.log (1 + Real.exp v) }
  | .logSoftmax => match x.shape.getLast? with
    | none => .error .rank
    | some n => .ok
      { x with data := (List.range x.data.length).map fun i =>
          x.data.getD i 0 - Real.log (∑ j ∈ Finset.range n, Real.exp (row x n i j)) }
  | .softmax => match x.shape.getLast? with
    | none => .error .rank
    | some n => .ok
      { x with data := (List.range x.data.length).map fun i =>
          Real.exp (x.data.getD i 0) / ∑ j ∈ Finset.range n, Real.exp (row x n i j) }

/-- `Dropout._call`, `core.py:118-127`. `rate` is the probability of keeping an entry. -/
noncomputable def dropoutApply (E : Env) (rate : ℝ) (training : Bool) (rng : Option Nat) (x : Arr) :
    Except Err Arr :=
  if training then
    match rng with
    | none => .error .noRng
    | some k => .ok
      { x with data := (x.data.zip (E.bernoulli k rate x.data.length)).map fun vk =>
          if vk.2 then vk.1 / rate else 0 }
  else .ok x

/-- `np.reshape(x, dims)` with the entries of `dims` at least `-1` and at most one equal to `-1`.
(called at reshape.py:51-53, 89-91). -/
def reshapeApply (dims : List Int) (x : Arr) : Except Err Arr :=
  let known := (dims.filter (· ≠ -1)).map Int.toNat
  if dims.any (· < -1) then .error .shape
  else match dims.count (-1) with
    | 0 => if known.prod = x.shape.prod then .ok { shape := known, data := x.data }
      else .error .shape
    | 1 => if known.prod ≠ 0 ∧ x.shape.prod % known.prod = 0 then
        .ok { shape := dims.map fun d => if d = -1 then x.shape.prod / known.prod else d.toNat
              data := x.data }
      else .error .shape
    | _ => .error .shape

/-! ### Windows: pooling and convolution -/

/-- `lax.padtype_to_pads` for one dimension: `VALID` or `SAME` (JAX). The total padding is
`max(0, (out - 1) * s + w - n)`, written here with truncated subtraction.
(called through `lax.padtype_to_pads` at convolution.py:50-66, pooling.py:43-65). -/
def pads (same : Bool) (n w s : Nat) : Nat × Nat :=
  if same then
    let out := (n + s - 1) / s
    let total := out * s + w - (s + n)
    (total / 2, total - total / 2)
  else (0, 0)

/-- Output size of a windowed operation in one dimension, `lax.reduce_window_shape_tuple` and
`lax.conv_general_shape_tuple` (JAX) (convolution.py:103-114, pooling.py:68-83). -/
def windowOut (same : Bool) (n w s : Nat) : Nat :=
  let p := pads same n w s
  if n + p.1 + p.2 < w then 0 else (n + p.1 + p.2 - w) / s + 1

/-- The input position under offset `off` of the window of output position `o`, if it is not
padding (`lax.reduce_window`, pooling.py:99-128). -/
def windowPos (same : Bool) (n w s o off : Nat) : Option Nat :=
  let pos := o * s + off
  let lo := (pads same n w s).1
  if lo ≤ pos ∧ pos - lo < n then some (pos - lo) else none

/-- The input multi-index under a window offset (`lax.reduce_window`, pooling.py:99-128). -/
def windowIdx (same : Bool) :
    List Nat → List Nat → List Nat → List Nat → List Nat → Option (List Nat)
  | [], [], [], [], [] => some []
  | n :: ns, w :: ws, s :: ss, o :: os, off :: offs => do
    let i ← windowPos same n w s o off
    let is ← windowIdx same ns ws ss os offs
    pure (i :: is)
  | _, _, _, _, _ => none

/-- Output shape of a windowed operation (pooling.py:68-83). -/
def windowShape (same : Bool) : List Nat → List Nat → List Nat → List Nat
  | n :: ns, w :: ws, s :: ss => windowOut same n w s :: windowShape same ns ws ss
  | _, _, _ => []

/-- The entries of the input in the window of an output position (`reduce_window`; padding entries
are the neutral element of the reduction, so they are left out) (pooling.py:99-128). -/
def windowEntries (same : Bool) (x : Arr) (dims strides idx : List Nat) : List ℝ :=
  (indices dims).filterMap fun off => (windowIdx same x.shape dims strides idx off).map x.get

/-- `lax.reduce_window` (pooling.py:99-128). -/
def reduceWindow (same : Bool) (f : List ℝ → ℝ) (dims strides : List Nat) (x : Arr) :
    Except Err Arr :=
  if x.shape.length = dims.length ∧ dims.length = strides.length ∧ strides.all (0 < ·) then
    let out := windowShape same x.shape dims strides
    .ok { shape := out
          data := (indices out).map fun idx => f (windowEntries same x dims strides idx) }
  else .error .rank

/-- The three pooling layers, `pooling.py:99-128`. -/
inductive PoolKind where
  | max | sum | avg

/-- The reduction of a pooling layer. `max` starts from minus infinity: the window is not empty, see
`windowEntries_ne_nil`. `AvgPooling` divides the sum by `window_sizes`, the sum over the same window
of an array of ones (`pooling.py:120-128`), that is the number of entries that are not padding. -/
noncomputable def poolReduce : PoolKind → List ℝ → ℝ
  | .max, l => l.foldl Max.max (l.headD 0)
  | .sum, l => l.sum
  | .avg, l => l.sum / l.length

/-- `Pooling._call_batched`, `pooling.py:99-128`, on an array with a leading batch dimension:
`info.dims = (1,) + window_shape + (1,)` and `info.strides = (1,) + strides + (1,)`
(`pooling.py:60-65`). -/
noncomputable def poolBatched (kind : PoolKind) (window strides : List Nat) (same : Bool) (x : Arr) :
    Except Err Arr :=
  reduceWindow same (poolReduce kind) (1 :: window ++ [1]) (1 :: strides ++ [1]) x

/-- `x[np.newaxis]` (pooling.py:85-89, convolution.py:126-132). -/
def newaxis (x : Arr) : Arr := { x with shape := 1 :: x.shape }

/-- `result[0]` on the leading axis (pooling.py:85-89, convolution.py:126-132). -/
def first (x : Arr) : Except Err Arr :=
  match x.shape with
  | _ :: s => .ok { shape := s, data := x.data.take s.prod }
  | [] => .error .rank

/-- `Pooling._call`, `pooling.py:85-89`. -/
noncomputable def poolApply (kind : PoolKind) (window strides : List Nat) (same : Bool) (x : Arr) :
    Except Err Arr :=
  if 3 < x.shape.length then .error .rank
  else do
    let r ← poolBatched kind window strides same (newaxis x)
    first r

/-- `Conv._call`, `convolution.py:116-132`: `x` has shape `(H, W, C)`, the kernel `(kh, kw, C, O)`. -/
def convApply (kernel : Arr) (bias : Option Arr) (strides : Nat × Nat) (same : Bool) (x : Arr) :
    Except Err Arr :=
  match x.shape, kernel.shape with
  | [h, w, c], [kh, kw, c', o] =>
    if c = c' ∧ 0 < strides.1 ∧ 0 < strides.2 then
      let out := [windowOut same h kh strides.1, windowOut same w kw strides.2, o]
      .ok
        { shape := out
          data := (indices out).map fun idx => match idx with
            | [i, j, k] =>
              (∑ a ∈ Finset.range kh, ∑ b ∈ Finset.range kw, ∑ d ∈ Finset.range c,
                match windowPos same h kh strides.1 i a, windowPos same w kw strides.2 j b with
                | some p, some q => x.get [p, q, d] * kernel.get [a, b, d, k]
                | _, _ => 0)
              + (match bias with | some t => t.data.getD k 0 | none => 0)
            | _ => 0 }
    else .error .shape
  | [_, _, _], _ => .error .shape
  | _, _ => .error .rank

/-- The total padding of one axis, `_conv_transpose_padding` of JAX for a window `k` and a stride `s`
(convolution.py:61-62, 181-187). -/
def deconvTotal (same : Bool) (k s : Nat) : Int :=
  if same then k + s - 2 else k + s - 2 + max (k - s) 0

/-- The padding in front of one axis, `_conv_transpose_padding` of JAX for a window `k` (convolution.py:181-187). -/
def deconvLo (same : Bool) (k s : Nat) : Nat :=
  if same then if k - 1 < s then k - 1 else (k + s - 2 + 1) / 2 else k - 1

/-- The size of an axis after `lhs_dilation`: `s - 1` zeros between neighbours (convolution.py:181-187). -/
def dilated (n s : Nat) : Nat := if n = 0 then 0 else (n - 1) * s + 1

/-- The output size of `lax.conv_transpose` along one axis (convolution.py:181-187). -/
def deconvOut (same : Bool) (n k s : Nat) : Nat := ((dilated n s : Int) + deconvTotal same k s - k + 1).toNat

/-- The output size that `lax.conv_transpose_shape_tuple` computes for one axis (convolution.py:61-62). -/
def deconvSpec (same : Bool) (n : Int) (k s : Nat) : Int := (n - 1) * s - k + 2 + deconvTotal same k s

/-- The input position under offset `off` of the window of output position `o`, if it is neither padding nor one of the
zeros between neighbours (convolution.py:181-187). -/
def deconvPos (same : Bool) (n k s o off : Nat) : Option Nat :=
  let lo := deconvLo same k s
  if lo ≤ o + off ∧ (o + off - lo) % s = 0 ∧ (o + off - lo) / s < n then some ((o + off - lo) / s) else none

/-- `Deconv._call`, `convolution.py:181-195`: `x` has shape `(H, W, C)`, the kernel `(kh, kw, C, O)`.  An empty window is
an error here. -/
def deconvApply (kernel : Arr) (bias : Option Arr) (strides : Nat × Nat) (same : Bool) (x : Arr) :
    Except Err Arr :=
  match x.shape, kernel.shape with
  | [h, w, c], [kh, kw, c', o] =>
    if c = c' ∧ 0 < strides.1 ∧ 0 < strides.2 ∧ 0 < kh ∧ 0 < kw then
      let out := [deconvOut same h kh strides.1, deconvOut same w kw strides.2, o]
      .ok
        { shape := out
          data := (indices out).map fun idx => match idx with
            | [i, j, k] =>
              (∑ a ∈ Finset.range kh, ∑ b ∈ Finset.range kw, ∑ d ∈ Finset.range c,
                match deconvPos same h kh strides.1 i a, deconvPos same w kw strides.2 j b with
                | some p, some q => x.get [p, q, d] * kernel.get [a, b, d, k]
                | _, _ => 0)
              + (match bias with | some t => t.data.getD k 0 | none => 0)
            | _ => 0 }
    else .error .shape
  | [_, _, _], _ => .error .shape
  | _, _ => .error .rank

/-! ### Batch normalisation -/

/-- A `BatchNorm` layer: `BatchNormParams`, `BatchNormState`, `BatchNormInfo`,
`normalization.py:31-45`. `beta`/`gamma` are `none` when `center`/`scale` is false. -/
structure BN where
  beta : Option Arr
  gamma : Option Arr
  movingMean : Arr
  movingVar : Arr
  axis : List Nat
  eps : ℝ
  decay : ℝ
  shape : List Nat

/-- `(1 if i in axis else d for i, d in enumerate(shape))`, `normalization.py:59`; starting at
position `i`. -/
def movingShape (axis : List Nat) : Nat → List Nat → List Nat
  | _, [] => []
  | i, d :: s => (if i ∈ axis then 1 else d) :: movingShape axis (i + 1) s

/-- `(d for i, d in enumerate(shape) if i not in axis)`, `normalization.py:58`. -/
def paramShape (axis : List Nat) : Nat → List Nat → List Nat
  | _, [] => []
  | i, d :: s => if i ∈ axis then paramShape axis (i + 1) s else d :: paramShape axis (i + 1) s

/-- The index into the moving statistics for an index into the input: axis coordinates are 0.
(broadcasting at normalization.py:95-119). -/
def channel (axis : List Nat) : Nat → List Nat → List Nat
  | _, [] => []
  | i, d :: s => (if i ∈ axis then 0 else d) :: channel axis (i + 1) s

/-- The mean of `f` over a list (`np.mean`, normalization.py:95-143). -/
noncomputable def mean (l : List ℝ) : ℝ := l.sum / l.length

/-- The entries of a batch of arrays of shape `s` that belong to a channel (normalization.py:95-143). -/
def channelEntries (axis s : List Nat) (batch : List Arr) (ch : List Nat) : List ℝ :=
  batch.flatMap fun x => ((indices s).filter fun idx => channel axis 0 idx == ch).map x.get

/-- `np.mean(x, axis, keepdims=True)` per channel (normalization.py:95-143). -/
noncomputable def channelMean (axis s : List Nat) (batch : List Arr) (ch : List Nat) : ℝ :=
  mean (channelEntries axis s batch ch)

/-- `np.mean(x**2, axis, keepdims=True) - mean**2` per channel (normalization.py:95-143). -/
noncomputable def channelVar (axis s : List Nat) (batch : List Arr) (ch : List Nat) : ℝ :=
  mean ((channelEntries axis s batch ch).map (· ^ 2)) - channelMean axis s batch ch ^ 2

/-- `gamma * z + beta` and its variants, `normalization.py:111-118`; parameters are indexed by the
coordinates that are not in `axis`. -/
noncomputable def affine (bn : BN) (idx : List Nat) (z : ℝ) : ℝ :=
  let ch := paramShape bn.axis 0 idx
  match bn.gamma, bn.beta with
  | some g, some b => g.get ch * z + b.get ch
  | none, some b => z + b.get ch
  | some g, none => g.get ch * z
  | none, none => z

/-- `_call_batched(x, training=True)`, `normalization.py:95-119`. -/
noncomputable def bnTrain (bn : BN) (batch : List Arr) : List Arr :=
  batch.map fun x =>
    { shape := bn.shape
      data := (indices bn.shape).map fun idx =>
        let ch := channel bn.axis 0 idx
        affine bn idx ((x.get idx - channelMean bn.axis bn.shape batch ch)
          / Real.sqrt (channelVar bn.axis bn.shape batch ch + bn.eps)) }

/-- `_call_batched(x, training=False)` of one example (normalization.py:95-119). -/
noncomputable def bnInfer (bn : BN) (x : Arr) : Arr :=
  { shape := bn.shape
    data := (indices bn.shape).map fun idx =>
      let ch := channel bn.axis 0 idx
      affine bn idx ((x.get idx - bn.movingMean.get ch)
        / Real.sqrt (bn.movingVar.get ch + bn.eps)) }

/-- `BatchNorm._call`, `normalization.py:86-93`. A different shape of the same rank would broadcast
or fail in JAX; it is an error here. -/
noncomputable def bnCall (bn : BN) (training : Bool) (x : Arr) : Except Err Arr :=
  if x.shape.length ≠ bn.shape.length then .error .rank
  else if training then .ok x
  else if x.shape ≠ bn.shape then .error .shape
  else .ok (bnInfer bn x)

/-- `moving -= (moving - stat) * decay`, `normalization.py:138-140`. -/
noncomputable def decayTowards (bn : BN) (moving : Arr) (stat : List Nat → ℝ) : Arr :=
  { moving with data := (indices (movingShape bn.axis 0 bn.shape)).map fun m =>
      moving.get m - (moving.get m - stat m) * bn.decay }

/-- `BatchNorm._update_batched`, `normalization.py:124-143`: after `mean[0]` the statistics have the
shape of the moving statistics. -/
noncomputable def bnUpdateBatched (bn : BN) (batch : List Arr) : BN :=
  { bn with
    movingMean := decayTowards bn bn.movingMean (channelMean bn.axis bn.shape batch)
    movingVar := decayTowards bn bn.movingVar (channelVar bn.axis bn.shape batch) }

/-- `BatchNorm._update` on a single example, `normalization.py:121-122, 130-143`: `mean[0]` takes the
first entry along the first axis of the example, which then broadcasts along that axis. -/
noncomputable def bnUpdate (bn : BN) (x : Arr) : Except Err BN :=
  if x.shape ≠ bn.shape ∨ bn.shape = [] then .error .shape
  else .ok
    { bn with
      movingMean := decayTowards bn bn.movingMean
        fun m => channelMean bn.axis bn.shape [x] (0 :: m.tail)
      movingVar := decayTowards bn bn.movingVar
        fun m => channelVar bn.axis bn.shape [x] (0 :: m.tail) }

/-! ### Layers -/

/-- The layers (core.py, reshape.py, convolution.py, pooling.py, normalization.py, combinator.py). -/
inductive Layer where
  | dense (kernel bias : Arr)
  | dropout (rate : ℝ)
  | act (a : Act)
  | flatten
  | reshape (dimOut : List Int)
  | conv (kernel : Arr) (bias : Option Arr) (strides : Nat × Nat) (same : Bool)
  | deconv (kernel : Arr) (bias : Option Arr) (strides : Nat × Nat) (same : Bool)
  | pool (kind : PoolKind) (window strides : List Nat) (same : Bool)
  | batchNorm (bn : BN)
  | serial (layers : List Layer)

/-- What a call returns: an array, or a tuple of arrays (combinator.py:69-82). -/
inductive Out where
  | one (a : Arr)
  | many (as : List Arr)

/-- `if not isinstance(args, tuple): args = (args,)`, `combinator.py:73-74`. -/
def Out.args : Out → List Arr
  | .one a => [a]
  | .many as => as

/-- `_call` of the layers other than `Serial`, with the keyword arguments they accept
(`kwargs_util.filter_kwargs`, `base.py:262`). -/
noncomputable def leafCall (E : Env) (training : Bool) (rng : Option Nat) (x : Arr) :
    Layer → Except Err Arr
  | .dense k b => denseApply k b x
  | .dropout r => dropoutApply E r training rng x
  | .act a => actApply a x
  | .flatten => reshapeApply [(x.shape.prod : Int)] x
  | .reshape d => reshapeApply d x
  | .conv k b s p => convApply k b s p x
  | .deconv k b s p => deconvApply k b s p x
  | .pool kind w s p => poolApply kind w s p x
  | .batchNorm bn => bnCall bn training x
  | .serial _ => .error .arity

/-- `_update` of the layers other than `Serial`: the default returns the layer
(`base.py:229-242`). -/
noncomputable def leafUpdate (x : Arr) : Layer → Except Err Layer
  | .batchNorm bn => do
    let bn ← bnUpdate bn x
    pure (.batchNorm bn)
  | l => .ok l

mutual
/-- `Layer.call_and_update`, `base.py:244-266`, and `Serial._call`, `Serial._update`
(`combinator.py:54-67`): both run the whole sequence. Flattening an empty `Serial` fails
(`combinator.py:84-89`). -/
noncomputable def callAndUpdate (E : Env) (training : Bool) :
    Layer → List Arr → Option Nat → Except Err (Out × Layer)
  | .serial ls, args, rng => do
    if ls.isEmpty then throw .emptySerial
    let c ← serialLoop E training ls (.many args) rng
    let u ← serialLoop E training ls (.many args) rng
    pure (c.1, .serial u.2)
  | .dense k b, [x], rng => do
    let y ← leafCall E training rng x (.dense k b)
    let l ← leafUpdate x (.dense k b)
    pure (.one y, l)
  | .dropout r, [x], rng => do
    let y ← leafCall E training rng x (.dropout r)
    let l ← leafUpdate x (.dropout r)
    pure (.one y, l)
  | .act a, [x], rng => do
    let y ← leafCall E training rng x (.act a)
    let l ← leafUpdate x (.act a)
    pure (.one y, l)
  | .flatten, [x], rng => do
    let y ← leafCall E training rng x .flatten
    let l ← leafUpdate x .flatten
    pure (.one y, l)
  | .reshape d, [x], rng => do
    let y ← leafCall E training rng x (.reshape d)
    let l ← leafUpdate x (.reshape d)
    pure (.one y, l)
  | .conv k b s p, [x], rng => do
    let y ← leafCall E training rng x (.conv k b s p)
    let l ← leafUpdate x (.conv k b s p)
    pure (.one y, l)
  | .deconv k b s p, [x], rng => do
    let y ← leafCall E training rng x (.deconv k b s p)
    let l ← leafUpdate x (.deconv k b s p)
    pure (.one y, l)
  | .pool kind w s p, [x], rng => do
    let y ← leafCall E training rng x (.pool kind w s p)
    let l ← leafUpdate x (.pool kind w s p)
    pure (.one y, l)
  | .batchNorm bn, [x], rng => do
    let y ← leafCall E training rng x (.batchNorm bn)
    let l ← leafUpdate x (.batchNorm bn)
    pure (.one y, l)
  | _, _, _ => .error .arity
/-- The loop of `Serial._call_and_update`, `combinator.py:69-82`. -/
noncomputable def serialLoop (E : Env) (training : Bool) :
    List Layer → Out → Option Nat → Except Err (Out × List Layer)
  | [], args, _ => .ok (args, [])
  | l :: ls, args, rng => do
    let keys := rng.map E.split
    let r ← callAndUpdate E training l args.args (keys.map Prod.snd)
    let rest ← serialLoop E training ls r.1 (keys.map Prod.fst)
    pure (rest.1, r.2 :: rest.2)
end

/-! ### Templates -/

/-- The `dim_out` argument of `Reshape`: an integer or a sequence (reshape.py:68-79). -/
inductive DimOut where
  | int (n : Int)
  | seq (dims : List Int)

/-- The templates: a layer class with its `init_args`, `base.py:318-324`. `strides = none` is the
default; padding `SAME` or `VALID`. -/
inductive Template where
  | dense (dimOut : Nat)
  | dropout (rate : ℝ)
  | act (a : Act)
  | flatten
  | reshape (dimOut : DimOut)
  | conv (outChan : Nat) (filter : Nat × Nat) (strides : Option (Nat × Nat)) (same useBias : Bool)
  | deconv (outChan : Nat) (filter : Nat × Nat) (strides : Option (Nat × Nat)) (same useBias : Bool)
  | pool (kind : PoolKind) (window : List Nat) (strides : Option (List Nat)) (same : Bool)
  | batchNorm (axis : List Nat) (momentum eps : ℝ) (center scale : Bool)
  | serial (ts : List Template)

/-- `strides or (1,) * len(window_shape)`, `pooling.py:61,76`. -/
def poolStrides (window : List Nat) : Option (List Nat) → List Nat
  | some (s :: ss) => s :: ss
  | _ => List.replicate window.length 1

/-- `cls.initialize(init_key, in_spec, *init_args)` for the classes other than `Serial`:
`core.py:47-70,109-112,138-141`, `reshape.py:33-43,68-79`, `convolution.py:76-100,138-163`,
`pooling.py:43-65`, `normalization.py:52-68`. The input spec comes from an array, so its
dimensions are natural numbers. The shape parameters of `bias` in `conv_info`
(`convolution.py:65-66`) drop leading ones, so it is scalar for one channel. -/
noncomputable def leafInit (E : Env) (key : Nat) (inShape : List Nat) : Template → Except Err Layer
  | .dense dimOut => match inShape.getLast? with
    | none => .error .rank
    | some dimIn =>
      let k := E.split key
      .ok (.dense ⟨[dimIn, dimOut], E.init k.1 [dimIn, dimOut]⟩ ⟨[dimOut], E.init k.2 [dimOut]⟩)
  | .dropout rate => .ok (.dropout rate)
  | .act a => .ok (.act a)
  | .flatten => .ok .flatten
  | .reshape (.int _) => .error .notIterable
  | .reshape (.seq dims) => .ok (.reshape dims)
  | .conv outChan filter strides same useBias => match inShape with
    | [_, _, c] =>
      let k := E.split key
      let kshape := [filter.1, filter.2, c, outChan]
      let bshape := if outChan = 1 then [] else [outChan]
      .ok (.conv ⟨kshape, E.init k.1 kshape⟩
        (if useBias then some ⟨bshape, E.init k.2 bshape⟩ else none) (strides.getD (1, 1)) same)
    | _ => .error .rank
  | .deconv outChan filter strides same useBias => match inShape with
    | [_, _, c] =>
      let k := E.split key
      let kshape := [filter.1, filter.2, c, outChan]
      let bshape := if outChan = 1 then [] else [outChan]
      .ok (.deconv ⟨kshape, E.init k.1 kshape⟩
        (if useBias then some ⟨bshape, E.init k.2 bshape⟩ else none) (strides.getD (1, 1)) same)
    | _ => .error .rank
  | .pool kind window strides same => .ok (.pool kind window (poolStrides window strides) same)
  | .batchNorm axis momentum eps center scale =>
    let pshape := paramShape axis 0 inShape
    let mshape := movingShape axis 0 inShape
    let ks := E.splitN key 4
    .ok (.batchNorm
      { beta := if center then some ⟨pshape, E.init (ks.getD 0 0) pshape⟩ else none
        gamma := if scale then some ⟨pshape, E.init (ks.getD 1 0) pshape⟩ else none
        movingMean := ⟨mshape, List.replicate mshape.prod 0⟩
        movingVar := ⟨mshape, List.replicate mshape.prod 1⟩
        axis := axis, eps := eps, decay := 1 - momentum, shape := inShape })
  | .serial _ => .error .arity

/-- A spec: a shape that may contain `-1` (`state/api.py:101-123`). -/
abbrev Spec := List Int

/-- What `spec` returns: an `ArraySpec` or a tuple of them. -/
inductive SpecOut where
  | one (s : Spec)
  | many (ss : List Spec)

/-- `if isinstance(specs, api.ArraySpec): specs = (specs,)`. -/
def SpecOut.args : SpecOut → List Spec
  | .one s => [s]
  | .many ss => ss

/-- Natural-number dimensions, needed by the window computations (convolution.py:103-114, pooling.py:68-83). -/
def toDims (s : Spec) : Except Err (List Nat) :=
  if s.all (0 ≤ ·) then .ok (s.map Int.toNat) else .error .shape

/-- A shape as a spec (state/api.py:107-123). -/
def ofDims (s : List Nat) : Spec := s.map Int.ofNat

/-- `cls.spec(in_spec, *init_args)` for the classes other than `Serial`: `core.py:73-76,115-116,144-145`,
`reshape.py:46-49,82-87`, `convolution.py:103-114,166-179`, `pooling.py:68-83`, `normalization.py:71-74`. -/
def leafSpec (s : Spec) : Template → Except Err Spec
  | .dense dimOut => .ok (s.dropLast ++ [(dimOut : Int)])
  | .dropout _ => .ok s
  | .act _ => .ok s
  | .flatten => .ok [s.prod]
  | .reshape (.int n) => .ok [n]
  | .reshape (.seq dims) => .ok dims
  | .conv outChan filter strides same _ => do
    let d ← toDims s
    match d with
    | [h, w, _] =>
      let st := strides.getD (1, 1)
      if 0 < st.1 ∧ 0 < st.2 then
        pure (ofDims [windowOut same h filter.1 st.1, windowOut same w filter.2 st.2, outChan])
      else throw .shape
    | _ => throw .rank
  | .deconv outChan filter strides same _ => match s with
    | [h, w, _] =>
      let st := strides.getD (1, 1)
      .ok [deconvSpec same h filter.1 st.1, deconvSpec same w filter.2 st.2, (outChan : Int)]
    | _ => .error .rank
  | .pool _ window strides same => do
    let d ← toDims s
    let st := poolStrides window strides
    if 3 < d.length then throw .rank
    else if (1 :: d).length = (1 :: window ++ [1]).length ∧ window.length = st.length
        ∧ st.all (0 < ·) then
      pure (ofDims (windowShape same (1 :: d) (1 :: window ++ [1]) (1 :: st ++ [1])).tail)
    else throw .rank
  | .batchNorm .. => .ok s
  | .serial _ => .error .arity

mutual
/-- `state.spec(template)`, `base.py:525-531`; `Serial.spec`, `combinator.py:46-48`, is the spec of a
list (`registrations.py:136-143`). -/
def spec : Template → List Spec → Except Err SpecOut
  | .serial ts, ss => specLoop ts (.many ss)
  | .dense d, [s] => (leafSpec s (.dense d)).map .one
  | .dropout r, [s] => (leafSpec s (.dropout r)).map .one
  | .act a, [s] => (leafSpec s (.act a)).map .one
  | .flatten, [s] => (leafSpec s .flatten).map .one
  | .reshape d, [s] => (leafSpec s (.reshape d)).map .one
  | .conv o f st p b, [s] => (leafSpec s (.conv o f st p b)).map .one
  | .deconv o f st p b, [s] => (leafSpec s (.deconv o f st p b)).map .one
  | .pool k w st p, [s] => (leafSpec s (.pool k w st p)).map .one
  | .batchNorm a m e c sc, [s] => (leafSpec s (.batchNorm a m e c sc)).map .one
  | _, _ => .error .arity
/-- The loop of `list_spec`, `registrations.py:137-142`. -/
def specLoop : List Template → SpecOut → Except Err SpecOut
  | [], ss => .ok ss
  | t :: ts, ss => do
    let s ← spec t ss.args
    specLoop ts s
end

/-- The shapes of `jnp.ones(spec.shape)`: negative dimensions are rejected,
`registrations.py:118`. -/
def onesShapes : List Spec → Except Err (List (List Nat))
  | [] => .ok []
  | s :: ss => do
    let d ← toDims s
    let ds ← onesShapes ss
    pure (d :: ds)

mutual
/-- `state.init(template)(key, *args)`, `base.py:337-354`, `template_build` (`base.py:305-315`);
`Serial.initialize`, `combinator.py:31-43`. `shapes` are the shapes of `args`. -/
noncomputable def init (E : Env) : Template → Option Nat → List (List Nat) → Except Err Layer
  | _, none, _ => .error .noKey
  | .serial ts, some key, shapes => do
    let ls ← initLoop E ts (E.splitN key ts.length) shapes
    if ls.isEmpty then throw .emptySerial
    pure (.serial ls)
  | .dense d, some key, [s] => leafInit E key s (.dense d)
  | .dropout r, some key, [s] => leafInit E key s (.dropout r)
  | .act a, some key, [s] => leafInit E key s (.act a)
  | .flatten, some key, [s] => leafInit E key s .flatten
  | .reshape d, some key, [s] => leafInit E key s (.reshape d)
  | .conv o f st p b, some key, [s] => leafInit E key s (.conv o f st p b)
  | .deconv o f st p b, some key, [s] => leafInit E key s (.deconv o f st p b)
  | .pool k w st p, some key, [s] => leafInit E key s (.pool k w st p)
  | .batchNorm a m e c sc, some key, [s] => leafInit E key s (.batchNorm a m e c sc)
  | _, _, _ => .error .arity
/-- The loop of `list_init`, `registrations.py:102-121`: each element is initialised on ones of the
spec of the previous one. -/
noncomputable def initLoop (E : Env) :
    List Template → List Nat → List (List Nat) → Except Err (List Layer)
  | t :: ts, k :: ks, shapes => do
    let l ← init E t (some k) shapes
    let s ← spec t (shapes.map ofDims)
    let shapes ← onesShapes s.args
    let ls ← initLoop E ts ks shapes
    pure (l :: ls)
  | _, _, _ => .ok []
end

end Verif.NN
