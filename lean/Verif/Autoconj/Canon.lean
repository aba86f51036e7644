import Verif.Autoconj.Einsum

/-
The canonicalization rules (oryx/experimental/autoconj/canonicalize.py) and `AddN`
(oryx/experimental/autoconj/addn.py).
-/

namespace Verif.Autoconj

/-- The operation of an expression node: the JAX primitives the rules rewrite with their parameters
(`Primitive`, jax_rewrite.py), `Einsum` (einsum.py:65-146), `AddN` (addn.py:46-115), and any other
primitive. -/
inductive Op where
  | transpose (permutation : List ℕ)
  | squeeze (dimensions : List ℕ)
  | dot (xContract yContract xBatch yBatch : List ℕ)
  | reduceSum (axes : List ℕ)
  | add
  | einsum (f : Formula)
  | addn
  | other (p : ℕ)
deriving DecidableEq

/-- JAX expressions: variables with their declared shape (`JaxVar`), and operations on operands.
(jax_rewrite.py:286-560). -/
inductive AExpr where
  | var (name : ℕ) (shape : List ℕ)
  | app (op : Op) (args : List AExpr)

mutual
/-- Python `==` on expressions (used by canonicalize.py via rules.py:384, 406). -/
def AExpr.decEq : (x y : AExpr) → Decidable (x = y)
  | .var n s, .var n' s' =>
    if h : n = n' ∧ s = s' then isTrue (by rw [h.1, h.2]) else isFalse (fun e => h (by injection e with a b; exact ⟨a, b⟩))
  | .app o l, .app o' l' =>
    if hk : o = o' then
      match AExpr.decEqList l l' with
      | isTrue h => isTrue (h ▸ hk ▸ rfl)
      | isFalse h => isFalse (fun e => h (by injection e))
    else isFalse (fun e => hk (by injection e))
  | .var _ _, .app _ _ => isFalse (fun e => by cases e)
  | .app _ _, .var _ _ => isFalse (fun e => by cases e)
/-- Python `==` on tuples of expressions (used via rules.py:384, 406). -/
def AExpr.decEqList : (x y : List AExpr) → Decidable (x = y)
  | [], [] => isTrue rfl
  | x :: xs, y :: ys =>
    match AExpr.decEq x y, AExpr.decEqList xs ys with
    | isTrue h, isTrue h' => isTrue (h ▸ h' ▸ rfl)
    | isFalse h, _ => isFalse (fun e => h (by injection e))
    | _, isFalse h => isFalse (fun e => h (by injection e))
  | [], _ :: _ => isFalse (fun e => by cases e)
  | _ :: _, [] => isFalse (fun e => by cases e)
end

instance : DecidableEq AExpr := AExpr.decEq

/-! ### What the operations compute (JAX's specification of the primitives) -/

variable {R : Type}

/-- The finite set of index tuples of a shape.
(index set used for the meaning of `jnp` operations in einsum.py:138-141). -/
def box : List ℕ → Finset (List ℕ)
  | [] => {[]}
  | n :: s => (Finset.range n ×ˢ box s).image fun p => p.1 :: p.2

/-- The entries of `idx` at the given axes.
(`lax.transpose`, `lax.reduce_sum` and `lax.dot_general` of JAX, matched at canonicalize.py:82-140). -/
def pick (axes idx : List ℕ) : List ℕ := axes.map fun i => idx.getD i 0

/-- The axes of an array of rank `n` that are not in `axes`.
(`lax.squeeze`, `lax.reduce_sum` and `lax.dot_general` of JAX, matched at canonicalize.py:94-140). -/
def rest (n : ℕ) (axes : List ℕ) : List ℕ := (List.range n).filter (· ∉ axes)

/-- The interpretation of the primitives that no rule mentions: their meaning and their shape rule.
(expressions that no rule of canonicalize.py:82-195 matches). -/
structure Others (R : Type) where
  sem : ℕ → List (Arr R) → Option (Arr R)
  shape : ℕ → List (List ℕ) → Option (List ℕ)
  agree : ∀ p args, (sem p args).map Arr.shape = shape p (args.map Arr.shape)

/-- The shape of the result (`jax.eval_shape`); `none` where JAX raises.  Simplifications: an operation
whose operands have more than 52 axes in all is not modelled (`none`; the letters of `_EINSUM_RANGE`
would not suffice), and `AddN` does not broadcast (einsum.py:98-106, addn.py:61-76; JAX shape rules). -/
def opShape (oth : Others R) : Op → List (List ℕ) → Option (List ℕ)
  | .transpose perm, [s] =>
    if s.length ≤ 52 ∧ perm.Nodup ∧ (∀ i ∈ perm, i < s.length) ∧ perm.length = s.length then
      some (pick perm s) else none
  | .squeeze dims, [s] =>
    if s.length ≤ 52 ∧ (∀ i ∈ dims, i < s.length ∧ s.getD i 0 = 1) then
      some (pick (rest s.length dims) s) else none
  | .reduceSum axes, [s] =>
    if s.length ≤ 52 ∧ (∀ i ∈ axes, i < s.length) then some (pick (rest s.length axes) s) else none
  | .dot cx cy bx by', [s, t] =>
    if s.length + t.length ≤ 52 ∧ cx.length = cy.length ∧ bx.length = by'.length ∧
        (cx ++ bx).Nodup ∧ (cy ++ by').Nodup ∧ (∀ i ∈ cx ++ bx, i < s.length) ∧
        (∀ i ∈ cy ++ by', i < t.length) ∧ pick (cx ++ bx) s = pick (cy ++ by') t then
      some (pick bx s ++ pick (rest s.length (cx ++ bx)) s ++ pick (rest t.length (cy ++ by')) t)
    else none
  | .add, [s, t] => if s = t then some s else none
  | .einsum f, ss => einsumShape f ss
  | .addn, s :: ss => if ∀ t ∈ ss, t = s then some s else none
  | .other p, ss => oth.shape p ss
  | _, _ => none

/-- The entries of the result.
`transpose`: axis `i` of the result is axis `perm[i]` of `x`.
`squeeze`: the index on the removed axes is 0.
`reduce_sum`: the sum of the entries whose index tuple is `o` outside `axes`.
`dot_general`: the sum of the products of the entries that agree on the contracted and on the batch
axes; the result axes are the batch axes, then the other axes of `x`, then those of `y`.
`AddN`: `functools.reduce(operator.add, operands)` (addn.py:107-110). -/
def opVal [CommSemiring R] : Op → List (Arr R) → List ℕ → R
  | .transpose perm, [x], o => x.val ((List.range x.shape.length).map fun j => o.getD (perm.idxOf j) 0)
  | .squeeze dims, [x], o => x.val ((List.range x.shape.length).map fun j =>
      if j ∈ dims then 0 else o.getD ((rest x.shape.length dims).idxOf j) 0)
  | .reduceSum axes, [x], o =>
    ∑ i ∈ box x.shape, if pick (rest x.shape.length axes) i = o then x.val i else 0
  | .dot cx cy bx by', [x, y], o =>
    ∑ i ∈ box x.shape, ∑ j ∈ box y.shape,
      if pick (cx ++ bx) i = pick (cy ++ by') j ∧
          pick bx i ++ pick (rest x.shape.length (cx ++ bx)) i ++
            pick (rest y.shape.length (cy ++ by')) j = o then x.val i * y.val j else 0
  | .add, [x, y], o => x.val o + y.val o
  | .einsum f, args, o => einsumVal f (dimOf f.ins (args.map Arr.shape)) args o
  | .addn, x :: xs, o => xs.foldl (fun acc y => acc + y.val o) (x.val o)
  | _, _, _ => 0

/-- Applying an operation to arrays (einsum.py:138-141, addn.py:107-110, `primitive.bind` for the others). -/
def opSem [CommSemiring R] (oth : Others R) (op : Op) (args : List (Arr R)) : Option (Arr R) :=
  match op with
  | .other p => oth.sem p args
  | op => (opShape oth op (args.map Arr.shape)).map fun s => mkArr s (opVal op args)

mutual
/-- `evaluate` (jax_rewrite.py:221-282, einsum.py:138-141, addn.py:107-110).  Simplification: the array
given for a variable must have the declared shape. -/
def eval [CommSemiring R] (oth : Others R) (env : ℕ → Option (Arr R)) : AExpr → Option (Arr R)
  | .var n s => (env n).bind fun a => if a.shape = s then some a else none
  | .app op args => (evalAll oth env args).bind (opSem oth op)
/-- `evaluate` of a tuple (jax_rewrite.py:250-252). -/
def evalAll [CommSemiring R] (oth : Others R) (env : ℕ → Option (Arr R)) : List AExpr → Option (List (Arr R))
  | [] => some []
  | e :: es => (eval oth env e).bind fun a => (evalAll oth env es).bind fun as => some (a :: as)
end

mutual
/-- The `shape` property of an expression (einsum.py:86-110, addn.py:61-80, jax_rewrite.py). -/
def shapeOf (oth : Others R) : AExpr → Option (List ℕ)
  | .var _ s => some s
  | .app op args => (shapesOf oth args).bind (opShape oth op)
/-- The shapes of the operands (einsum.py:98-106). -/
def shapesOf (oth : Others R) : List AExpr → Option (List (List ℕ))
  | [] => some []
  | e :: es => (shapeOf oth e).bind fun s => (shapesOf oth es).bind fun ss => some (s :: ss)
end

/-! ### The rules -/

/-- `''.join(it.islice(einsum.einsum_letters(), n))` (canonicalize.py:89, 102, 137). -/
def letters (n : ℕ) : List Letter := (List.finRange 52).take n

/-- `[x_dims[i] for i in …]` (canonicalize.py:90, 103, 122, 138); `none`: an `IndexError`. -/
def lettersAt (dims : List Letter) : List ℕ → Option (List Letter)
  | [] => some []
  | i :: is => (dims[i]?).bind fun l => (lettersAt dims is).bind fun ls => some (l :: ls)

/-- `transpose_as_einsum` (canonicalize.py:82-91). -/
def transposeRule (oth : Others R) : AExpr → Option AExpr
  | .app (.transpose perm) [x] =>
    (shapeOf oth x).bind fun s => (lettersAt (letters s.length) perm).bind fun out =>
      some (.app (.einsum ⟨[letters s.length], out⟩) [x])
  | e => some e

/-- `squeeze_as_einsum` (canonicalize.py:94-104). -/
def squeezeRule (oth : Others R) : AExpr → Option AExpr
  | .app (.squeeze dims) [x] =>
    (shapeOf oth x).bind fun s =>
      (lettersAt (letters s.length) ((List.range s.length).filter (· ∉ dims))).bind fun out =>
        some (.app (.einsum ⟨[letters s.length], out⟩) [x])
  | e => some e

/-- The loop `for x_dim, y_dim in zip(...): y_dims[y_dim] = x_dims[x_dim]` (canonicalize.py:119-120). -/
def tieDims (xd : List Letter) : List (ℕ × ℕ) → List Letter → Option (List Letter)
  | [], yd => some yd
  | (a, b) :: ps, yd => (xd[a]?).bind fun l => if b < yd.length then tieDims xd ps (yd.set b l) else none

/-- `dot_as_einsum` (canonicalize.py:107-126). -/
def dotRule (oth : Others R) : AExpr → Option AExpr
  | .app (.dot cx cy bx by') [x, y] =>
    (shapeOf oth x).bind fun s => (shapeOf oth y).bind fun t =>
      let xd := letters s.length
      (tieDims xd ((cx ++ bx).zip (cy ++ by')) (((List.finRange 52).drop s.length).take t.length)).bind
        fun yd => (lettersAt xd bx).bind fun ob =>
          some (.app (.einsum ⟨[xd, yd], ob ++ (xd.filter (· ∉ yd) ++ yd.filter (· ∉ xd))⟩) [x, y])
  | e => some e

/-- `reduce_sum_as_einsum` (canonicalize.py:129-140). -/
def reduceSumRule (oth : Others R) : AExpr → Option AExpr
  | .app (.reduceSum axes) [x] =>
    (shapeOf oth x).bind fun s =>
      (lettersAt (letters s.length) ((List.range s.length).filter (· ∉ axes))).bind fun out =>
        some (.app (.einsum ⟨[letters s.length], out⟩) [x])
  | e => some e

/-- The first match of `(Segment('left_args'), Einsum(…), Segment('right_args'))` (canonicalize.py:143-146):
the left segment is as short as possible. -/
def firstEinsum : List AExpr → Option (List AExpr × Formula × List AExpr × List AExpr)
  | [] => none
  | .app (.einsum f) cs :: es => some ([], f, cs, es)
  | e :: es => (firstEinsum es).map fun p => (e :: p.1, p.2)

/-- `compose_einsums` as a rule (canonicalize.py:143-154). -/
def composeRule : AExpr → Option AExpr
  | .app (.einsum f) args =>
    match firstEinsum args with
    | none => some (.app (.einsum f) args)
    | some (left, cf, cargs, right) =>
      (compose f left.length cf).bind fun g => some (.app (.einsum g) (left ++ cargs ++ right))
  | e => some e

/-- `add_to_addn` (canonicalize.py:166-175). -/
def addRule : AExpr → Option AExpr
  | .app .add [x, y] => some (.app .addn [x, y])
  | e => some e

/-- The first match of `(Segment('args1'), AddN(Var('child_args')), Segment('args2'))`
(canonicalize.py:178-179). -/
def firstAddn : List AExpr → Option (List AExpr × List AExpr × List AExpr)
  | [] => none
  | .app .addn cs :: es => some ([], cs, es)
  | e :: es => (firstAddn es).map fun p => (e :: p.1, p.2)

/-- `addn_of_addn_to_addn` (canonicalize.py:178-184). -/
def addnRule : AExpr → Option AExpr
  | .app .addn args =>
    match firstAddn args with
    | none => some (.app .addn args)
    | some (left, cargs, right) => some (.app .addn (left ++ cargs ++ right))
  | e => some e

/-- `CANONICALIZATION_RULES` (canonicalize.py:157-195), in order. -/
def canonRules (oth : Others R) : List (AExpr → Option AExpr) :=
  [transposeRule oth, dotRule oth, squeezeRule oth, reduceSumRule oth, composeRule, addRule, addnRule]

/-- `rule_list` (matching/rules.py:376-387). -/
def ruleListA : List (AExpr → Option AExpr) → AExpr → Option AExpr
  | [], e => some e
  | r :: rs, e => (r e).bind fun e' => if e' ≠ e then some e' else ruleListA rs e

mutual
/-- `bottom_up` (matching/rules.py:423-429). -/
def bottomUpA (r : AExpr → Option AExpr) : AExpr → Option AExpr
  | .var n s => r (.var n s)
  | .app op args => (bottomUpAs r args).bind fun args' => r (.app op args')
/-- `bottom_up` on the operands (matching/rules.py:427). -/
def bottomUpAs (r : AExpr → Option AExpr) : List AExpr → Option (List AExpr)
  | [] => some []
  | e :: es => (bottomUpA r e).bind fun e' => (bottomUpAs r es).bind fun es' => some (e' :: es')
end

/-- `iterated` (matching/rules.py:401-411). -/
def iteratedA (r : AExpr → Option AExpr) (e : AExpr) : Option AExpr :=
  r e >>= fun e' => if e = e' then some e' else iteratedA r e'
partial_fixpoint

/-- `canonicalize = rules.term_rewriter(*CANONICALIZATION_RULES)` (canonicalize.py:197,
matching/rules.py:441-443). -/
def canonicalize (oth : Others R) : AExpr → Option AExpr :=
  iteratedA (bottomUpA (ruleListA (canonRules oth)))

end Verif.Autoconj
