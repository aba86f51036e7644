/-
The pattern matcher of oryx/experimental/matching/matcher.py.

A Python generator of bindings is modelled by the list of what it yields (all generators of this
file are finite).  Exceptions raised by comparing or slicing unsuitable values are not modelled
(see the comments on the single definitions).
-/

namespace Verif.Matching

/-- Names of variables, i.e. the keys of `Bindings` (matcher.py:257, `Bindings = Dict[str, Expr]`). -/
abbrev Name := Nat

/-- The expressions that are matched (matcher.py:256, `Expr = Any`): atoms (numbers, strings, any
object compared by `==`), tuples, and dictionaries given by their sorted keys and the values in
that order (matcher.py:692-708).
Simplifications: all sequences are tuples (no lists), and a string is an atom, so a *tuple* pattern
never matches a string.  A string pattern matches a string exactly when they are equal
(matcher.py:665-689; `Strings.string_pattern_spec`), which is what atoms do.  Lists and tuple patterns against strings:
`Strings.vars_match_other_kind`. -/
inductive Expr where
  | atom (a : Nat)
  | seq (l : List Expr)
  | dict (keys : List Nat) (vals : List Expr)

mutual
/-- Python `==` on expressions is decidable (matcher.py:289, 380). -/
def Expr.decEq : (x y : Expr) → Decidable (x = y)
  | .atom a, .atom b =>
    if h : a = b then isTrue (h ▸ rfl) else isFalse (fun e => h (by injection e))
  | .seq l, .seq l' =>
    match Expr.decEqList l l' with
    | isTrue h => isTrue (h ▸ rfl)
    | isFalse h => isFalse (fun e => h (by injection e))
  | .dict k l, .dict k' l' =>
    if hk : k = k' then
      match Expr.decEqList l l' with
      | isTrue h => isTrue (h ▸ hk ▸ rfl)
      | isFalse h => isFalse (fun e => h (by injection e))
    else isFalse (fun e => hk (by injection e))
  | .atom _, .seq _ => isFalse (fun e => by cases e)
  | .atom _, .dict _ _ => isFalse (fun e => by cases e)
  | .seq _, .atom _ => isFalse (fun e => by cases e)
  | .seq _, .dict _ _ => isFalse (fun e => by cases e)
  | .dict _ _, .atom _ => isFalse (fun e => by cases e)
  | .dict _ _, .seq _ => isFalse (fun e => by cases e)
/-- Python `==` on tuples of expressions (matcher.py:289, 380). -/
def Expr.decEqList : (x y : List Expr) → Decidable (x = y)
  | [], [] => isTrue rfl
  | x :: xs, y :: ys =>
    match Expr.decEq x y, Expr.decEqList xs ys with
    | isTrue h, isTrue h' => isTrue (h ▸ h' ▸ rfl)
    | isFalse h, _ => isFalse (fun e => h (by injection e))
    | _, isFalse h => isFalse (fun e => h (by injection e))
  | [], _ :: _ => isFalse (fun e => by cases e)
  | _ :: _, [] => isFalse (fun e => by cases e)
end

instance : DecidableEq Expr := Expr.decEq

mutual
/-- Patterns.  `atom`: any object matched by equality (matcher.py:267-293); `var`: matcher.py:353-386,
with the conjunction of its restrictions as `ok` (lines 370-371); `not`: matcher.py:338-347;
`choice`: matcher.py:397-412; `seq`: a tuple used as a pattern (matcher.py:604-662); `dict`: a dict used
as a pattern (matcher.py:692-708), given by sorted keys and the patterns for their values.
A `Star` is only allowed inside a sequence (matcher.py:302-303, 311-312, 320-321 raise otherwise), so it is a
constructor of `Elems`. -/
inductive Pat where
  | atom (a : Nat)
  | var (name : Option Name) (ok : Expr → Bool)
  | not (p : Pat)
  | choice (name : Option Name) (ps : Pats)
  | seq (es : Elems)
  | dict (keys : List Nat) (es : Elems)
/-- The alternatives of a `Choice` (matcher.py:400-402). -/
inductive Pats where
  | nil
  | cons (p : Pat) (ps : Pats)
/-- The elements of a sequence pattern: ordinary patterns and `Star`/`Plus`/`Segment`
(matcher.py:426-601; `Plus` is `plus := true`, `Segment` has body `Dot`). -/
inductive Elems where
  | nil
  | one (p : Pat) (es : Elems)
  | star (p : Pat) (name : Option Name) (acc : List Name) (greedy plus : Bool) (es : Elems)
end

/-- `Bindings` (matcher.py:257): a dictionary from names to expressions. -/
abbrev Bind := Name → Option Expr

/-- `{}` (matcher.py:304, 313, 322). -/
def Bind.empty : Bind := fun _ => none

/-- `dict(bindings, **{name: expr})` (e.g. matcher.py:382). -/
def Bind.set (b : Bind) (n : Name) (e : Expr) : Bind := fun m => if m = n then some e else b m

/-- `non_acc_bindings` (matcher.py:487-489): the bindings without the accumulated names. -/
def Bind.erase (b : Bind) (acc : List Name) : Bind := fun n => if n ∈ acc then none else b n

/-- `accumulate_value` (matcher.py:456-460): append `value` to the tuple bound to a name (`()` if
unbound).  Simplification: if the bound value is not a tuple Python raises a `TypeError`; the
model then starts a new tuple. -/
def appendValue : Option Expr → Expr → Expr
  | some (.seq l), v => .seq (l ++ [v])
  | _, v => .seq [v]

/-- The loop at matcher.py:491-496: merge the bindings `m` of one element into `b`. -/
def mergeAcc (acc : List Name) (b m : Bind) : Bind := fun n =>
  match m n with
  | none => b n
  | some v => if n ∈ acc then some (appendValue (b n) v) else some v

/-- `Star.accumulate_match` (matcher.py:462-497), with `f` the matcher of the body with the
continuation `id_success`.  It is only called with `id_success` (line 535), so the continuation is
left out. -/
def accMatch (f : Expr → Bind → List Bind) (acc : List Name) : List Expr → Bind → List Bind
  | [], b => [b]
  | e :: es, b => (f e (b.erase acc)).flatMap fun m => accMatch f acc es (mergeAcc acc b m)

/-- `dict(m, **self.bind(bindings, segment))` (matcher.py:451-454, 537): the bindings from before the
`Star` override those of `m`, and the segment is bound to the name of the `Star`. -/
def starBind (name : Option Name) (b m : Bind) (segment : List Expr) : Bind := fun n =>
  if name = some n then some (.seq segment)
  else match b n with
    | some v => some v
    | none => m n

/-- The slices tried by `Star.match` (matcher.py:528-534): `expr[:i], expr[i:]` for `i` in
`range(int(plus), len(expr)+1)`, reversed if greedy. -/
def splits (greedy plus : Bool) (l : List Expr) : List (List Expr × List Expr) :=
  let idx := (List.range (l.length + 1)).filter (fun i => !(plus && i == 0))
  let idx := if greedy then idx.reverse else idx
  idx.map fun i => (l.take i, l.drop i)

mutual
/-- `matcher(pattern)(expr, bindings, succeed)` (matcher.py:267-293, dispatching on the type of the
pattern). -/
def matchP : Pat → Expr → Bind → (Bind → List Bind) → List Bind
  -- default_match, matcher.py:288-291
  | .atom a, e, b, k => if e = .atom a then k b else []
  -- Var.match, matcher.py:373-386
  | .var name ok, e, b, k =>
    if ok e then
      match name with
      | none => k b
      | some n =>
        match b n with
        | none => k (b.set n e)
        | some v => if v = e then k b else []
    else []
  -- Not.match, matcher.py:343-347
  | .not p, e, b, k =>
    match matchP p e b (fun m => [m]) with
    | [] => k b
    | _ :: _ => []
  -- Choice.match, matcher.py:404-412
  | .choice name ps, e, b, k =>
    matchPs ps e (match name with | none => b | some n => b.set n e) k
  -- sequence_match, matcher.py:629-630
  | .seq es, e, b, k =>
    match e with
    | .seq l => matchEs es l b k
    | _ => []
  -- dict_match, matcher.py:698-706
  | .dict keys es, e, b, k =>
    match e with
    | .dict keys' vals => if keys' = keys then matchEs es vals b k else []
    | _ => []
/-- The loop of `Choice.match` (matcher.py:408-412): the results of the first alternative that has
any. -/
def matchPs : Pats → Expr → Bind → (Bind → List Bind) → List Bind
  | .nil, _, _, _ => []
  | .cons p ps, e, b, k =>
    match matchP p e b k with
    | [] => matchPs ps e b k
    | r :: rs => r :: rs
/-- `sequence_match` (matcher.py:629-660) on a tuple, and `Star.match` (matcher.py:499-537). -/
def matchEs : Elems → List Expr → Bind → (Bind → List Bind) → List Bind
  -- matcher.py:645-652
  | .nil, l, b, k => match l with | [] => k b | _ :: _ => []
  -- matcher.py:654-660
  | .one p es, l, b, k =>
    match l with
    | [] => []
    | x :: xs => matchP p x b (fun b' => matchEs es xs b' k)
  -- matcher.py:632-643 and 518-537
  | .star p name acc greedy plus es, l, b, k =>
    match name.bind b with
    | some v =>
      -- the name is bound: compare with the bound value (matcher.py:520-526).  Simplification: Python
      -- raises a `TypeError` if the bound value has no length; here there is no match.
      match v with
      | .seq s => if s = l.take s.length then matchEs es (l.drop s.length) b k else []
      | _ => []
    | none =>
      (splits greedy plus l).flatMap fun sr =>
        (accMatch (fun e b => matchP p e b (fun m => [m])) acc sr.1 b).flatMap fun m =>
          matchEs es sr.2 (starBind name b m sr.1) k
end

/-- `match_all` (matcher.py:318-322). -/
def matchAll (p : Pat) (e : Expr) : List Bind := matchP p e Bind.empty (fun b => [b])

/-- `match` (matcher.py:309-315): the first result; `none` is `MatchError`. -/
def match' (p : Pat) (e : Expr) : Option Bind := (matchAll p e).head?

/-- `is_match` (matcher.py:300-306). -/
def isMatch (p : Pat) (e : Expr) : Bool := !(matchAll p e).isEmpty

/-- `Dot` (matcher.py:394). -/
def dot : Pat := .var none (fun _ => true)

/-- `Var(name)` without restrictions (matcher.py:353-371). -/
def v (n : Name) : Pat := .var (some n) (fun _ => true)

end Verif.Matching
