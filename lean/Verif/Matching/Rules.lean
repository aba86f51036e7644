import Verif.Matching.Model

/-
The rewrite rules and rule combinators of oryx/experimental/matching/rules.py.
-/

namespace Verif.Matching

/-- A rule (rules.py:274, `Rule = Callable[[Expr], Expr]`).  `none`: the call does not return (it raises
or loops for ever). -/
abbrev Rule := Expr → Option Expr

/-- Apply a rule to each element, from left to right (`tuple(map(fn, expr))`, rules.py:306;
`{k: fn(v) for k, v in expr.items()}`, rules.py:316). -/
def mapRule (f : Rule) : List Expr → Option (List Expr)
  | [] => some []
  | e :: es => (f e).bind fun e' => (mapRule f es).bind fun es' => some (e' :: es')

/-- `tree_map` (rules.py:277-341) for numbers and strings (lines 289-294), tuples (304-306) and
dictionaries (314-316).  User-defined `Expression` classes are not modelled. -/
def treeMap (f : Rule) : Rule
  | .atom a => some (.atom a)
  | .seq l => (mapRule f l).bind fun l' => some (.seq l')
  | .dict ks l => (mapRule f l).bind fun l' => some (.dict ks l')

/-- `tree_children` (rules.py:283-346). -/
def treeChildren : Expr → List Expr
  | .atom _ => []
  | .seq l => l
  | .dict _ l => l

mutual
/-- Whether Python can hash an expression: no dictionary occurs in it.
(needed by `functools.lru_cache`, rules.py:349-370). -/
def hashable : Expr → Bool
  | .atom _ => true
  | .seq l => hashableAll l
  | .dict _ _ => false
/-- All elements are hashable (needed by `functools.lru_cache`, rules.py:349-370). -/
def hashableAll : List Expr → Bool
  | [] => true
  | e :: es => hashable e && hashableAll es
end

/-- `make_rule` (rules.py:349-370): the handler on the first match, or the expression unchanged.  The rule
is wrapped in `functools.lru_cache` (line 363), so it raises a `TypeError` on expressions that cannot
be hashed.  Simplification: the cache itself is left out (handlers are pure), and a handler does
not itself raise `MatchError`. -/
def makeRule (p : Pat) (handler : Bind → Option Expr) : Rule := fun e =>
  if hashable e then
    match match' p e with
    | some b => handler b
    | none => some e
  else none

/-- `rule_list` (rules.py:376-387): the result of the first rule that changes the expression. -/
def ruleList : List Rule → Rule
  | [], e => some e
  | r :: rs, e => (r e).bind fun e' => if e' ≠ e then some e' else ruleList rs e

/-- `in_order` (rules.py:390-398). -/
def inOrder : List Rule → Rule
  | [], e => some e
  | r :: rs, e => (r e).bind fun e' => inOrder rs e'

/-- `iterated` (rules.py:401-411): apply the rule until the expression does not change. -/
def iterated (r : Rule) (e : Expr) : Option Expr :=
  r e >>= fun e' => if e = e' then some e' else iterated r e'
partial_fixpoint

/-- `rewrite_subexpressions` (rules.py:414-420). -/
def rewriteSub (r : Rule) : Rule := treeMap r

mutual
/-- `bottom_up` (rules.py:423-429): children first, then the rule. -/
def bottomUp (r : Rule) : Expr → Option Expr
  | .atom a => r (.atom a)
  | .seq l => (bottomUpList r l).bind fun l' => r (.seq l')
  | .dict ks l => (bottomUpList r l).bind fun l' => r (.dict ks l')
/-- `bottom_up` on the children (rules.py:427). -/
def bottomUpList (r : Rule) : List Expr → Option (List Expr)
  | [] => some []
  | e :: es => (bottomUp r e).bind fun e' => (bottomUpList r es).bind fun es' => some (e' :: es')
end

mutual
/-- `top_down` (rules.py:432-438): the rule first, then the children of the result. -/
def topDown (r : Rule) (e : Expr) : Option Expr :=
  r e >>= fun e' =>
    match e' with
    | .atom a => some (.atom a)
    | .seq l => topDownList r l >>= fun l' => some (.seq l')
    | .dict ks l => topDownList r l >>= fun l' => some (.dict ks l')
partial_fixpoint
/-- `top_down` on the children (rules.py:436). -/
def topDownList (r : Rule) (l : List Expr) : Option (List Expr) :=
  match l with
  | [] => some []
  | e :: es => topDown r e >>= fun e' => topDownList r es >>= fun es' => some (e' :: es')
partial_fixpoint
end

/-- `term_rewriter` (rules.py:441-443). -/
def termRewriter (rs : List Rule) : Rule := iterated (bottomUp (ruleList rs))

theorem bottomUpList_eq (r : Rule) : ∀ l, bottomUpList r l = mapRule (bottomUp r) l
  | [] => by simp [bottomUpList, mapRule]
  | e :: es => by simp only [bottomUpList, mapRule, bottomUpList_eq r es]

/-- `bottom_up` is the recursive equation of rules.py:426-427. -/
theorem bottomUp_eq (r : Rule) (e : Expr) : bottomUp r e = (rewriteSub (bottomUp r) e).bind r := by
  rcases e with a | l | ⟨ks, l⟩
  · simp [bottomUp, rewriteSub, treeMap]
  · simp only [bottomUp, rewriteSub, treeMap, bottomUpList_eq]
    rcases mapRule (bottomUp r) l with _ | l' <;> simp
  · simp only [bottomUp, rewriteSub, treeMap, bottomUpList_eq]
    rcases mapRule (bottomUp r) l with _ | l' <;> simp

theorem topDownList_eq (r : Rule) : ∀ l, topDownList r l = mapRule (topDown r) l
  | [] => by rw [topDownList]; rfl
  | e :: es => by rw [topDownList]; simp only [mapRule, topDownList_eq r es]; rfl

/-- `top_down` is the recursive equation of rules.py:435-436. -/
theorem topDown_eq (r : Rule) (e : Expr) : topDown r e = (r e).bind (rewriteSub (topDown r)) := by
  rw [topDown]
  rcases r e with _ | e'
  · rfl
  · rcases e' with a | l | ⟨ks, l⟩ <;> simp [rewriteSub, treeMap, topDownList_eq] <;> rfl

end Verif.Matching
