/-
C31: string patterns, and tuple patterns against lists and strings (oryx/experimental/matching/matcher.py:605-689).
-/
namespace Verif.Matching.Strings

/-! ### Model -/

variable {B R : Type}

/-- `str_matcher(pattern)(expr, bindings, succeed)` for a string `expr` (matcher.py:666-689), with the cases of
`sequence_matcher` (629-660) for strings: a pattern that is a string contains no `Star`, its slices are strings, and
its first element is the string of its first character.  A string is the list of its characters; a generator is the
list of what it yields. -/
def strMatch : List Char → List Char → B → (B → List R) → List R
  | pattern, [c], b, succeed => if pattern = [c] then succeed b else []
  | pattern, [], b, succeed => if pattern = [] then succeed b else []
  | [], _ :: _ :: _, _, _ => []
  | p :: ps, c :: d :: cs, b, succeed =>
    if ([p] : List Char) = [c] then strMatch ps (d :: cs) b succeed else []

/-- What `isinstance(expr, Sequence)` accepts (matcher.py:629). -/
inductive Kind
  | tuple
  | list
  | str
  deriving DecidableEq

/-- A Python sequence (the `expr` of matcher.py:608): its type and its elements (those of a string are strings). -/
structure PySeq (V : Type) where
  kind : Kind
  items : List V
  deriving DecidableEq

/-- A tuple pattern `(Var(n1), .., Var(nk))` with different names without restrictions against a sequence
(matcher.py:608-660, 369-386): the bindings that `match_all` yields.  Neither the first test of the sequence matcher nor
slicing looks at the type. -/
def varsMatch {V : Type} (names : List String) (expr : PySeq V) : List (List (String × V)) :=
  match names, expr.items with
  | [], [] => [[]]
  | [], _ :: _ => []
  | _ :: _, [] => []
  | n :: ns, v :: vs => (varsMatch ns ⟨expr.kind, vs⟩).map (fun b => (n, v) :: b)

/-! ### Specification -/

/-- The pattern with the values of its variables in their places: a tuple. -/
def subst {V : Type} (names : List String) (b : List (String × V)) : Option (PySeq V) :=
  (names.mapM (fun n => b.lookup n)).map (fun vs => ⟨.tuple, vs⟩)

/-! ### Theorems -/

/-- C31.  A string pattern matches a string exactly when they are equal, binds nothing and succeeds at most once. -/
theorem string_pattern_spec (pattern expr : List Char) (b : B) (succeed : B → List R) :
    strMatch pattern expr b succeed = if pattern = expr then succeed b else [] := by
  induction expr generalizing pattern with
  | nil => simp [strMatch]
  | cons c cs ih =>
    cases cs with
    | nil => simp [strMatch]
    | cons d cs =>
      cases pattern with
      | nil => simp [strMatch]
      | cons p ps =>
        simp only [strMatch, ih]
        by_cases h : p = c
        · subst h; simp
        · simp [h]

/-- C31.  A tuple of variables matches every sequence of the same length, whatever its type. -/
theorem vars_match_iff {V : Type} (names : List String) (expr : PySeq V) :
    varsMatch names expr = if names.length = expr.items.length then [names.zip expr.items] else [] := by
  obtain ⟨k, items⟩ := expr
  induction names generalizing items with
  | nil => cases items <;> simp [varsMatch]
  | cons n ns ih =>
    cases items with
    | nil => simp [varsMatch]
    | cons v vs =>
      simp only [varsMatch, ih]
      by_cases h : ns.length = vs.length <;> simp [h]

/-- C31 (partial).  For tuples the pattern with the bindings in place is the expression. -/
theorem vars_match_sound_partial {V : Type} (names : List String) (hd : names.Nodup) (expr : PySeq V)
    (hk : expr.kind = .tuple) (b : List (String × V)) (h : b ∈ varsMatch names expr) : subst names b = some expr := by
  rw [vars_match_iff] at h
  obtain ⟨k, items⟩ := expr
  simp only at hk
  subst hk
  split at h
  · rename_i hl
    simp only [List.mem_singleton] at h
    subst h
    simp only [subst, Option.map_eq_some_iff, PySeq.mk.injEq, true_and, exists_eq_right]
    simp only at hl
    induction names generalizing items with
    | nil => cases items <;> simp_all
    | cons n ns ih =>
      cases items with
      | nil => simp at hl
      | cons v vs =>
        rw [List.nodup_cons] at hd
        have hi := ih hd.2 vs (by simpa using hl)
        have hc : ∀ l : List String, n ∉ l → l.mapM (fun m => ((n :: ns).zip (v :: vs)).lookup m) =
            l.mapM (fun m => (ns.zip vs).lookup m) := by
          intro l hn
          induction l with
          | nil => rfl
          | cons m l ihl =>
            have hm : (m == n) = false := by
              simp only [beq_eq_false_iff_ne, ne_eq]
              intro e
              exact hn (by simp [e])
            rw [List.mapM_cons, List.mapM_cons, ihl (fun hx => hn (by simp [hx])),
              show ((n :: ns).zip (v :: vs)).lookup m = (ns.zip vs).lookup m by
                simp only [List.zip_cons_cons, List.lookup_cons, hm]]
        rw [List.mapM_cons, hc ns hd.1, hi]
        simp
  · simp at h

/-- C31 (negation).  A tuple of variables matches a list or a string of the same length, but the pattern with the bindings
in place is a tuple: `match((Var('x'), Var('y')), 'ab')` is `{x: 'a', y: 'b'}`. -/
theorem vars_match_other_kind {V : Type} (names : List String) (expr : PySeq V) (hk : expr.kind ≠ .tuple)
    (hl : names.length = expr.items.length) :
    varsMatch names expr = [names.zip expr.items] ∧ ∀ b, subst names b ≠ some expr := by
  refine ⟨by rw [vars_match_iff, if_pos hl], fun b h => ?_⟩
  simp only [subst, Option.map_eq_some_iff] at h
  obtain ⟨vs, _, h⟩ := h
  exact hk (by rw [← h])

/-! ### Witnesses -/

example : strMatch "ab".toList "ab".toList () (fun _ => [()]) = [()] ∧
    strMatch "ab".toList "abc".toList () (fun _ => [()]) = [] ∧
    strMatch "abc".toList "ab".toList () (fun _ => [()]) = [] := by decide

example : varsMatch ["x", "y"] ⟨.str, ["a", "b"]⟩ = [[("x", "a"), ("y", "b")]] ∧
    subst ["x", "y"] [("x", "a"), ("y", "b")] = some ⟨.tuple, ["a", "b"]⟩ := by decide

end Verif.Matching.Strings
