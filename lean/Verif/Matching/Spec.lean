import Verif.Matching.Model

/-
What it means for a substitution to make a pattern equal to an expression, written without
reference to the order in which the matcher works.
-/

namespace Verif.Matching

/-- `b ≤ σ`: every binding of `b` is in `σ`. -/
def Bind.le (b σ : Bind) : Prop := ∀ n e, b n = some e → σ n = some e

/-- The bindings of the single elements of a `Star` with accumulated names `acc`: they agree with `σ`
on the other names, and `σ` collects the values of each accumulated name in order (nothing is said
about `σ` when there are no elements). -/
def Collects (acc : List Name) (σ : Bind) (σs : List Bind) : Prop :=
  (∀ τ ∈ σs, ∀ n, n ∉ acc → τ n = σ n) ∧
  (σs ≠ [] → ∀ n ∈ acc, ∃ vs : List Expr, σ n = some (.seq vs) ∧ σs.map (fun τ => τ n) = vs.map some)

mutual
/-- `Subst σ p e`: replacing the names in `p` by their values in `σ` makes `p` equal to `e`, with all
restrictions satisfied. -/
def Subst : Bind → Pat → Expr → Prop
  | _, .atom a, e => e = .atom a
  | σ, .var name ok, e => ok e = true ∧ ∀ n, name = some n → σ n = some e
  | σ, .not p, e => ¬ Subst σ p e
  | σ, .choice name ps, e => (∀ n, name = some n → σ n = some e) ∧ SubstAny σ ps e
  | σ, .seq es, e => ∃ l, e = .seq l ∧ SubstEs σ es l
  | σ, .dict keys es, e => ∃ l, e = .dict keys l ∧ SubstEs σ es l
/-- One of the alternatives becomes equal to `e`. -/
def SubstAny : Bind → Pats → Expr → Prop
  | _, .nil, _ => False
  | σ, .cons p ps, e => Subst σ p e ∨ SubstAny σ ps e
/-- The sequence pattern becomes equal to the tuple. -/
def SubstEs : Bind → Elems → List Expr → Prop
  | _, .nil, l => l = []
  | σ, .one p es, l => ∃ x xs, l = x :: xs ∧ Subst σ p x ∧ SubstEs σ es xs
  | σ, .star p name acc _ plus es, l =>
    ∃ seg rest, l = seg ++ rest ∧ (plus = true → seg ≠ []) ∧
      (∀ n, name = some n → σ n = some (.seq seg)) ∧
      (∃ σs : List Bind, σs.length = seg.length ∧ Collects acc σ σs ∧
        ∀ q ∈ σs.zip seg, Subst q.1 p q.2) ∧
      SubstEs σ es rest
end

end Verif.Matching
