import Verif.Propagate.Model
import Mathlib.Order.Lattice
import Mathlib.Order.Bounds.Defs
import Mathlib.Data.List.Forall2

/-!
Specification vocabulary for C24/C25: what it means for the cells to form a lattice, for a rule to be monotone
and idempotent, and for an environment to be closed under a rule.
-/
namespace Verif.Propagate

variable {C L S : Type}

/-- Rules return as many cells as they are given (`safe_map` raises otherwise). -/
def Sized (J : Jaxpr C L S) : Prop :=
  ∀ q ∈ J.eqns, ∀ i o, i.length = q.ins.length → o.length = q.outs.length →
    (q.rule i o).1.length = q.ins.length ∧ (q.rule i o).2.1.length = q.outs.length

/-- The docstring's requirement on cells (propagate.py:62-71): `<` is the order of a lattice and `join` its
least upper bound. -/
structure Lawful [SemilatticeSup C] (O : CellOps C L) : Prop where
  join_eq : ∀ a b, O.join a b = a ⊔ b
  lt_iff : ∀ a b, O.lt a b = true ↔ a < b

/-- `x` is a variable of equation `q`. -/
def VarOf (q : Eqn C L S) (x : Nat) : Prop := some x ∈ (q.ins ++ q.outs).map Atom.node

/-- More information in, no less information out. -/
def Monotone' [SemilatticeSup C] (q : Eqn C L S) : Prop :=
  ∀ i i' o o', i.length = q.ins.length → o.length = q.outs.length → List.Forall₂ (· ≤ ·) i i' → List.Forall₂ (· ≤ ·) o o' →
    List.Forall₂ (· ≤ ·) (q.rule i o).1 (q.rule i' o').1 ∧
    List.Forall₂ (· ≤ ·) (q.rule i o).2.1 (q.rule i' o').2.1

/-- The rule of `q` adds nothing to `env`: whatever it returns for a variable is already known. -/
def Closed [SemilatticeSup C] (O : CellOps C L) (env : Env C) (q : Eqn C L S) : Prop :=
  (∀ (i : Nat) (x : Nat) (c : C), q.ins[i]? = some (Atom.var x) →
    (q.rule (q.ins.map (read O env)) (q.outs.map (read O env))).1[i]? = some c → c ≤ env x) ∧
  (∀ (i : Nat) (x : Nat) (c : C), q.outs[i]? = some (Atom.var x) →
    (q.rule (q.ins.map (read O env)) (q.outs.map (read O env))).2.1[i]? = some c → c ≤ env x)

/-- Applying the rule of `q` twice in a row is the same as applying it once. -/
def Idem [SemilatticeSup C] (O : CellOps C L) (q : Eqn C L S) : Prop :=
  ∀ env, Closed O (exec O env q).1 q

/-- The environments that contain the initial information and are closed under the rules of the equations
that were in the initial queue or that touch a variable with more information than initially. -/
def Solutions [SemilatticeSup C] (O : CellOps C L) (J : Jaxpr C L S) (env0 : Env C) (queue0 : List Nat) :
    Set (Env C) :=
  {v | (∀ x, env0 x ≤ v x) ∧ ∀ (e : Nat) (q : Eqn C L S), J.eqns[e]? = some q →
    (e ∈ queue0 ∨ ∃ x, VarOf q x ∧ v x ≠ env0 x) → Closed O v q}

/-- The queue mentions only equations, each once. -/
def ValidQueue (J : Jaxpr C L S) (q : List Nat) : Prop := q.Nodup ∧ ∀ e ∈ q, e < J.eqns.length

end Verif.Propagate
