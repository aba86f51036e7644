/-
Specification of where an outer module keeps the state of an inner module (C68).
-/
import Verif.Harvest.Model

namespace Verif.State

open Verif.Harvest

/-- What the outer module holds for an inner module with variables `vars`: the variables themselves when the
inner module has no name, and otherwise the inner module under its name. -/
def inherit {V : Type} (name : Option String) (vars : Dict V) : Dict V :=
  match name with
  | none => vars
  | some n => fun k => if k = n then some (.dict vars) else none

end Verif.State
