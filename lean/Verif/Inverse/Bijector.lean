import Verif.Inverse.CustomTheorems

/-
C64.  Model of oryx/core/interpreters/inverse/bijector_extensions.py: applying a TFP bijector binds the primitive
`bijector_p` with an inverse rule of its own.
-/
namespace Verif.Inverse.Bijector

open Verif.Propagate Verif.Inverse.Custom

variable {V L : Type}

/-- A bijector: `forward`, `inverse`, `inverse_log_det_jacobian`, `forward_log_det_jacobian` (the latter two already
applied to `event_ndims = ndim`, bijector_extensions.py:62), and the number of its parameters (`num_bijector`). -/
structure Bij (V L : Type) where
  forward : V → V
  inverse : V → V
  ildj : V → L
  fldj : V → L
  nparams : Nat

/-- A call `b.forward(x)` (`true`) or `b.inverse(x)` (`false`) (bijector_extensions.py:74-103). -/
structure Call (V L : Type) where
  bij : Bij V L
  fwd : Bool

/-- `forward_func`, `inv_func` and `ildj_func` by the direction (bijector_extensions.py:47-56). -/
def Call.forwardFunc (c : Call V L) : V → V := if c.fwd then c.bij.forward else c.bij.inverse
/-- Models bijector_extensions.py:47-56. -/
def Call.invFunc (c : Call V L) : V → V := if c.fwd then c.bij.inverse else c.bij.forward
/-- Models bijector_extensions.py:47-56. -/
def Call.ildjFunc (c : Call V L) : V → L := if c.fwd then c.bij.ildj else c.bij.fldj

/-- `bijector_ildj_rule` (bijector_extensions.py:36-69) without closed-over constants: the cells of the parameters
followed by the cell of the argument.  The flag is `true` if the rule, or the writing of its result, raises:
* `new_outcells` is not assigned when both cells are known or both are unknown (an `UnboundLocalError`, line 71);
* in the forward branch the cells of the parameters are returned twice (lines 39, 67, 70), so that with parameters there
  are more cells than variables (an `AssertionError` of `safe_map`).
The bijector rebuilt from its parameters is `c.bij`. -/
def rule (zero : L) (add : L → L → L) (c : Call V L) (i o : List (Cell V L)) : List (Cell V L) × List (Cell V L) × Bool :=
  let params := i.take c.bij.nparams
  if params.any (·.isNone) then (i, o, false)
  else match (i.drop c.bij.nparams).getLast?, o with
    | some none, [some (v, l)] => (params ++ [some (c.invFunc v, add l (c.ildjFunc v))], o, false)
    | some (some (v, _)), [none] => (i, [some (c.forwardFunc v, zero)], c.bij.nparams ≠ 0)
    | _, _ => (i, o, true)

/-- The composition of calls, in the order of application; the parameters are known (closed over or literals, here the
literals `ps`) (calls of patched methods, bijector_extensions.py:96-103). -/
def compose (zero : L) (add : L → L → L) (cs : List (Call V L × List V)) : Jaxpr (Cell V L) V Bool :=
  ⟨[], [.var 0], [.var cs.length], cs.mapIdx (fun i c =>
    ⟨c.2.map Atom.lit ++ [Atom.var i], [Atom.var (i + 1)], rule zero add c.1⟩)⟩

/-- Iterations none of which raises (no `UnboundLocalError` at bijector_extensions.py:69). -/
inductive Clean (zero : L) (J : Jaxpr (Cell V L) V Bool) : St (Cell V L) Bool → St (Cell V L) Bool → Prop
  | refl (s) : Clean zero J s s
  | tail (s t u) (h : Clean zero J s t) (hs : Step (ops zero) J t u) (hu : ∀ e, u.states e ≠ some true) : Clean zero J s u

/-- `inverse_and_ildj` of a composition (core.py:156-188): a complete run none of whose iterations raises, with the value
and ILDJ of the input (`none`: the `ValueError`). -/
def Returns (zero : L) (J : Jaxpr (Cell V L) V Bool) (y : V) (res : Option (V × L)) : Prop :=
  ∃ s0 s, Init (ops zero) J [] [none] [some (y, zero)] s0 ∧ Clean zero J s0 s ∧ s.queue = [] ∧ res = s.env 0

/-- `inverse_and_ildj` can raise in one of the iterations (the `UnboundLocalError` of bijector_extensions.py:69). -/
def Raises (zero : L) (J : Jaxpr (Cell V L) V Bool) (y : V) : Prop :=
  ∃ s0 t u e, Init (ops zero) J [] [none] [some (y, zero)] s0 ∧ Clean zero J s0 t ∧ Step (ops zero) J t u ∧
    u.states e = some true

end Verif.Inverse.Bijector
