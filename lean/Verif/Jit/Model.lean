/-
Model of what the transformations do with the annotations of a jitted function (the parameters `in_shardings`,
`out_shardings`, `donated_invars`, `in_layouts` and `out_layouts` of `pjit_p`).

The jaxprs themselves are modelled elsewhere (`Verif.Harvest`, `Verif.Propagate`, `Verif.Effect`, `Verif.Matching`);
here only the numbers of operands and results matter.
-/
namespace Verif.Jit

/-- The annotations of a `pjit` equation; `none` is `UNSPECIFIED` (for layouts: `None`)
(harvest.py:1106-1110, 1150-1159; effect_handler.py:278-297). -/
structure Params (S L : Type) where
  inSh : List (Option S)
  outSh : List (Option S)
  donated : List Bool
  inLay : List (Option L)
  outLay : List (Option L)

variable {S L : Type}

/-- The check of harvest.py:1115-1128 and 1530-1543; `true` is the `ValueError`. -/
def checkHarvest (p : Params S L) : Bool :=
  (!p.inSh.isEmpty && !p.inSh.any (·.isNone)) || (!p.outSh.isEmpty && !p.outSh.any (·.isNone))

/-- The new annotations in `_reap_pjit_rule` (harvest.py:1113-1161) and `_plant_pjit_rule` (harvest.py:1528-1577), with
`_calc_extra_inps` (harvest.py:1105-1110): `nconsts` constants are put before the operands, and the new function has
`nout` results; `none` is the `ValueError`. -/
def harvestRule (nconsts nout : Nat) (p : Params S L) : Option (Params S L) :=
  if checkHarvest p then none
  else some ⟨List.replicate nconsts none ++ p.inSh, List.replicate nout none,
    List.replicate nconsts false ++ p.donated, List.replicate nconsts none ++ p.inLay, List.replicate nout none⟩

/-- The check of `_pjit_propagate_rule` (propagate.py:374-379). -/
def checkPropagate (p : Params S L) : Bool := !p.inSh.any (·.isNone) || !p.outSh.any (·.isNone)

/-- The new annotations in `_pjit_propagate_rule` (propagate.py:371-404): the operands are the `nin` leaves of all cells,
the results the `nout` leaves of the new cells and the state. -/
def propagateRule (nin nout : Nat) (p : Params S L) : Option (Params S L) :=
  if checkPropagate p then none
  else some ⟨List.replicate nin none, List.replicate nout none, List.replicate nin false, List.replicate nin none,
    List.replicate nout none⟩

/-- The new annotations in `_pjit_effect_handler_rule` (effect_handler.py:262-299): the operands are the `nstate` leaves
of the state followed by the operands; the results are those of the function followed by the leaves of the new state
(effect_handler.py:212). -/
def effectRule (nstate : Nat) (p : Params S L) : Params S L :=
  ⟨List.replicate nstate none ++ p.inSh, List.replicate nstate none ++ p.outSh, List.replicate nstate false ++ p.donated,
    List.replicate nstate none ++ p.inLay, List.replicate nstate none ++ p.outLay⟩

/-- The new annotations in `PjitPrimitive.evaluate` (jax_rewrite.py:720-737): only the jaxpr changes. -/
def rewriteRule (p : Params S L) : Params S L := p

end Verif.Jit
