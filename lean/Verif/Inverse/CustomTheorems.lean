import Verif.Inverse.CustomProps
import Verif.Inverse.CustomChain
import Verif.Inverse.CustomSingle
import Mathlib.Analysis.SpecialFunctions.Log.Basic
import Mathlib.Analysis.Calculus.Deriv.Comp

/-! C63: what `inverse` and `ildj` of functions with custom inverses return. -/
namespace Verif.Inverse.Custom

open Verif.Propagate

variable {V L : Type}

/-- C63.  `inverse` of a composition of functions with custom unary inverses `(f, f_inv, f_ildj)`: every run, in every
order, returns `f_inv` of the first function applied to ... to `f_inv` of the last one applied to the output, whatever
the functions themselves are.  `ildj` returns the sum of the `f_ildj`s, each at the output of its function. -/
theorem custom_chain_inverse (zero : L) (add : L → L → L) (ds : List ((V → V) × (V → V) × (V → L))) (y : V)
    (out : Outcome V L) :
    InverseRun zero (chain add ds) [y] out ↔
      out = .returns [(ds.foldr (fun d v => d.2.1 v) y,
        (ds.foldr (fun d (c : V × L) => (d.2.1 c.1, add (d.2.2 c.1) c.2)) (y, zero)).2)] := by
  rw [chain_run]
  have : (pull zero add ds y).1 = ds.foldr (fun d v => d.2.1 v) y := by
    induction ds with
    | nil => rfl
    | cons d ds ih => simp only [pull, List.foldr_cons] at ih ⊢; rw [ih]
  rw [← this]
  rfl

/-- C63.  If each `f_inv` undoes its function at the values of an execution from `x`, `inverse` of the composition gives
back `x`. -/
theorem custom_chain_recovers (zero : L) (add : L → L → L) (ds : List ((V → V) × (V → V) × (V → L))) (x : V)
    (hinv : ∀ (pre post : List ((V → V) × (V → V) × (V → L))) (d), ds = pre ++ d :: post →
      d.2.1 (d.1 (pre.foldl (fun v p => p.1 v) x)) = pre.foldl (fun v p => p.1 v) x)
    (out : Outcome V L) (h : InverseRun zero (chain add ds) [ds.foldl (fun v p => p.1 v) x] out) :
    ∃ l, out = .returns [(x, l)] := by
  rw [custom_chain_inverse] at h
  have : ds.foldr (fun d v => d.2.1 v) (ds.foldl (fun v p => p.1 v) x) = x := by
    clear h
    induction ds generalizing x with
    | nil => rfl
    | cons d ds ih =>
      simp only [List.foldr_cons, List.foldl_cons]
      rw [ih (d.1 x)]
      · exact hinv [] ds d rfl
      · intro pre post e he
        exact hinv (d :: pre) post e (by rw [he]; rfl)
  rw [this] at h
  exact ⟨_, h⟩

/-- C63.  With real values: if each `f_ildj` is the log of the absolute derivative of its `f_inv` (where it is used), then
`ildj` of the composition is the log of the absolute derivative of the inverse that is returned. -/
theorem custom_chain_ildj (ds : List ((ℝ → ℝ) × (ℝ → ℝ) × (ℝ → ℝ))) (y : ℝ)
    (hder : ∀ (pre post : List ((ℝ → ℝ) × (ℝ → ℝ) × (ℝ → ℝ))) (d), ds = pre ++ d :: post →
      let z := post.foldr (fun d v => d.2.1 v) y
      ∃ g', HasDerivAt d.2.1 g' z ∧ g' ≠ 0 ∧ d.2.2 z = Real.log |g'|)
    (out : Outcome ℝ ℝ) (h : InverseRun 0 (chain (· + ·) ds) [y] out) :
    ∃ x' l, out = .returns [(ds.foldr (fun d v => d.2.1 v) y, l)] ∧
      HasDerivAt (fun y => ds.foldr (fun d v => d.2.1 v) y) x' y ∧ x' ≠ 0 ∧ l = Real.log |x'| := by
  rw [custom_chain_inverse] at h
  subst h
  have key : ∃ x', HasDerivAt (fun y => ds.foldr (fun d v => d.2.1 v) y) x' y ∧ x' ≠ 0 ∧
      (ds.foldr (fun d (c : ℝ × ℝ) => (d.2.1 c.1, d.2.2 c.1 + c.2)) (y, 0)) =
        (ds.foldr (fun d v => d.2.1 v) y, Real.log |x'|) := by
    induction ds with
    | nil => exact ⟨1, hasDerivAt_id y, one_ne_zero, by simp⟩
    | cons d ds ih =>
      obtain ⟨x', h1, h2, h3⟩ := ih (fun pre post e he => hder (d :: pre) post e (by rw [he]; rfl))
      obtain ⟨g', h4, h5, h6⟩ := hder [] ds d rfl
      refine ⟨g' * x', ?_, mul_ne_zero h5 h2, ?_⟩
      · exact h4.comp y h1
      · simp only [List.foldr_cons]
        rw [h3]
        simp only [Prod.mk.injEq, true_and]
        rw [h6, abs_mul, Real.log_mul (abs_ne_zero.2 h5) (abs_ne_zero.2 h2)]
  obtain ⟨x', h1, h2, h3⟩ := key
  exact ⟨x', Real.log |x'|, by rw [h3], h1, h2, rfl⟩

/-- C63.  If the user's function raises `NonInvertibleError` then `inverse` raises its `ValueError`. -/
theorem custom_noninvertible (zero : L) (d : Def V L) (hn : d.nconsts = 0) (given : List (Option V)) (hu : none ∈ given)
    (ys : List V) (hno : d.back given ys (List.replicate ys.length zero) = none) (out : Outcome V L) :
    InverseRun zero (single d given ys.length) ys out ↔ out = .valueError := by
  rw [custom_single_run zero d hn given hu ys (fun new h => by rw [hno] at h; simp at h)]
  simp only [answer, hno]

/-- Finding (C63).  `def_inverse_and_ildj` is meant to accept `None` for inputs that cannot be recovered
(custom_inverse.py:107-112), but `inverse` then raises the `AttributeError` of `NDSlice.new`, even if every input that was
asked for is in the answer. -/
theorem custom_none_raises (zero : L) (d : Def V L) (hn : d.nconsts = 0) (given : List (Option V)) (hu : none ∈ given)
    (ys : List V) (new : List (Option (V × L))) (hb : d.back given ys (List.replicate ys.length zero) = some new)
    (hl : new.length = given.length) (hnone : none ∈ new) (out : Outcome V L) :
    InverseRun zero (single d given ys.length) ys out ↔ out = .raises := by
  rw [custom_single_run zero d hn given hu ys (fun new' h => by rw [hb] at h; cases h; exact hl)]
  simp only [answer, hb]
  rcases mapM_id_any new with ⟨-, h2⟩ | ⟨-, vs, -, rfl⟩
  · rw [h2]
  · simp at hnone

/-- C63.  If the user's function answers for every input, `inverse` returns its answers for the missing ones. -/
theorem custom_answers (zero : L) (d : Def V L) (hn : d.nconsts = 0) (given : List (Option V)) (hu : none ∈ given)
    (ys : List V) (vs : List (V × L)) (hb : d.back given ys (List.replicate ys.length zero) = some (vs.map some))
    (hl : vs.length = given.length) (out : Outcome V L) :
    InverseRun zero (single d given ys.length) ys out ↔
      out = .returns (((given.zip vs).filter (fun p => p.1.isNone)).map (·.2)) := by
  rw [custom_single_run zero d hn given hu ys (fun new' h => by rw [hb] at h; cases h; simpa using hl)]
  simp only [answer, hb, mapM_id_some]

/-- C63.  With every argument given there is nothing to recover: `inverse` returns no values and the user's function has
no say. -/
theorem custom_nothing_missing (zero : L) (d : Def V L) (given : List V) (ys : List V) (out : Outcome V L)
    (h : InverseRun zero (single d (given.map some) ys.length) ys out) : out = .returns [] := by
  obtain ⟨s0, s, h0, hs, hout⟩ := h
  have : (single d (given.map some) ys.length).invars = [] := by
    simp only [single]
    rw [List.filter_eq_nil_iff]
    intro a ha
    obtain ⟨k, hk⟩ := List.mem_iff_getElem?.1 ha
    rw [List.getElem?_mapIdx, List.getElem?_map] at hk
    rcases hg : given[k]? with _ | v <;> rw [hg] at hk
    · simp at hk
    · simp only [Option.map_some, Option.some.injEq] at hk
      subst hk
      simp [argAt, Atom.node]
  rw [this] at hout
  rcases hout with ⟨-, rfl⟩ | ⟨u, e, hst, hu, -⟩
  · rfl
  · exfalso
    have hflag : ∀ (env : Env (Cell V L)) (o : List (Cell V L)),
        (rule zero d (((given.map some).mapIdx argAt).map (Propagate.read (ops zero) env)) o).2.2 = false := by
      intro env o
      have hall : ∀ c ∈ (((given.map some).mapIdx argAt).map (Propagate.read (ops zero) env)).drop d.nconsts,
          c.isNone = false := by
        intro c hc
        obtain ⟨a, ha, rfl⟩ := List.mem_map.1 (List.mem_of_mem_drop hc)
        obtain ⟨k, hk⟩ := List.mem_iff_getElem?.1 ha
        rw [List.getElem?_mapIdx, List.getElem?_map] at hk
        rcases hg : given[k]? with _ | v <;> rw [hg] at hk
        · simp at hk
        · simp only [Option.map_some, Option.some.injEq] at hk
          subst hk
          rfl
      have hany : ((((given.map some).mapIdx argAt).map (Propagate.read (ops zero) env)).drop d.nconsts).any (·.isNone) = false := by
        rw [List.any_eq_false]
        intro c hc
        rw [hall c hc]; simp
      simp only [rule, hany, Bool.and_false, Bool.false_eq_true, if_false]
      split <;> rfl
    have hst' : ∀ e, s.states e ≠ some true := by
      clear hu hst this
      induction hs with
      | refl => intro e; rw [h0.2.2]; simp
      | tail _ _ _ _ hcl _ => exact hcl
    cases hst with
    | mk e' rest q q' hq he hp =>
      have hqq : q = ⟨(given.map some).mapIdx argAt, (List.range ys.length).map (fun j => Atom.var ((given.map some).length + j)),
          rule zero d⟩ := by
        cases e' with
        | zero => exact (Option.some.inj he).symm
        | succ e' => simp [Prog.jaxpr, single] at he
      simp only at hu
      split at hu
      · rw [hqq] at hu
        simp only [exec, hflag] at hu
        simp at hu
      · exact hst' e hu

/-! ### Instances -/

/-- The `add` of the documentation (custom_inverse.py:200-214). -/
def addDef : Def ℤ ℤ where
  nconsts := 0
  f vs := [vs.sum]
  back invals outvals outildjs :=
    match invals, outvals, outildjs with
    | [none, some y], [z], [l] => some [some (z - y, l), some (y, 0)]
    | [some x, none], [z], [l] => some [some (x, 0), some (z - x, l)]
    | _, _, _ => none

/-- `inverse(partial(add, 1.))(2.)` is `1.`; `inverse(add)(2.)` fails. -/
example (out : Outcome ℤ ℤ) : InverseRun 0 (single addDef [some 1, none] 1) [2] out ↔ out = .returns [(1, 0)] :=
  custom_single_run 0 addDef rfl [some 1, none] (by simp) [2] (by intro new h; cases h; rfl) out

example (out : Outcome ℤ ℤ) : InverseRun 0 (single addDef [none, none] 1) [2] out ↔ out = .valueError :=
  custom_noninvertible 0 addDef rfl [none, none] (by simp) [2] rfl out

/-- An instance of `custom_none_raises`: the rule of the test suite (custom_inverse_test.py:91-100), which returns `None`s
when neither argument is known. -/
example (out : Outcome ℤ ℤ) :
    InverseRun 0 (single (⟨0, fun vs => [vs.sum], fun _ _ _ => some [none, none]⟩ : Def ℤ ℤ) [none, none] 1) [2] out ↔
      out = .raises :=
  custom_none_raises 0 _ rfl [none, none] (by simp) [2] [none, none] rfl rfl (by simp) out

/-- An instance of `custom_answers`. -/
example (out : Outcome ℤ ℤ) : InverseRun 0 (single addDef [none, some 5] 1) [12] out ↔ out = .returns [(7, 0)] :=
  custom_answers 0 addDef rfl [none, some 5] (by simp) [12] [(7, 0), (5, 0)] rfl rfl out

/-- An instance of `custom_nothing_missing`. -/
example (out : Outcome ℤ ℤ) (h : InverseRun 0 (single addDef ([3, 4].map some) 1) [8] out) : out = .returns [] :=
  custom_nothing_missing 0 addDef [3, 4] [8] out h

/-- The custom inverse of `add` is right about every execution. -/
theorem addDef_right (x y : ℤ) : addDef.RightAt [x, y] [x + y] := by
  intro told ls new ht hb
  cases ht with | cons h1 h2 =>
  cases h2 with | cons h3 h4 =>
  cases h4
  rename_i a b
  obtain _ | ⟨l, _ | ⟨l', ls⟩⟩ := ls
  · rcases a with _ | a <;> rcases b with _ | b <;> simp [addDef] at hb
  · rcases h1 with rfl | rfl <;> rcases h3 with rfl | rfl <;> simp [addDef] at hb
    · subst hb
      exact .cons (by intro v l h; simp at h; exact h.1.symm) (.cons (by intro v l h; simp at h; exact h.1.symm) .nil)
    · subst hb
      exact .cons (by intro v l h; simp at h; exact h.1.symm) (.cons (by intro v l h; simp at h; exact h.1.symm) .nil)
  · rcases a with _ | a <;> rcases b with _ | b <;> simp [addDef] at hb

/-- An instance of `custom_recovers_inputs`: `x ↦ add (add x 3) 4` at 10. -/
example (out : Outcome ℤ ℤ)
    (h : InverseRun 0 (⟨[.var 0], [.var 2], [(.custom addDef, [.var 0, .lit 3], [.var 1]),
      (.custom addDef, [.var 1, .lit 4], [.var 2])]⟩ : Prog ℤ ℤ) [17] out) :
    out = .raises ∨ out = .valueError ∨ ∃ r, out = .returns r ∧ r.map (·.1) = [10] := by
  refine custom_recovers_inputs 0 _ (fun i => if i = 0 then 10 else if i = 1 then 13 else 17) ?_ ?_ out h
  · intro q hq
    simp at hq
    rcases hq with rfl | rfl <;> simp [Op.eval, addDef, aval]
  · intro q hq
    simp at hq
    rcases hq with rfl | rfl
    · simpa [Op.RightAt, aval, addDef] using addDef_right 10 3
    · simpa [Op.RightAt, aval, addDef] using addDef_right 13 4

/-- The silly inverse of the documentation (custom_inverse.py:159-164, 173-178): `inverse(add_one)(2.)` is `4.` and
`ildj(add_one)(2.)` is `1.`. -/
example (out : Outcome ℤ ℤ) :
    InverseRun 0 (chain (· + ·) [((· + 1), (· * 2), fun _ => 1)]) [2] out ↔ out = .returns [(4, 1)] := by
  rw [custom_chain_inverse]; rfl

end Verif.Inverse.Custom
