import Verif.Inverse.Props

/-! C26 for arbitrary programs: if the execution that produced the outputs stays on the branches of the
registered inverses, every run of `inverse` that returns gives back exactly the inputs of that execution. -/
namespace Verif.Inverse

open Verif.Propagate

/-- The value of an atom in an execution: literals have their own value. -/
def aval (val : Nat → ℝ) : Atom F → F
  | .lit v => v
  | .var x => some (val x)
  | .drop x => some (val x)

/-- `val` is an execution of the program: every equation computes its outputs from its inputs. -/
def Prog.Executes (P : Prog) (val : Nat → ℝ) : Prop :=
  ∀ q ∈ P.eqns, q.1.eval (q.2.1.map (aval val)) = q.2.2.map (aval val)

/-- The operands of a binary primitive are determined by each other and the output. -/
def Bin.ok : Bin → ℝ → ℝ → Prop
  | .add, _, _ => True
  | .sub, _, _ => True
  | .mul, l, r => l ≠ 0 ∧ r ≠ 0
  | .div, l, _ => l ≠ 0
  | .pow, l, r => l ≠ 1 ∧ r ≠ 0

/-- The operands lie on the branch that the registered inverse chooses. -/
def Op.ok : Op → List F → Prop
  | .un p, [some x] => p.ok x
  | .bin p, [some x, some y] => p.ok x y
  | .other _, _ => True
  | _, _ => False

theorem Bin.left_inverse (p : Bin) (l r z : ℝ) (hok : p.ok l r) (h : p.f l r = some z) : p.gl l z = some r := by
  cases p with
  | add => simp only [Bin.f, Option.some.injEq] at h; subst h; simp [Bin.gl]
  | sub => simp only [Bin.f, Option.some.injEq] at h; subst h; simp [Bin.gl]
  | mul =>
    simp only [Bin.f, Option.some.injEq] at h; subst h
    simp only [Bin.gl, if_neg hok.1, Option.some.injEq]
    exact mul_div_cancel_left₀ r hok.1
  | div =>
    simp only [Bin.f] at h
    split at h
    · simp at h
    · rename_i hr
      simp only [Option.some.injEq] at h; subst h
      have h1 : l ≠ 0 := hok
      simp only [Bin.gl, if_neg (div_ne_zero h1 hr), Option.some.injEq]
      field_simp
  | pow =>
    simp only [Bin.f] at h
    split at h
    · rename_i hl
      simp only [Option.some.injEq] at h; subst h
      have h1 : Real.log l ≠ 0 := Real.log_ne_zero_of_pos_of_ne_one hl hok.1
      simp only [Bin.gl, npLog, if_pos hl, if_pos (Real.rpow_pos_of_pos hl r), Option.bind_eq_bind,
        Option.bind_some, if_neg h1, Option.some.injEq]
      rw [Real.log_rpow hl]
      field_simp
    · simp at h

theorem Bin.right_inverse (p : Bin) (l r z : ℝ) (hok : p.ok l r) (h : p.f l r = some z) : p.gr r z = some l := by
  cases p with
  | add => simp only [Bin.f, Option.some.injEq] at h; subst h; simp [Bin.gr]
  | sub => simp only [Bin.f, Option.some.injEq] at h; subst h; simp [Bin.gr]
  | mul =>
    simp only [Bin.f, Option.some.injEq] at h; subst h
    simp only [Bin.gr, if_neg hok.2, Option.some.injEq]
    exact mul_div_cancel_right₀ l hok.2
  | div =>
    simp only [Bin.f] at h
    split at h
    · simp at h
    · rename_i hr
      simp only [Option.some.injEq] at h; subst h
      simp only [Bin.gr, Option.some.injEq]
      field_simp
  | pow =>
    simp only [Bin.f] at h
    split at h
    · rename_i hl
      simp only [Option.some.injEq] at h; subst h
      simp only [Bin.gr, if_neg hok.2, npPow, if_pos (Real.rpow_pos_of_pos hl r), Option.some.injEq]
      rw [← Real.rpow_mul hl.le, mul_inv_cancel₀ hok.2, Real.rpow_one]
    · simp at h

/-- A cell tells the truth about a value: unknown, or complete with that value. -/
def Tells (v : F) (c : ICell) : Prop := ∀ w l, c = some (w, l) → w = v

theorem tells_none (v : F) : Tells v none := by intro w l h; simp at h

theorem tells_some (v l : F) : Tells v (some (v, l)) := by
  intro w l' h; simp only [Option.some.injEq, Prod.mk.injEq] at h; exact h.1.symm

theorem forall2_some (xs : List F) (i : List ICell) (h : List.Forall₂ Tells xs i) (cs : List (F × F))
    (hc : i.mapM id = some cs) : cs.map (·.1) = xs := by
  induction h generalizing cs with
  | nil => simp at hc; subst hc; rfl
  | @cons x c xs i h1 h2 ih =>
    simp only [List.mapM_cons, id_eq, Option.bind_eq_bind, Option.bind_eq_some_iff, Option.pure_def, Option.some.injEq] at hc
    obtain ⟨⟨v, l⟩, rfl, ds, hds, rfl⟩ := hc
    simp only [List.map_cons]
    rw [h1 _ _ rfl, ih ds hds]

/-- On a branch of the inverse the rule of an operation turns true cells into true cells. -/
theorem Op.rule_tells (op : Op) (xs zs : List F) (hok : op.ok xs) (he : op.eval xs = zs) (hz : none ∉ zs)
    (i o : List ICell) (hi : List.Forall₂ Tells xs i) (ho : List.Forall₂ Tells zs o) :
    List.Forall₂ Tells xs (op.rule i o).1 ∧ List.Forall₂ Tells zs (op.rule i o).2.1 := by
  cases op with
  | un p =>
    obtain _ | ⟨_ | x, _ | ⟨x', xs⟩⟩ := xs
    · exact absurd hok id
    · exact absurd hok id
    · exact absurd hok id
    · simp only [Op.eval] at he
      subst he
      cases hi with | cons h1 h2 =>
      cases h2
      cases ho with | cons h3 h4 =>
      cases h4
      rename_i c d
      obtain _ | ⟨v, l⟩ := c <;> obtain _ | ⟨w, m⟩ := d
      · exact ⟨.cons h1 .nil, .cons h3 .nil⟩
      · obtain rfl := h3 _ _ rfl
        refine ⟨.cons ?_ .nil, .cons h3 .nil⟩
        rcases hz' : p.f x with _ | z
        · simp [hz'] at hz
        · have := p.left_inverse x z hok hz'
          simp only [Option.bind_some, hz']
          rw [this]
          exact tells_some _ _
      · obtain rfl := h1 _ _ rfl
        exact ⟨.cons h1 .nil, .cons (tells_some _ _) .nil⟩
      · exact ⟨.cons h1 .nil, .cons h3 .nil⟩
    · exact absurd hok id
  | bin p =>
    have hxy : ∃ x y, xs = [some x, some y] := by
      obtain _ | ⟨_ | x, _ | ⟨_ | y, _ | ⟨x', xs⟩⟩⟩ := xs
      all_goals first | exact absurd hok id | exact ⟨x, y, rfl⟩
    obtain ⟨x, y, rfl⟩ := hxy
    · simp only [Op.eval] at he
      subst he
      cases hi with | cons h1 h2 =>
      cases h2 with | cons h1' h2 =>
      cases h2
      cases ho with | cons h3 h4 =>
      cases h4
      rename_i c c' d
      rcases hz' : p.f x y with _ | z
      · simp [bind2, hz'] at hz
      have hb : bind2 p.f (some x) (some y) = some z := hz'
      have hl := p.left_inverse x y z hok hz'
      have hr := p.right_inverse x y z hok hz'
      rw [hb] at h3 ⊢
      obtain _ | ⟨v, l⟩ := c <;> obtain _ | ⟨v', l'⟩ := c' <;> obtain _ | ⟨w, m⟩ := d
      · exact ⟨.cons h1 (.cons h1' .nil), .cons h3 .nil⟩
      · exact ⟨.cons h1 (.cons h1' .nil), .cons h3 .nil⟩
      · exact ⟨.cons h1 (.cons h1' .nil), .cons h3 .nil⟩
      · obtain rfl := h3 _ _ rfl
        obtain rfl := h1' _ _ rfl
        refine ⟨.cons ?_ (.cons h1' .nil), .cons h3 .nil⟩
        have : bind2 p.gr (some y) (some z) = some x := hr
        rw [this]; exact tells_some _ _
      · exact ⟨.cons h1 (.cons h1' .nil), .cons h3 .nil⟩
      · obtain rfl := h3 _ _ rfl
        obtain rfl := h1 _ _ rfl
        refine ⟨.cons h1 (.cons ?_ .nil), .cons h3 .nil⟩
        have : bind2 p.gl (some x) (some z) = some y := hl
        rw [this]; exact tells_some _ _
      · obtain rfl := h1 _ _ rfl
        obtain rfl := h1' _ _ rfl
        refine ⟨.cons h1 (.cons h1' .nil), .cons ?_ .nil⟩
        rw [hb]; exact tells_some _ _
      · obtain rfl := h3 _ _ rfl
        obtain rfl := h1 _ _ rfl
        refine ⟨.cons h1 (.cons ?_ .nil), .cons h3 .nil⟩
        have : bind2 p.gl (some x) (some z) = some y := hl
        rw [this]; exact tells_some _ _
  | other h =>
    simp only [Op.rule, defRule]
    split
    · split
      · rename_i vs hvs
        refine ⟨hi, ?_⟩
        rw [forall2_some xs i hi vs hvs]
        simp only [Op.eval] at he
        rw [he]
        clear * -
        induction zs with
        | nil => exact .nil
        | cons z zs ih => exact .cons (tells_some _ _) ih
      · exact ⟨hi, ho⟩
    · split <;> exact ⟨hi, ho⟩

/-- Every cell of every state of a run tells the value of the execution. -/
theorem inverse_true (P : Prog) (val : Nat → ℝ) (hex : P.Executes val)
    (hok : ∀ q ∈ P.eqns, q.1.ok (q.2.1.map (aval val)))
    (hvar : ∀ q ∈ P.eqns, ∀ a ∈ q.2.2, ∀ v, a ≠ .lit v) (s0 s : St ICell Bool)
    (h0 : Init iOps P.jaxpr [] (P.invars.map (fun _ => none)) ((P.outvars.map (aval val)).map (fun y => some (y, some 0))) s0)
    (hs : Steps iOps P.jaxpr s0 s) : ∀ x, Tells (some (val x)) (s.env x) := by
  refine propagate_sound iOps P.jaxpr (fun x => Tells (some (val x))) Tells ?_ [] _ _ ?_ ?_ ?_ s0 s h0 hs
  · refine ⟨?_, fun x => tells_none _, fun v => tells_some _ _, ?_⟩
    · intro x a b ha hb
      simp only [iOps]
      split
      · exact hb
      · exact ha
    · intro q' hq' i o hi ho
      simp only [Prog.jaxpr, List.mem_map] at hq'
      obtain ⟨q, hq, rfl⟩ := hq'
      have conv : ∀ (R : Atom F → ICell → Prop), (∀ a c, R a c → Tells (aval val a) c) →
          ∀ (as : List (Atom F)) (cs : List ICell), List.Forall₂ R as cs →
          List.Forall₂ Tells (as.map (aval val)) cs := by
        intro R hR as cs hh
        induction hh with
        | nil => exact .nil
        | @cons a c as cs h1 h2 ih =>
          exact .cons (hR _ _ h1) ih
      have hnone : none ∉ q.2.2.map (aval val) := by
        intro hc
        obtain ⟨a, ha, hav⟩ := List.mem_map.1 hc
        cases a with
        | lit v => exact hvar q hq _ ha v rfl
        | var x => simp [aval] at hav
        | drop x => simp [aval] at hav
      obtain ⟨r1, r2⟩ := q.1.rule_tells _ _ (hok q hq) (hex q hq) hnone i o
        (conv _ (by intro a c hac; cases a <;> exact hac) _ _ hi) (conv _ (by intro a c hac; cases a <;> exact hac) _ _ ho)
      have fin : ∀ (as : List (Atom F)) (cs : List ICell), List.Forall₂ Tells (as.map (aval val)) cs →
          ∀ (k x : Nat) (c : ICell), as[k]? = some (Atom.var x) → cs[k]? = some c → Tells (some (val x)) c := by
        intro as
        induction as with
        | nil => intro cs _ k x c h1; simp at h1
        | cons a as ih =>
          intro cs hh k x c h1 h2
          cases hh with | cons h3 h4 =>
          cases k with
          | zero => simp at h1 h2; subst h1 h2; exact h3
          | succ k => exact ih _ h4 k x c (by simpa using h1) (by simpa using h2)
      exact ⟨fin _ _ r1, fin _ _ r2⟩
  · intro k x c h1; simp [Prog.jaxpr] at h1
  · intro k x c h1 h2
    rw [List.getElem?_map] at h2
    rcases hk : P.invars[k]? with _ | a <;> rw [hk] at h2 <;> simp at h2
    subst h2; exact tells_none _
  · intro k x c h1 h2
    rw [List.map_map, List.getElem?_map] at h2
    have : P.outvars[k]? = some (Atom.var x) := h1
    rw [this] at h2
    simp [aval] at h2
    subst h2; exact tells_some _ _

/-- C26.  Any program over the registered primitives (and primitives without inverse), with any sharing of
variables: if `val` is an execution of it with every operation on the branch its registered inverse chooses,
then every run of `inverse` on the outputs of that execution, in any order of propagation, either fails or
returns exactly the inputs. -/
theorem inverse_recovers_inputs (P : Prog) (val : Nat → ℝ) (hex : P.Executes val)
    (hok : ∀ q ∈ P.eqns, q.1.ok (q.2.1.map (aval val)))
    (hvar : ∀ q ∈ P.eqns, ∀ a ∈ q.2.2, ∀ v, a ≠ .lit v)
    (res : Option (List (F × F))) (h : InverseRun P (P.outvars.map (aval val)) res) :
    res = none ∨ ∃ r, res = some r ∧ r.map (·.1) = P.invars.map (aval val) := by
  obtain ⟨s0, s, h0, hs, -, rfl⟩ := h
  rcases hm : (P.invars.map (Propagate.read iOps s.env)).mapM id with _ | r
  · exact .inl rfl
  refine .inr ⟨r, rfl, ?_⟩
  have hread : ∀ (env : Env ICell), (∀ x, Tells (some (val x)) (env x)) → ∀ as : List (Atom F),
      List.Forall₂ Tells (as.map (aval val)) (as.map (Propagate.read iOps env)) := by
    intro env henv as
    induction as with
    | nil => exact .nil
    | cons a as ih =>
      refine .cons ?_ ih
      cases a with
      | lit v => exact tells_some _ _
      | var x => exact henv x
      | drop x => exact henv x
  have htrue := inverse_true P val hex hok hvar s0 s h0 hs
  exact forall2_some _ _ (hread s.env htrue P.invars) r hm

/-- An instance: `f x = exp x * (-x)` shares its input; at `x = 1` all operations are on their branches. -/
example : ∃ val : Nat → ℝ, val 0 = 1 ∧
    (⟨[.var 0], [.var 3], [(.un .exp, [.var 0], [.var 1]), (.un .neg, [.var 0], [.var 2]),
      (.bin .mul, [.var 1, .var 2], [.var 3])]⟩ : Prog).Executes val ∧
    Bin.mul.ok (val 1) (val 2) := by
  refine ⟨fun i => if i = 0 then 1 else if i = 1 then Real.exp 1 else if i = 2 then -1 else -Real.exp 1, by simp, ?_, ?_⟩
  · intro q hq
    simp at hq
    rcases hq with rfl | rfl | rfl <;> simp [Op.eval, aval, Un.f, Bin.f, bind2]
  · simp [Bin.ok, Real.exp_ne_zero]

end Verif.Inverse
