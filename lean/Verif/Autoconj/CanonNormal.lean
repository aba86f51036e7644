import Verif.Autoconj.CanonProps

/-
C36: `canonicalize` never loops, and what it returns is canonical: the linear primitives have been
turned into einsums and the additions into `AddN`s, no einsum is an operand of an einsum, no `AddN`
is an operand of an `AddN`.
-/

namespace Verif.Autoconj

variable {R : Type} [CommSemiring R]

/-- `s` occurs in `e`. -/
inductive SubA : AExpr → AExpr → Prop
  | refl (e) : SubA e e
  | arg (s a op args) : a ∈ args → SubA s a → SubA s (.app op args)

/-- The top of the expression is in canonical form. -/
structure CanonTop (e : AExpr) : Prop where
  transpose : ∀ perm x, e ≠ .app (.transpose perm) [x]
  squeeze : ∀ dims x, e ≠ .app (.squeeze dims) [x]
  reduceSum : ∀ axes x, e ≠ .app (.reduceSum axes) [x]
  dot : ∀ cx cy bx by' x y, e ≠ .app (.dot cx cy bx by') [x, y]
  add : ∀ x y, e ≠ .app .add [x, y]
  einsum : ∀ f args, e = .app (.einsum f) args → ∀ g cs, .app (.einsum g) cs ∉ args
  addn : ∀ args, e = .app .addn args → ∀ cs, .app .addn cs ∉ args

/-- Every subexpression is in canonical form. -/
def Canonical (e : AExpr) : Prop := ∀ s, SubA s e → CanonTop s

/-- How much a node counts in the measure. -/
def weight : Op → ℕ
  | .transpose _ => 2
  | .squeeze _ => 2
  | .dot _ _ _ _ => 2
  | .reduceSum _ => 2
  | .add => 2
  | .einsum _ => 1
  | .addn => 1
  | .other _ => 0

mutual
/-- The measure that every rule decreases. -/
def mu : AExpr → ℕ
  | .var _ _ => 0
  | .app op args => weight op + mus args
/-- The measure of the operands. -/
def mus : List AExpr → ℕ
  | [] => 0
  | e :: es => mu e + mus es
end

theorem mus_append (a b : List AExpr) : mus (a ++ b) = mus a + mus b := by
  induction a with
  | nil => simp [mus]
  | cons e a ih => simp only [List.cons_append, mus, ih]; omega

/-- The rule changes nothing or decreases the measure. -/
def DecA (r : AExpr → Option AExpr) : Prop := ∀ e e', r e = some e' → e' = e ∨ mu e' < mu e

theorem canonRules_dec (oth : Others R) : ∀ r ∈ canonRules oth, DecA r := by
  intro r hr
  simp only [canonRules, List.mem_cons, List.not_mem_nil, or_false] at hr
  rcases hr with rfl | rfl | rfl | rfl | rfl | rfl | rfl
  · intro e e' h
    unfold transposeRule at h
    split at h
    · rcases hs : shapeOf oth _ with _ | s <;> rw [hs] at h
      · cases h
      · simp only [Option.bind_some] at h
        rcases ho : lettersAt _ _ with _ | out <;> rw [ho] at h
        · cases h
        · injection h with h; subst h; right; simp [mu, mus, weight]
    · injection h with h; exact Or.inl h.symm
  · intro e e' h
    unfold dotRule at h
    split at h
    · rename_i x y
      rcases hs : shapeOf oth x with _ | s <;> rw [hs] at h
      · cases h
      · rcases ht : shapeOf oth y with _ | t <;> rw [ht] at h
        · cases h
        · simp only [Option.bind_some] at h
          rcases h1 : tieDims _ _ _ with _ | yd <;> rw [h1] at h
          · cases h
          · simp only [Option.bind_some] at h
            rcases h2 : lettersAt _ _ with _ | ob <;> rw [h2] at h
            · cases h
            · injection h with h; subst h; right; simp [mu, mus, weight]
    · injection h with h; exact Or.inl h.symm
  · intro e e' h
    unfold squeezeRule at h
    split at h
    · rcases hs : shapeOf oth _ with _ | s <;> rw [hs] at h
      · cases h
      · simp only [Option.bind_some] at h
        rcases ho : lettersAt _ _ with _ | out <;> rw [ho] at h
        · cases h
        · injection h with h; subst h; right; simp [mu, mus, weight]
    · injection h with h; exact Or.inl h.symm
  · intro e e' h
    unfold reduceSumRule at h
    split at h
    · rcases hs : shapeOf oth _ with _ | s <;> rw [hs] at h
      · cases h
      · simp only [Option.bind_some] at h
        rcases ho : lettersAt _ _ with _ | out <;> rw [ho] at h
        · cases h
        · injection h with h; subst h; right; simp [mu, mus, weight]
    · injection h with h; exact Or.inl h.symm
  · intro e e' h
    unfold composeRule at h
    split at h
    · split at h
      · injection h with h; exact Or.inl h.symm
      · rename_i f args _ left cf cargs right hf
        rcases hg : compose f left.length cf with _ | g <;> rw [hg] at h
        · cases h
        · injection h with h; subst h; right
          rw [firstEinsum_spec hf]
          simp only [mu, mus, mus_append, weight]; omega
    · injection h with h; exact Or.inl h.symm
  · intro e e' h
    unfold addRule at h
    split at h
    · injection h with h; subst h; right; simp [mu, mus, weight]
    · injection h with h; exact Or.inl h.symm
  · intro e e' h
    unfold addnRule at h
    split at h
    · split at h
      · injection h with h; exact Or.inl h.symm
      · rename_i args _ left cargs right hf
        injection h with h; subst h; right
        rw [firstAddn_spec hf]
        simp only [mu, mus, mus_append, weight]; omega
    · injection h with h; exact Or.inl h.symm

theorem ruleListA_dec : ∀ rs : List (AExpr → Option AExpr), (∀ r ∈ rs, DecA r) → DecA (ruleListA rs)
  | [], _ => fun e e' h => by simp only [ruleListA, Option.some.injEq] at h; exact Or.inl h.symm
  | r :: rs, hrs => fun e e' h => by
    simp only [ruleListA] at h
    rcases hr : r e with _ | x
    · rw [hr] at h; cases h
    · rw [hr] at h
      simp only [Option.bind_some] at h
      split at h
      · injection h with h; subst h
        exact hrs r (by simp) _ _ hr
      · exact ruleListA_dec rs (fun r h => hrs r (by simp [h])) _ _ h

theorem ruleListA_fixed : ∀ (rs : List (AExpr → Option AExpr)) (e : AExpr), ruleListA rs e = some e →
    ∀ r ∈ rs, r e = some e
  | [], _, _, r, h => by simp at h
  | r :: rs, e, h, r', hr' => by
    simp only [ruleListA] at h
    rcases hr : r e with _ | x
    · rw [hr] at h; cases h
    · rw [hr] at h
      simp only [Option.bind_some] at h
      split at h
      · rename_i hne
        injection h with h; exact absurd h hne
      · rename_i hx
        simp only [ne_eq, not_not] at hx
        subst hx
        rcases List.mem_cons.1 hr' with rfl | hr'
        · exact hr
        · exact ruleListA_fixed rs x h r' hr'

mutual
theorem bottomUpA_dec {r : AExpr → Option AExpr} (hr : DecA r) : ∀ {e e' : AExpr}, bottomUpA r e = some e' →
    e' = e ∨ mu e' < mu e
  | .var n s, e', h => hr _ _ (by simpa only [bottomUpA] using h)
  | .app op args, e', h => by
    simp only [bottomUpA] at h
    rcases ha : bottomUpAs r args with _ | args'
    · rw [ha] at h; cases h
    · rw [ha] at h
      rcases bottomUpAs_dec hr ha with rfl | hlt
      · exact hr _ _ h
      · right
        rcases hr _ _ h with rfl | hlt'
        · simp only [mu]; omega
        · simp only [mu] at hlt' ⊢; omega
theorem bottomUpAs_dec {r : AExpr → Option AExpr} (hr : DecA r) : ∀ {es es' : List AExpr},
    bottomUpAs r es = some es' → es' = es ∨ mus es' < mus es
  | [], es', h => by simp only [bottomUpAs, Option.some.injEq] at h; exact Or.inl h.symm
  | e :: es, es', h => by
    simp only [bottomUpAs] at h
    rcases h1 : bottomUpA r e with _ | e1
    · rw [h1] at h; cases h
    · rw [h1] at h
      rcases h2 : bottomUpAs r es with _ | es1
      · rw [h2] at h; cases h
      · rw [h2] at h
        simp only [Option.bind_some, Option.some.injEq] at h
        subst h
        rcases bottomUpA_dec hr h1 with rfl | hlt
        · rcases bottomUpAs_dec hr h2 with rfl | hlt
          · exact Or.inl rfl
          · right; simp only [mus]; omega
        · right
          rcases bottomUpAs_dec hr h2 with rfl | hlt'
          · simp only [mus]; omega
          · simp only [mus]; omega
end

mutual
/-- A pass that changes nothing: the rule changes no subexpression. -/
theorem bottomUpA_fixed {r : AExpr → Option AExpr} (hr : DecA r) : ∀ {e : AExpr}, bottomUpA r e = some e →
    ∀ s, SubA s e → r s = some s
  | .var n s', h, s, hs => by
    cases hs
    simpa only [bottomUpA] using h
  | .app op args, h, s, hs => by
    simp only [bottomUpA] at h
    rcases ha : bottomUpAs r args with _ | args'
    · rw [ha] at h; cases h
    · rw [ha] at h
      have : args' = args := by
        rcases bottomUpAs_dec hr ha with e | hlt
        · exact e
        · exfalso
          rcases hr _ _ h with e | hlt'
          · have := congrArg mu e
            simp only [mu] at this; omega
          · simp only [mu] at hlt'; omega
      subst this
      cases hs with
      | refl => exact h
      | arg a _ _ hmem hsub => exact bottomUpAs_fixed hr ha a hmem s hsub
theorem bottomUpAs_fixed {r : AExpr → Option AExpr} (hr : DecA r) : ∀ {es : List AExpr},
    bottomUpAs r es = some es → ∀ a ∈ es, ∀ s, SubA s a → r s = some s
  | [], _, a, h, _, _ => by simp at h
  | e :: es, h, a, ha, s, hs => by
    simp only [bottomUpAs] at h
    rcases h1 : bottomUpA r e with _ | e1
    · rw [h1] at h; cases h
    · rw [h1] at h
      rcases h2 : bottomUpAs r es with _ | es1
      · rw [h2] at h; cases h
      · rw [h2] at h
        simp only [Option.bind_some, Option.some.injEq, List.cons.injEq] at h
        rw [h.1] at h1
        rw [h.2] at h2
        rcases List.mem_cons.1 ha with hae | ha
        · rw [hae] at hs
          exact bottomUpA_fixed hr h1 s hs
        · exact bottomUpAs_fixed hr h2 a ha s hs
end

theorem firstEinsum_none : ∀ {args : List AExpr}, firstEinsum args = none → ∀ g cs, .app (.einsum g) cs ∉ args
  | [], _, _, _ => by simp
  | e :: es, h, g, cs => by
    unfold firstEinsum at h
    split at h
    · simp_all
    · cases h
    · rename_i hne heq
      injection heq with h1 h2
      subst h1 h2
      rw [Option.map_eq_none_iff] at h
      rw [List.mem_cons, not_or]
      exact ⟨fun e => hne g cs e.symm, firstEinsum_none h g cs⟩

theorem firstAddn_none : ∀ {args : List AExpr}, firstAddn args = none → ∀ cs, .app .addn cs ∉ args
  | [], _, _ => by simp
  | e :: es, h, cs => by
    unfold firstAddn at h
    split at h
    · simp_all
    · cases h
    · rename_i hne heq
      injection heq with h1 h2
      subst h1 h2
      rw [Option.map_eq_none_iff] at h
      rw [List.mem_cons, not_or]
      exact ⟨fun e => hne cs e.symm, firstAddn_none h cs⟩

theorem canonTop_of_fixed (oth : Others R) {e : AExpr} (h : ∀ r ∈ canonRules oth, r e = some e) : CanonTop e := by
  refine ⟨?_, ?_, ?_, ?_, ?_, ?_, ?_⟩
  · rintro perm x rfl
    have h := h (transposeRule oth) (by simp [canonRules])
    simp only [transposeRule] at h
    rcases hs : shapeOf oth x with _ | s <;> rw [hs] at h
    · cases h
    · simp only [Option.bind_some] at h
      rcases ho : lettersAt _ _ with _ | out <;> rw [ho] at h <;> simp at h
  · rintro perm x rfl
    have h := h (squeezeRule oth) (by simp [canonRules])
    simp only [squeezeRule] at h
    rcases hs : shapeOf oth x with _ | s <;> rw [hs] at h
    · cases h
    · simp only [Option.bind_some] at h
      rcases ho : lettersAt _ _ with _ | out <;> rw [ho] at h <;> simp at h
  · rintro perm x rfl
    have h := h (reduceSumRule oth) (by simp [canonRules])
    simp only [reduceSumRule] at h
    rcases hs : shapeOf oth x with _ | s <;> rw [hs] at h
    · cases h
    · simp only [Option.bind_some] at h
      rcases ho : lettersAt _ _ with _ | out <;> rw [ho] at h <;> simp at h
  · rintro cx cy bx by' x y rfl
    have h := h (dotRule oth) (by simp [canonRules])
    simp only [dotRule] at h
    rcases hs : shapeOf oth x with _ | s <;> rw [hs] at h
    · cases h
    · rcases ht : shapeOf oth y with _ | t <;> rw [ht] at h
      · cases h
      · simp only [Option.bind_some] at h
        rcases h1 : tieDims _ _ _ with _ | yd <;> rw [h1] at h
        · cases h
        · simp only [Option.bind_some] at h
          rcases h2 : lettersAt _ _ with _ | ob <;> rw [h2] at h <;> simp at h
  · rintro x y rfl
    have h := h addRule (by simp [canonRules])
    simp [addRule] at h
  · rintro f args rfl
    have h := h composeRule (by simp [canonRules])
    simp only [composeRule] at h
    split at h
    · rename_i hf
      exact firstEinsum_none hf
    · rename_i left cf cargs right hf
      exfalso
      rcases hg : compose f left.length cf with _ | g <;> rw [hg] at h
      · cases h
      · simp only [Option.bind_some, Option.some.injEq] at h
        have hm := congrArg mu h
        rw [firstEinsum_spec hf] at hm
        simp only [mu, mus, mus_append, weight] at hm
        omega
  · rintro args rfl
    have h := h addnRule (by simp [canonRules])
    simp only [addnRule] at h
    split at h
    · rename_i hf
      exact firstAddn_none hf
    · rename_i left cargs right hf
      exfalso
      simp only [Option.some.injEq] at h
      have hm := congrArg mu h
      rw [firstAddn_spec hf] at hm
      simp only [mu, mus, mus_append, weight] at hm
      omega

/-- C36.  What `canonicalize` returns is canonical, at the top and in every subexpression. -/
theorem canonicalize_canonical (oth : Others R) {e e' : AExpr} (h : canonicalize oth e = some e') :
    Canonical e' := by
  obtain ⟨hf, _⟩ := iteratedA_spec _ _ _ h
  intro s hs
  have := bottomUpA_fixed (ruleListA_dec _ (canonRules_dec oth)) hf s hs
  exact canonTop_of_fixed oth (ruleListA_fixed _ _ this)

/-- One pass of `canonicalize`. -/
def pass (oth : Others R) : AExpr → Option AExpr := bottomUpA (ruleListA (canonRules oth))

/-- C36.  `canonicalize` never loops: on every expression it returns, or a rule raises in some pass. -/
theorem canonicalize_never_loops (oth : Others R) (e : AExpr) :
    (∃ e', canonicalize oth e = some e') ∨ ∃ n e1, applyA (pass oth) n e = some e1 ∧ pass oth e1 = none := by
  suffices ∀ k e, mu e ≤ k → (∃ e', canonicalize oth e = some e') ∨
      ∃ n e1, applyA (pass oth) n e = some e1 ∧ pass oth e1 = none from this (mu e) e le_rfl
  intro k
  induction k with
  | zero =>
    intro e hk
    rcases hp : pass oth e with _ | e1
    · exact Or.inr ⟨0, e, rfl, hp⟩
    · rcases bottomUpA_dec (ruleListA_dec _ (canonRules_dec oth)) hp with rfl | hlt
      · left
        refine ⟨e1, ?_⟩
        unfold canonicalize
        rw [iteratedA]
        show pass oth e1 >>= _ = _
        rw [hp]; simp
      · omega
  | succ k ih =>
    intro e hk
    rcases hp : pass oth e with _ | e1
    · exact Or.inr ⟨0, e, rfl, hp⟩
    · rcases bottomUpA_dec (ruleListA_dec _ (canonRules_dec oth)) hp with rfl | hlt
      · left
        refine ⟨e1, ?_⟩
        unfold canonicalize
        rw [iteratedA]
        show pass oth e1 >>= _ = _
        rw [hp]; simp
      · have hne : e ≠ e1 := fun h => by rw [h] at hlt; omega
        rcases ih e1 (by omega) with ⟨e', he'⟩ | ⟨n, e2, h1, h2⟩
        · left
          refine ⟨e', ?_⟩
          unfold canonicalize at he' ⊢
          rw [iteratedA]
          show pass oth e >>= _ = _
          rw [hp]
          simp only [Option.bind_eq_bind, Option.bind_some, if_neg hne]
          exact he'
        · right
          exact ⟨n + 1, e2, by simp only [applyA, hp, Option.bind_some, h1], h2⟩

end Verif.Autoconj
