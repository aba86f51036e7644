import Verif.Jit.Model

/-! # C74: what happens to the annotations of jitted functions -/
namespace Verif.Jit

variable {S L : Type}

/-! ### Specification -/

/-- What `pjit_p.bind` requires: one annotation of each kind per operand and per result. -/
structure Binds (p : Params S L) (nin nout : Nat) : Prop where
  inSh : p.inSh.length = nin
  donated : p.donated.length = nin
  inLay : p.inLay.length = nin
  outSh : p.outSh.length = nout
  outLay : p.outLay.length = nout

/-- The operands of the function, which are those from `off` on in the new call, keep their annotations. -/
def KeepsOperands (p p' : Params S L) (off nin : Nat) : Prop :=
  ∀ i < nin, p'.inSh[off + i]? = p.inSh[i]? ∧ p'.donated[off + i]? = p.donated[i]? ∧ p'.inLay[off + i]? = p.inLay[i]?

/-- The results of the function, which are the first ones of the new call, keep their annotations. -/
def KeepsResults (p p' : Params S L) (nout : Nat) : Prop :=
  ∀ i < nout, p'.outSh[i]? = p.outSh[i]? ∧ p'.outLay[i]? = p.outLay[i]?

/-- The author of the function annotated nothing (a plain `jax.jit`). -/
def Plain (p : Params S L) : Prop :=
  (∀ a ∈ p.inSh, a = none) ∧ (∀ a ∈ p.outSh, a = none) ∧ (∀ a ∈ p.inLay, a = none) ∧ ∀ a ∈ p.outLay, a = none

/-- The values added to the operands (constants, leaves of the state) are neither annotated nor donated. -/
def AddsPlain (p' : Params S L) (off : Nat) : Prop :=
  ∀ i < off, p'.inSh[i]? = some none ∧ p'.donated[i]? = some false ∧ p'.inLay[i]? = some none

/-! ### Lists -/

theorem at_replicate {α : Type} (n : Nat) (a : α) (l : List α) (i : Nat) (h : i < n) : (List.replicate n a ++ l)[i]? = some a := by
  rw [List.getElem?_append_left (by simpa using h), List.getElem?_replicate_of_lt h]

theorem at_append {α : Type} (n : Nat) (a : α) (l : List α) (i : Nat) : (List.replicate n a ++ l)[n + i]? = l[i]? := by
  rw [List.getElem?_append_right (by simp)]; simp

/-- A list is a prefix of itself with `a` put `n` times in front iff it consists of `a` only, or `n = 0`. -/
theorem shifted_iff {α : Type} (n : Nat) (a : α) (l : List α) :
    (∀ i < l.length, (List.replicate n a ++ l)[i]? = l[i]?) ↔ n = 0 ∨ ∀ x ∈ l, x = a := by
  constructor
  · intro h
    rcases n with _ | n
    · exact .inl rfl
    · right
      have key : ∀ i : Nat, ∀ x, l[i]? = some x → x = a := by
        intro i
        induction i using Nat.strongRecOn with
        | _ i ih =>
          intro x hx
          have hi := (List.getElem?_eq_some_iff.1 hx).1
          have h1 := h i hi
          by_cases hin : i < n + 1
          · rw [at_replicate (n + 1) a l i hin, hx] at h1
            exact (Option.some.inj h1).symm
          · obtain ⟨j, rfl⟩ : ∃ j, i = n + 1 + j := ⟨i - (n + 1), by omega⟩
            rw [at_append, hx] at h1
            exact ih j (by omega) x h1
      intro x hx
      obtain ⟨i, hi⟩ := List.getElem?_of_mem hx
      exact key i x hi
  · rintro (rfl | h) i hi
    · simp
    · rw [List.getElem?_eq_getElem hi, h _ (List.getElem_mem hi)]
      have hl : i < (List.replicate n a ++ l).length := by simp; omega
      rw [List.getElem?_eq_getElem hl]
      have := List.getElem_mem hl
      rcases List.mem_append.1 this with h' | h'
      · rw [(List.mem_replicate.1 h').2]
      · rw [h _ h']

theorem all_none_iff {α : Type} (l : List (Option α)) (n : Nat) (hn : l.length ≤ n) :
    (∀ i < l.length, (List.replicate n (none : Option α))[i]? = l[i]?) ↔ ∀ x ∈ l, x = none := by
  constructor
  · intro h x hx
    obtain ⟨i, hi⟩ := List.getElem?_of_mem hx
    have hl := (List.getElem?_eq_some_iff.1 hi).1
    have h1 := h i hl
    rw [List.getElem?_replicate_of_lt (by omega), hi] at h1
    exact (Option.some.inj h1).symm
  · intro h i hi
    rw [List.getElem?_replicate_of_lt (by omega), List.getElem?_eq_getElem hi, h _ (List.getElem_mem hi)]

theorem any_none_plain {α : Type} {l : List (Option α)} (h : ∀ a ∈ l, a = none) (hl : l ≠ []) : l.any (·.isNone) = true := by
  obtain ⟨a, r, rfl⟩ := List.exists_cons_of_ne_nil hl
  simp [h a List.mem_cons_self]

/-! ### Reaping and planting -/

/-- **C74**, `reap` and `plant`: when they do not raise, the new call gets one annotation per operand and result, and the
operands keep theirs. -/
theorem C74_harvest_operands (p p' : Params S L) (nin nout nconsts nout' : Nat) (h : Binds p nin nout)
    (hr : harvestRule nconsts nout' p = some p') :
    Binds p' (nconsts + nin) nout' ∧ KeepsOperands p p' nconsts nin ∧ AddsPlain p' nconsts := by
  unfold harvestRule at hr
  split at hr
  · cases hr
  · cases hr
    obtain ⟨h1, h2, h3, h4, h5⟩ := h
    refine ⟨⟨by simp [h1], by simp [h2], by simp [h3], by simp, by simp⟩, ?_, ?_⟩
    · intro i _
      exact ⟨at_append _ _ _ _, at_append _ _ _ _, at_append _ _ _ _⟩
    · intro i hi
      exact ⟨at_replicate _ _ _ _ hi, at_replicate _ _ _ _ hi, at_replicate _ _ _ _ hi⟩

/-- **C74**, `reap` and `plant`: they raise exactly when all operands, or all results, are given shardings. -/
theorem C74_harvest_raises_iff (p : Params S L) (nconsts nout' : Nat) : harvestRule nconsts nout' p = none ↔
    (p.inSh ≠ [] ∧ ∀ a ∈ p.inSh, a ≠ none) ∨ (p.outSh ≠ [] ∧ ∀ a ∈ p.outSh, a ≠ none) := by
  have key : ∀ {α : Type} (l : List (Option α)), (!l.isEmpty && !l.any (·.isNone)) = true ↔ l ≠ [] ∧ ∀ a ∈ l, a ≠ none := by
    intro α l
    simp only [Bool.and_eq_true, Bool.not_eq_true', List.isEmpty_eq_false_iff, List.any_eq_false, Option.isNone_iff_eq_none]
  unfold harvestRule checkHarvest
  split
  · rename_i h
    rw [Bool.or_eq_true, key, key] at h
    simpa using h
  · rename_i h
    rw [Bool.or_eq_true, key, key] at h
    simpa using h

/-- **C74**, `reap` and `plant`: the results keep their annotations exactly when they have none.  So shardings given to
some of the results only are dropped without an error. -/
theorem C74_harvest_results_iff (p p' : Params S L) (nin nout nconsts nout' : Nat) (h : Binds p nin nout) (hn : nout ≤ nout')
    (hr : harvestRule nconsts nout' p = some p') :
    KeepsResults p p' nout ↔ (∀ a ∈ p.outSh, a = none) ∧ ∀ a ∈ p.outLay, a = none := by
  unfold harvestRule at hr
  split at hr
  · cases hr
  · cases hr
    obtain ⟨-, -, -, h4, h5⟩ := h
    rw [← all_none_iff p.outSh nout' (by omega), ← all_none_iff p.outLay nout' (by omega), h4, h5]
    exact ⟨fun h => ⟨fun i hi => (h i hi).1, fun i hi => (h i hi).2⟩, fun h i hi => ⟨h.1 i hi, h.2 i hi⟩⟩

/-- **C74**: a plain `jit` is transformed by `reap` and `plant`, with nothing lost. -/
theorem C74_harvest_plain (p : Params S L) (nin nout nconsts nout' : Nat) (h : Binds p nin nout) (hp : Plain p)
    (hn : nout ≤ nout') :
    ∃ p', harvestRule nconsts nout' p = some p' ∧ KeepsOperands p p' nconsts nin ∧ KeepsResults p p' nout := by
  rcases hr : harvestRule nconsts nout' p with _ | p'
  · exfalso
    rcases (C74_harvest_raises_iff p nconsts nout').1 hr with ⟨h1, h2⟩ | ⟨h1, h2⟩
    · obtain ⟨a, r, he⟩ := List.exists_cons_of_ne_nil h1
      exact h2 a (by rw [he]; simp) (hp.1 a (by rw [he]; simp))
    · obtain ⟨a, r, he⟩ := List.exists_cons_of_ne_nil h1
      exact h2 a (by rw [he]; simp) (hp.2.1 a (by rw [he]; simp))
  · exact ⟨p', rfl, (C74_harvest_operands p p' nin nout nconsts nout' h hr).2.1,
      (C74_harvest_results_iff p p' nin nout nconsts nout' h hn hr).2 ⟨hp.2.1, hp.2.2.2⟩⟩

/-- **C74 fails**: with a sharding for one of two results, `reap` drops it without an error. -/
theorem C74_harvest_partial_dropped (s : S) : ∃ p' : Params S L,
    harvestRule 0 2 ⟨[none], [none, some s], [false], [none], [none, none]⟩ = some p' ∧ p'.outSh = [none, none] :=
  ⟨_, rfl, rfl⟩

/-! ### Propagation -/

/-- **C74**, `inverse`, `ildj`, `log_prob`: when the rule does not raise, the new call gets one annotation per operand and
result, and none of them is annotated or donated. -/
theorem C74_propagate_binds (p p' : Params S L) (nin nout : Nat) (hr : propagateRule nin nout p = some p') :
    Binds p' nin nout ∧ Plain p' ∧ ∀ d ∈ p'.donated, d = false := by
  unfold propagateRule at hr
  split at hr
  · cases hr
  · cases hr
    refine ⟨⟨by simp, by simp, by simp, by simp, by simp⟩, ⟨?_, ?_, ?_, ?_⟩, ?_⟩ <;> intro a ha <;>
      exact (List.mem_replicate.1 ha).2

/-- **C74**, propagation: it raises exactly when all operands, or all results, are given shardings; a function without
operands or without results counts as such. -/
theorem C74_propagate_raises_iff (p : Params S L) (nin nout : Nat) : propagateRule nin nout p = none ↔
    (∀ a ∈ p.inSh, a ≠ none) ∨ (∀ a ∈ p.outSh, a ≠ none) := by
  have key : ∀ {α : Type} (l : List (Option α)), (!l.any (·.isNone)) = true ↔ ∀ a ∈ l, a ≠ none := by
    intro α l
    simp only [Bool.not_eq_true', List.any_eq_false, Option.isNone_iff_eq_none]
  unfold propagateRule checkPropagate
  split
  · rename_i h
    rw [Bool.or_eq_true, key, key] at h
    simpa using h
  · rename_i h
    rw [Bool.or_eq_true, key, key] at h
    simpa using h

/-- **C74**: a plain `jit` with operands and results is transformed by propagation. -/
theorem C74_propagate_plain (p : Params S L) (nin nout m n : Nat) (h : Binds p nin nout) (hp : Plain p) (hi : 0 < nin)
    (ho : 0 < nout) : ∃ p', propagateRule m n p = some p' := by
  rcases hr : propagateRule m n p with _ | p'
  · exfalso
    rcases (C74_propagate_raises_iff p m n).1 hr with h2 | h2
    · obtain ⟨a, r, he⟩ := List.exists_cons_of_ne_nil (l := p.inSh) (by intro h'; have := h.inSh; simp [h'] at this; omega)
      exact h2 a (by rw [he]; simp) (hp.1 a (by rw [he]; simp))
    · obtain ⟨a, r, he⟩ := List.exists_cons_of_ne_nil (l := p.outSh) (by intro h'; have := h.outSh; simp [h'] at this; omega)
      exact h2 a (by rw [he]; simp) (hp.2.1 a (by rw [he]; simp))
  · exact ⟨p', rfl⟩

/-- **C74 fails**: propagation rejects a plain `jit` of a function without operands, with a message about shardings. -/
theorem C74_propagate_no_operands (nout m n : Nat) :
    Plain (⟨[], List.replicate nout none, [], [], List.replicate nout none⟩ : Params S L) ∧
    propagateRule m n (⟨[], List.replicate nout none, [], [], List.replicate nout none⟩ : Params S L) = none := by
  refine ⟨⟨by simp, ?_, by simp, ?_⟩, (C74_propagate_raises_iff _ _ _).2 (.inl (by simp))⟩ <;> intro a ha <;>
    exact (List.mem_replicate.1 ha).2

/-! ### Effect handlers -/

/-- **C74**, effect handlers: the operands keep their annotations. -/
theorem C74_effect_operands (p : Params S L) (nin nstate : Nat) :
    KeepsOperands p (effectRule nstate p) nstate nin ∧ AddsPlain (effectRule nstate p) nstate :=
  ⟨fun _ _ => ⟨at_append _ _ _ _, at_append _ _ _ _, at_append _ _ _ _⟩,
    fun _ hi => ⟨at_replicate _ _ _ _ hi, at_replicate _ _ _ _ hi, at_replicate _ _ _ _ hi⟩⟩

/-- **C74**, effect handlers: the new call gets one annotation per operand and result exactly when the handlers do not
change the number of leaves of the state. -/
theorem C74_effect_binds_iff (p : Params S L) (nin nout nstate nstate' : Nat) (h : Binds p nin nout) :
    Binds (effectRule nstate p) (nstate + nin) (nout + nstate') ↔ nstate' = nstate := by
  obtain ⟨h1, h2, h3, h4, h5⟩ := h
  constructor
  · intro h
    have := h.outSh
    simp [effectRule, h4] at this
    omega
  · rintro rfl
    exact ⟨by simp [effectRule, h1], by simp [effectRule, h2], by simp [effectRule, h3], by simp [effectRule, h4]; omega,
      by simp [effectRule, h5]; omega⟩

/-- **C74**, effect handlers: the results keep their annotations exactly when the state has no leaves or no result is
annotated: the annotations are put where the results followed by the state are taken for the state followed by the
results. -/
theorem C74_effect_results_iff (p : Params S L) (nin nout nstate : Nat) (h : Binds p nin nout) :
    KeepsResults p (effectRule nstate p) nout ↔ nstate = 0 ∨ (∀ a ∈ p.outSh, a = none) ∧ ∀ a ∈ p.outLay, a = none := by
  obtain ⟨-, -, -, h4, h5⟩ := h
  have e1 := shifted_iff nstate none p.outSh
  have e2 := shifted_iff nstate none p.outLay
  rw [h4] at e1
  rw [h5] at e2
  have : KeepsResults p (effectRule nstate p) nout ↔ (nstate = 0 ∨ ∀ a ∈ p.outSh, a = none) ∧
      (nstate = 0 ∨ ∀ a ∈ p.outLay, a = none) := by
    rw [← e1, ← e2]
    exact ⟨fun h => ⟨fun i hi => (h i hi).1, fun i hi => (h i hi).2⟩, fun h i hi => ⟨h.1 i hi, h.2 i hi⟩⟩
  rw [this]
  constructor
  · rintro ⟨h | h, h' | h'⟩
    · exact .inl h
    · exact .inl h
    · exact .inl h'
    · exact .inr ⟨h, h'⟩
  · rintro (h | ⟨h, h'⟩)
    · exact ⟨.inl h, .inl h⟩
    · exact ⟨.inr h, .inr h'⟩

/-- **C74 fails**: the sharding of the only result is given to the state, and the result has none. -/
theorem C74_effect_misplaced (s : S) :
    (effectRule 1 (⟨[], [some s], [], [], [none]⟩ : Params S L)).outSh = [none, some s] := rfl

/-! ### Rewriting -/

/-- **C74**, `jax_rewrite`: all annotations are kept. -/
theorem C74_rewrite (p : Params S L) (nin nout : Nat) (h : Binds p nin nout) :
    Binds (rewriteRule p) nin nout ∧ KeepsOperands p (rewriteRule p) 0 nin ∧ KeepsResults p (rewriteRule p) nout :=
  ⟨h, fun _ _ => by simp [rewriteRule], fun _ _ => ⟨rfl, rfl⟩⟩

/-- The hypotheses of these theorems are met: a function of two operands, the second one donated, with one result. -/
example : Binds (⟨[none, none], [none], [false, true], [none, none], [none]⟩ : Params Nat Nat) 2 1 ∧
    Plain (⟨[none, none], [none], [false, true], [none, none], [none]⟩ : Params Nat Nat) ∧
    (∃ p', harvestRule 1 3 (⟨[none, none], [none], [false, true], [none, none], [none]⟩ : Params Nat Nat) = some p' ∧
      p'.donated = [false, false, true]) :=
  ⟨⟨rfl, rfl, rfl, rfl, rfl⟩, by simp [Plain], _, rfl, rfl⟩

end Verif.Jit
