import Verif.Matching.Agree

/-
C31 (matching is sound, and fails only when there is no match) and C32 (`match_all` enumerates
the matches).
-/

namespace Verif.Matching

/-- The patterns covered: `WF` (from no bound names) and no `Choice` inside a `Star`. -/
def Regular (p : Pat) : Prop := WF (fun _ => False) p ∧ StarNC p

theorem mem_matchAll_poss {p : Pat} (h : StarNC p) {e : Expr} {b : Bind} (hb : b ∈ matchAll p e) :
    Poss p e Bind.empty b := by
  obtain ⟨b', h1, h2⟩ := ((prog_P p).1 h).1 _ _ _ _ hb
  rw [List.mem_singleton] at h2
  exact h2 ▸ h1

theorem agree_empty {p : Pat} (h : Regular p) (e : Expr) (σ : Bind) :
    (∃ b', Poss p e Bind.empty b' ∧ b'.le σ) ↔ Subst σ p e :=
  agree_P p _ h.1 e Bind.empty σ (fun _ h => h.elim) (fun _ _ => rfl) (fun n e h => by cases h)

/-- **C32, soundness.** Every result of `match_all` is a match, and so is each extension of it. -/
theorem match_all_sound_partial {p : Pat} (h : Regular p) {e : Expr} {b : Bind} (hb : b ∈ matchAll p e) :
    (∀ σ, b.le σ → Subst σ p e) ∧ Subst b p e ∧ ∀ n, b n ≠ none → names p n := by
  have hp := mem_matchAll_poss h.2 hb
  have hall : ∀ σ, b.le σ → Subst σ p e := fun σ hσ => (agree_empty h e σ).mp ⟨b, hp, hσ⟩
  refine ⟨hall, hall b b.le_refl, fun n hn => ?_⟩
  rcases (Poss.ext p e _ b _ h.1 (fun _ _ => rfl) hp).2 n hn with h' | h'
  · exact absurd rfl h'
  · exact h'

/-- **C31, soundness.** If `match` returns bindings, substituting them in the pattern gives the
expression, and all restrictions hold. -/
theorem match_sound_partial {p : Pat} (h : Regular p) {e : Expr} {b : Bind} (hb : match' p e = some b) :
    Subst b p e ∧ ∀ n, b n ≠ none → names p n :=
  (match_all_sound_partial h (List.mem_of_head? hb)).2

/-- **C31, completeness.** `match` raises `MatchError` exactly when no substitution makes the pattern
equal to the expression. -/
theorem match_error_iff_partial {p : Pat} (h : Regular p) (e : Expr) :
    match' p e = none ↔ ¬ ∃ σ, Subst σ p e := by
  unfold match'
  rw [List.head?_eq_none_iff]
  constructor
  · rintro h0 ⟨σ, hσ⟩
    obtain ⟨b', hp, _⟩ := (agree_empty h e σ).mpr hσ
    obtain ⟨r, hr⟩ := ((prog_P p).1 h.2).2 e Bind.empty (fun b => [b]) b' b' hp (by simp)
    have : r ∈ matchAll p e := hr
    rw [h0] at this
    exact List.not_mem_nil this
  · intro hno
    rcases hl : matchAll p e with _ | ⟨r, rs⟩
    · rfl
    · exact absurd ⟨r, (match_all_sound_partial h (b := r) (by rw [hl]; simp)).2.1⟩ hno

/-- `is_match` decides whether there is a match. -/
theorem is_match_iff_partial {p : Pat} (h : Regular p) (e : Expr) :
    isMatch p e = true ↔ ∃ σ, Subst σ p e := by
  have := match_error_iff_partial h e
  unfold match' at this
  rw [List.head?_eq_none_iff] at this
  unfold isMatch
  rcases hl : matchAll p e with _ | ⟨r, rs⟩
  · simp only [List.isEmpty_nil, Bool.not_true, Bool.false_eq_true, false_iff]
    exact this.mp hl
  · simp only [List.isEmpty_cons, Bool.not_false, true_iff]
    exact ⟨r, (match_all_sound_partial h (b := r) (by rw [hl]; simp)).2.1⟩

/-- **C32.** Without `Choice`, the results of `match_all` are all the matches: a substitution makes the
pattern equal to the expression exactly when it extends a result (a substitution may bind names
that do not matter). -/
theorem match_all_complete_partial {p : Pat} (h : Regular p) (hc : NoChoice p) (e : Expr) (σ : Bind) :
    Subst σ p e ↔ ∃ b ∈ matchAll p e, b.le σ := by
  constructor
  · intro hσ
    obtain ⟨b', hp, hle⟩ := (agree_empty h e σ).mpr hσ
    exact ⟨b', (prog_P p).2 hc e Bind.empty (fun b => [b]) b' b' hp (by simp), hle⟩
  · rintro ⟨b, hb, hle⟩
    exact (match_all_sound_partial h hb).1 σ hle

/-! Concrete patterns that satisfy the hypotheses. -/

/-- `(Var(0), Star((Var(0), Var(1)), name=2, accumulate=(1,)), Not(Var(0)), Choice(1, Var(3), name=4))` -/
def exPat : Pat :=
  .seq (.one (v 0) (.star (.seq (.one (v 0) (.one (v 1) .nil))) (some 2) [1] true false
    (.one (.not (v 0)) (.one (.choice (some 4) (.cons (.atom 1) (.cons (v 3) .nil))) .nil))))

theorem exPat_regular : Regular exPat := by
  refine ⟨?_, ?_⟩
  · simp [exPat, v, WF, WFEs, WFPs, names, namesEs, namesPs, freshEs, fresh, freshPs, sure,
      sureEs]
    rintro n ((rfl | rfl) | rfl | rfl) <;> simp
  · simp [exPat, v, StarNC, StarNCEs, StarNCPs, NoChoice, NoChoiceEs]

/-- `(7, (7, 1), (7, 2), 5, 9)` -/
def exExpr : Expr :=
  .seq [.atom 7, .seq [.atom 7, .atom 1], .seq [.atom 7, .atom 2], .atom 5, .atom 9]

example : ∃ b, match' exPat exExpr = some b ∧ b 0 = some (.atom 7) ∧
    b 1 = some (.seq [.atom 1, .atom 2]) ∧ b 3 = some (.atom 9) ∧ b 4 = some (.atom 9) ∧
    b 2 = some (.seq [.seq [.atom 7, .atom 1], .seq [.atom 7, .atom 2]]) :=
  ⟨_, rfl, by decide, by decide, by decide, by decide, by decide⟩

/-- `(Segment(0), Segment(0), Star(Dot))`: repeated segments. -/
def exSeg : Pat :=
  .seq (.star dot (some 0) [] false false (.star dot (some 0) [] false false
    (.star dot none [] false true .nil)))

theorem exSeg_regular : Regular exSeg ∧ NoChoice exSeg := by
  refine ⟨⟨?_, ?_⟩, ?_⟩
  · simp [exSeg, dot, WF, WFEs, names, freshEs, fresh, sure, IsSegment]
  · simp [exSeg, dot, StarNC, StarNCEs, NoChoice]
  · simp [exSeg, dot, NoChoice, NoChoiceEs]

example : (matchAll exSeg (.seq [.atom 1, .atom 1, .atom 2])).length = 2 := by decide

end Verif.Matching
