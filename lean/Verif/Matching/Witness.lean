import Verif.Matching.Props

/-
Patterns outside `Regular` on which the matcher does not do what substitution says: why C31 and C32
are only partial.  Each is a theorem about the model, checked by evaluation.
-/

namespace Verif.Matching

/-- `(Star(Choice(Var('x'), 2)),)` on `(2, 1)`: substitution `x = 1` is a match ... -/
def starChoice : Pat :=
  .seq (.star (.choice none (.cons (v 0) (.cons (.atom 2) .nil))) none [] false false .nil)

/-- The substitution `x = 1`. -/
def σ1 : Bind := fun n => if n = 0 then some (.atom 1) else none

/-- ... but the matcher commits to `x = 2` for the first element and raises `MatchError`. -/
theorem choice_in_star_incomplete :
    match' starChoice (.seq [.atom 2, .atom 1]) = none ∧
    ∃ σ, Subst σ starChoice (.seq [.atom 2, .atom 1]) := by
  refine ⟨by rfl, σ1, ?_⟩
  simp only [starChoice, Subst, SubstEs, v]
  refine ⟨_, rfl, [.atom 2, .atom 1], [], rfl, by simp, by simp, ⟨[σ1, σ1], rfl, ⟨?_, ?_⟩, ?_⟩, rfl⟩
  · intro τ hτ n _
    simp only [List.mem_cons, List.not_mem_nil, or_false, or_self] at hτ
    rw [hτ]
  · intro _ n hn; simp at hn
  · intro q hq
    simp only [List.zip_cons_cons, List.zip_nil_right, List.mem_cons, List.not_mem_nil, or_false] at hq
    rcases hq with rfl | rfl
    · simp [SubstAny, Subst]
    · simp [SubstAny, Subst, σ1]

/-- `(Var('x'), Choice(Var('y'), name='x'))` on `(1, 2)`: the name of the `Choice` replaces the value of
`x`, so the result is not a match: unsound. -/
def choiceName : Pat :=
  .seq (.one (v 0) (.one (.choice (some 0) (.cons (v 1) .nil)) .nil))

theorem choice_name_unsound : ∃ b, match' choiceName (.seq [.atom 1, .atom 2]) = some b ∧
    b 0 = some (.atom 2) ∧ ¬ ∃ σ, Subst σ choiceName (.seq [.atom 1, .atom 2]) := by
  refine ⟨_, rfl, by decide, ?_⟩
  rintro ⟨σ, h⟩
  simp only [choiceName, Subst, SubstEs, v] at h
  obtain ⟨l, hl, x, xs, hx, h1, y, ys, hy, h2, _⟩ := h
  injection hl with hl
  subst hl
  injection hx with hx hxs
  subst hx; subst hxs
  injection hy with hy _
  subst hy
  have a := h1.2 0 rfl
  have b := h2.1 0 rfl
  rw [a] at b
  simp at b

/-- `(Var('x'), Star(1, name='x'))` on `((2,), 2)`: as `x` is bound, the body of the `Star` is not
looked at, and `match` succeeds although `2` does not match `1`: unsound. -/
def starName : Pat := .seq (.one (v 0) (.star (.atom 1) (some 0) [] false false .nil))

theorem star_name_unsound : ∃ b, match' starName (.seq [.seq [.atom 2], .atom 2]) = some b ∧
    ¬ ∃ σ, Subst σ starName (.seq [.seq [.atom 2], .atom 2]) := by
  refine ⟨_, rfl, ?_⟩
  rintro ⟨σ, h⟩
  simp only [starName, Subst, SubstEs, v] at h
  obtain ⟨l, hl, x, xs, hx, h1, seg, rest, hs, _, hn, ⟨σs, hlen, _, hb⟩, hr⟩ := h
  injection hl with hl
  subst hl; subst hr
  injection hx with hx hxs
  subst hx; subst hxs
  have hs' : seg = [.atom 2] := by simpa using hs.symm
  subst hs'
  rcases σs with _ | ⟨τ, σs⟩
  · simp at hlen
  · have := hb (τ, .atom 2) (by simp)
    simp at this

/-- `(Star(Var('x'), accumulate=['x']), 0, Star(Var('x'), accumulate=['x']))` on `(1, 0, 2)`: the second
`Star`'s values of `x` are dropped, since the older bindings win (matcher.py:537). -/
def starTwice : Pat :=
  .seq (.star (v 0) none [0] false false (.one (.atom 0) (.star (v 0) none [0] false false .nil)))

theorem accumulate_twice_loses : ∃ b, match' starTwice (.seq [.atom 1, .atom 0, .atom 2]) = some b ∧
    b 0 = some (.seq [.atom 1]) ∧ ¬ Subst b starTwice (.seq [.atom 1, .atom 0, .atom 2]) := by
  refine ⟨_, rfl, by decide, ?_⟩
  intro h
  simp only [starTwice, Subst, SubstEs, v] at h
  obtain ⟨l, hl, seg, rest, hs, _, _, ⟨σs, hlen, hc, hb⟩, x, xs, hx, h0, seg', rest', hs', _, _,
    ⟨σs', hlen', hc', hb'⟩, hr⟩ := h
  injection hl with hl
  subst hl; subst hr; subst hx; subst h0
  -- the last element belongs to the second star
  have key : ∀ (s s' : List Expr), [Expr.atom 1, .atom 0, .atom 2] = s ++ Expr.atom 0 :: (s' ++ []) →
      s' = [.atom 2] := by
    intro s s' h
    rcases s with _ | ⟨a, _ | ⟨b, _ | ⟨c, _ | ⟨d, s⟩⟩⟩⟩ <;> simp at h
    · exact h.2.symm
  subst hs'
  have hseg := key _ _ hs
  subst hseg
  rcases σs' with _ | ⟨τ, _ | ⟨τ', σs'⟩⟩
  · simp at hlen'
  · obtain ⟨vs, hv, hvs⟩ := hc'.2 (by simp) 0 (by simp)
    have h2 := hb' (τ, .atom 2) (by simp)
    have h3 : τ 0 = some (.atom 2) := h2.2 0 rfl
    have hv' : some (Expr.seq [.atom 1]) = some (Expr.seq vs) := hv ▸ (by rfl)
    injection hv' with hv'
    injection hv' with hv'
    subst hv'
    simp only [List.map_cons, List.map_nil, h3] at hvs
    exact absurd hvs (by decide)
  · simp at hlen'

/-- `match_all(Choice(Var('x'), Var('y')), 1)` yields one of the two matches only. -/
theorem match_all_choice_incomplete :
    (matchAll (.choice none (.cons (v 0) (.cons (v 1) .nil))) (.atom 1)).length = 1 ∧
    (∀ b ∈ matchAll (.choice none (.cons (v 0) (.cons (v 1) .nil))) (.atom 1), b 1 = none) ∧
    Subst (fun n => if n = 1 then some (.atom 1) else none)
      (.choice none (.cons (v 0) (.cons (v 1) .nil))) (.atom 1) := by
  refine ⟨by decide, ?_, ?_⟩
  · intro b hb
    have : matchAll (.choice none (.cons (v 0) (.cons (v 1) .nil))) (.atom 1) =
      [Bind.empty.set 0 (.atom 1)] := by rfl
    rw [this, List.mem_singleton] at hb
    rw [hb]; rfl
  · simp [Subst, SubstAny, v]

/-- `(Star(Var('x'), accumulate=['x']),)` on `()`: `x` is not bound at all, rather than to `()`. -/
theorem empty_accumulate_unbound :
    ∃ b, match' (.seq (.star (v 0) none [0] false false .nil)) (.seq []) = some b ∧ b 0 = none :=
  ⟨_, rfl, by rfl⟩

/-- `(Not(Var('x')), Var('x'))` never matches: the names of the `Not` are not bound before it. -/
theorem not_before_bound_incomplete :
    match' (.seq (.one (.not (v 0)) (.one (v 0) .nil))) (.seq [.atom 1, .atom 2]) = none ∧
    Subst (fun n => if n = 0 then some (.atom 2) else none)
      (.seq (.one (.not (v 0)) (.one (v 0) .nil))) (.seq [.atom 1, .atom 2]) := by
  refine ⟨by rfl, ?_⟩
  simp [Subst, SubstEs, v]

end Verif.Matching
