import Verif.Matching.Props

/-
C32: the order in which `match_all` enumerates the matches of a `Star`: the longest segment first if it is greedy,
the shortest first otherwise; so `match` returns a match with the longest (shortest) possible segment.
-/

namespace Verif.Matching

/-- `s` is at most as long as `s'`. -/
def NotLonger (o o' : Option Expr) : Prop :=
  ∃ s s' : List Expr, o = some (.seq s) ∧ o' = some (.seq s') ∧ s.length ≤ s'.length

theorem splits_order (greedy plus : Bool) (l : List Expr) :
    (splits greedy plus l).Pairwise (fun x y =>
      if greedy then y.1.length ≤ x.1.length else x.1.length ≤ y.1.length) := by
  have hr : ((List.range (l.length + 1)).filter (fun i => !(plus && i == 0))).Pairwise (· < ·) :=
    List.Pairwise.filter _ List.pairwise_lt_range
  cases greedy
  · simp only [splits, Bool.false_eq_true, if_false, List.pairwise_map, List.length_take]
    exact hr.imp (fun {a b} h => by omega)
  · simp only [splits, if_true, List.pairwise_map, List.length_take, List.pairwise_reverse]
    exact hr.imp (fun {a b} h => by omega)

theorem star_result {p : Pat} {n : Name} {acc : List Name} {greedy plus : Bool} {es : Elems}
    (h : Regular (.seq (.star p (some n) acc greedy plus es))) {seg rest : List Expr} {r : Bind}
    (hr : r ∈ (accMatch (fun e b => matchP p e b (fun m => [m])) acc seg Bind.empty).flatMap fun m =>
      matchEs es rest (starBind (some n) Bind.empty m seg) (fun b => [b])) : r n = some (.seq seg) := by
  obtain ⟨hw, hs⟩ := h
  simp only [WF, WFEs] at hw
  simp only [StarNC, StarNCEs] at hs
  rw [List.mem_flatMap] at hr
  obtain ⟨m, hm, hr⟩ := hr
  have hp := prog_P p
  have hacc := (mem_accMatch (exact_of (hp.1 (NoChoice.starNC p hs.1)).1 (hp.2 hs.1)) _ _ _).mp hm
  obtain ⟨b', h1, h2⟩ := ((prog_Es es).1 hs.2).1 _ _ _ _ hr
  rw [List.mem_singleton] at h2
  subst h2
  have he := (accRel_ext (fun e b m hb h =>
    Poss.ext p e b m _ hw.1 (fun n hn => hb n (hw.2.2.2.2.2 n hn)) h) _ _ _ hacc).2
  have e1 := starBind_ext (acc := acc) (name := some n) (seg := seg) rfl he
  have e2 := PossEs.ext es rest _ r _ hw.2.1
    (fun n hn => ext_none e1 rfl (fun h => hw.2.2.1 n h hn)) h1
  exact e2.1 n _ (by simp [starBind])

/-- **C32.** `match_all` of a sequence pattern that begins with a named `Star` lists the matches by the length of
the segment bound to the name: from the longest if the `Star` is greedy, from the shortest otherwise. -/
theorem match_all_star_order_partial {p : Pat} {n : Name} {acc : List Name} {greedy plus : Bool} {es : Elems}
    (h : Regular (.seq (.star p (some n) acc greedy plus es))) (l : List Expr) :
    (matchAll (.seq (.star p (some n) acc greedy plus es)) (.seq l)).Pairwise (fun b b' =>
      if greedy then NotLonger (b' n) (b n) else NotLonger (b n) (b' n)) := by
  have e : matchAll (.seq (.star p (some n) acc greedy plus es)) (.seq l) =
      (splits greedy plus l).flatMap fun sr =>
        (accMatch (fun e b => matchP p e b (fun m => [m])) acc sr.1 Bind.empty).flatMap fun m =>
          matchEs es sr.2 (starBind (some n) Bind.empty m sr.1) (fun b => [b]) := rfl
  rw [e, List.pairwise_flatMap]
  refine ⟨fun sr _ => ?_, (splits_order greedy plus l).imp ?_⟩
  · rw [List.pairwise_iff_getElem]
    intro i j hi hj _
    have a := star_result h (List.getElem_mem hi)
    have b := star_result h (List.getElem_mem hj)
    split <;> exact ⟨sr.1, sr.1, by assumption, by assumption, Nat.le_refl _⟩
  · intro x y hxy a ha b hb
    have h1 := star_result h ha
    have h2 := star_result h hb
    cases greedy
    · simp only [Bool.false_eq_true, if_false] at hxy ⊢
      exact ⟨x.1, y.1, h1, h2, hxy⟩
    · simp only [if_true] at hxy ⊢
      exact ⟨y.1, x.1, h2, h1, hxy⟩

/-- **C32.** Without `Choice`, `match` of a sequence pattern that begins with a named `Star` binds the name to a
longest segment (greedy) or a shortest segment (otherwise) among all the ways in which the pattern can be made
equal to the expression. -/
theorem match_star_extremal_partial {p : Pat} {n : Name} {acc : List Name} {greedy plus : Bool} {es : Elems}
    (h : Regular (.seq (.star p (some n) acc greedy plus es)))
    (hc : NoChoice (.seq (.star p (some n) acc greedy plus es))) (l : List Expr) {b : Bind}
    (hb : match' (.seq (.star p (some n) acc greedy plus es)) (.seq l) = some b) (σ : Bind)
    (hσ : Subst σ (.seq (.star p (some n) acc greedy plus es)) (.seq l)) :
    if greedy then NotLonger (σ n) (b n) else NotLonger (b n) (σ n) := by
  obtain ⟨b', hb', hle⟩ := (match_all_complete_partial h hc _ σ).mp hσ
  have ho := match_all_star_order_partial h l
  have hbm : b ∈ matchAll (.seq (.star p (some n) acc greedy plus es)) (.seq l) := List.mem_of_mem_head? hb
  have hrefl : ∀ c ∈ matchAll (.seq (.star p (some n) acc greedy plus es)) (.seq l),
      ∃ s, c n = some (.seq s) := by
    intro c hc
    rw [show matchAll (.seq (.star p (some n) acc greedy plus es)) (.seq l) =
      (splits greedy plus l).flatMap fun sr =>
        (accMatch (fun e b => matchP p e b (fun m => [m])) acc sr.1 Bind.empty).flatMap fun m =>
          matchEs es sr.2 (starBind (some n) Bind.empty m sr.1) (fun b => [b]) from rfl,
      List.mem_flatMap] at hc
    obtain ⟨sr, _, hc⟩ := hc
    exact ⟨_, star_result h hc⟩
  unfold match' at hb
  rcases hl : matchAll (.seq (.star p (some n) acc greedy plus es)) (.seq l) with _ | ⟨c, cs⟩
  · rw [hl] at hb; simp at hb
  · rw [hl] at hb ho hb' hrefl
    simp only [List.head?_cons, Option.some.injEq] at hb
    subst hb
    rw [List.pairwise_cons] at ho
    obtain ⟨s, hs⟩ := hrefl c (by simp)
    obtain ⟨s', hs'⟩ := hrefl b' hb'
    have hσn := hle n _ hs'
    rw [hσn]
    rcases List.mem_cons.mp hb' with rfl | hm
    · rw [hs']
      split <;> exact ⟨s', s', rfl, rfl, Nat.le_refl _⟩
    · have := ho.1 b' hm
      rw [← hs']; exact this

/-- `(Segment(0, greedy=True), Star(Dot))` -/
def exGreedy (g : Bool) : Pat := .seq (.star dot (some 0) [] g false (.star dot none [] false true .nil))

example (g : Bool) : Regular (exGreedy g) ∧ NoChoice (exGreedy g) := by
  refine ⟨⟨?_, ?_⟩, ?_⟩
  · simp [exGreedy, dot, WF, WFEs, names, freshEs, fresh, IsSegment]
  · simp [exGreedy, dot, StarNC, StarNCEs, NoChoice]
  · simp [exGreedy, dot, NoChoice, NoChoiceEs]

example : ∃ b, match' (exGreedy true) (.seq [.atom 1, .atom 2, .atom 3]) = some b ∧
    b 0 = some (.seq [.atom 1, .atom 2]) := ⟨_, rfl, by decide⟩
example : ∃ b, match' (exGreedy false) (.seq [.atom 1, .atom 2, .atom 3]) = some b ∧
    b 0 = some (.seq []) := ⟨_, rfl, by decide⟩

end Verif.Matching
