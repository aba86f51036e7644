import Verif.Matching.Spec

/-
The possible results of the matcher as a relation, without the commitment of `Choice` to its
first alternative, and its relation to the program.
-/

namespace Verif.Matching

/-- Iterating a relation `R` (one element of a `Star`) over a segment. -/
def AccRel (R : Expr → Bind → Bind → Prop) (acc : List Name) : List Expr → Bind → Bind → Prop
  | [], b, b' => b' = b
  | e :: es, b, b' => ∃ m, R e (b.erase acc) m ∧ AccRel R acc es (mergeAcc acc b m) b'

mutual
/-- `Poss p e b b'`: matching `p` with `e` from bindings `b` may continue with `b'`. -/
def Poss : Pat → Expr → Bind → Bind → Prop
  | .atom a, e, b, b' => e = .atom a ∧ b' = b
  | .var name ok, e, b, b' => ok e = true ∧
    ((name = none ∧ b' = b) ∨ ∃ n, name = some n ∧
      ((b n = none ∧ b' = b.set n e) ∨ (b n = some e ∧ b' = b)))
  | .not p, e, b, b' => (¬ ∃ m, Poss p e b m) ∧ b' = b
  | .choice name ps, e, b, b' => PossAny ps e (match name with | none => b | some n => b.set n e) b'
  | .seq es, e, b, b' => ∃ l, e = .seq l ∧ PossEs es l b b'
  | .dict keys es, e, b, b' => ∃ l, e = .dict keys l ∧ PossEs es l b b'
/-- One of the alternatives. -/
def PossAny : Pats → Expr → Bind → Bind → Prop
  | .nil, _, _, _ => False
  | .cons p ps, e, b, b' => Poss p e b b' ∨ PossAny ps e b b'
/-- Sequence patterns. -/
def PossEs : Elems → List Expr → Bind → Bind → Prop
  | .nil, l, b, b' => l = [] ∧ b' = b
  | .one p es, l, b, b' => ∃ x xs m, l = x :: xs ∧ Poss p x b m ∧ PossEs es xs m b'
  | .star p name acc _ plus es, l, b, b' =>
    (∃ s rest, name.bind b = some (.seq s) ∧ l = s ++ rest ∧ PossEs es rest b b') ∨
    (name.bind b = none ∧ ∃ seg rest m, l = seg ++ rest ∧ (plus = true → seg ≠ []) ∧
      AccRel (fun e b m => Poss p e b m) acc seg b m ∧ PossEs es rest (starBind name b m seg) b')
end

mutual
/-- No `Choice` in the pattern, except under a `Not`. -/
def NoChoice : Pat → Prop
  | .atom _ => True
  | .var _ _ => True
  | .not p => StarNC p
  | .choice _ _ => False
  | .seq es => NoChoiceEs es
  | .dict _ es => NoChoiceEs es
/-- No `Choice` in a sequence pattern. -/
def NoChoiceEs : Elems → Prop
  | .nil => True
  | .one p es => NoChoice p ∧ NoChoiceEs es
  | .star p _ _ _ _ es => NoChoice p ∧ NoChoiceEs es
/-- No `Choice` inside a `Star`. -/
def StarNC : Pat → Prop
  | .atom _ => True
  | .var _ _ => True
  | .not p => StarNC p
  | .choice _ ps => StarNCPs ps
  | .seq es => StarNCEs es
  | .dict _ es => StarNCEs es
/-- No `Choice` inside a `Star` in the alternatives. -/
def StarNCPs : Pats → Prop
  | .nil => True
  | .cons p ps => StarNC p ∧ StarNCPs ps
/-- No `Choice` inside a `Star` in the elements. -/
def StarNCEs : Elems → Prop
  | .nil => True
  | .one p es => StarNC p ∧ StarNCEs es
  | .star p _ _ _ _ es => NoChoice p ∧ StarNCEs es
end

theorem mem_splits {greedy plus : Bool} {l seg rest : List Expr} :
    (seg, rest) ∈ splits greedy plus l ↔ l = seg ++ rest ∧ (plus = true → seg ≠ []) := by
  have key : (seg, rest) ∈ splits greedy plus l ↔
      ∃ i, i < l.length + 1 ∧ ¬ (plus = true ∧ i = 0) ∧ l.take i = seg ∧ l.drop i = rest := by
    unfold splits
    cases greedy <;> cases plus <;> simp [and_assoc]
  rw [key]
  constructor
  · rintro ⟨i, hi, hp, rfl, rfl⟩
    refine ⟨(List.take_append_drop i l).symm, fun h hs => hp ⟨h, ?_⟩⟩
    have hl : (l.take i).length = 0 := by rw [hs]; rfl
    rw [List.length_take] at hl
    rcases Nat.min_eq_zero_iff.mp hl with h' | h'
    · exact h'
    · omega
  · rintro ⟨rfl, hp⟩
    refine ⟨seg.length, by simp; omega, ?_, by simp, by simp⟩
    rintro ⟨h, h0⟩
    exact hp h (List.length_eq_zero_iff.mp h0)

theorem mem_accMatch {f : Expr → Bind → List Bind} {R : Expr → Bind → Bind → Prop}
    {acc : List Name} (h : ∀ e b m, m ∈ f e b ↔ R e b m) :
    ∀ (l : List Expr) (b r : Bind), r ∈ accMatch f acc l b ↔ AccRel R acc l b r
  | [], b, r => by simp [accMatch, AccRel]
  | e :: es, b, r => by
    simp only [accMatch, AccRel, List.mem_flatMap, h]
    constructor
    · rintro ⟨m, hm, hr⟩; exact ⟨m, hm, (mem_accMatch h es _ _).mp hr⟩
    · rintro ⟨m, hm, hr⟩; exact ⟨m, hm, (mem_accMatch h es _ _).mpr hr⟩

theorem accMatch_sub {f : Expr → Bind → List Bind} {R : Expr → Bind → Bind → Prop}
    {acc : List Name} (h : ∀ e b m, m ∈ f e b → R e b m) :
    ∀ (l : List Expr) (b r : Bind), r ∈ accMatch f acc l b → AccRel R acc l b r
  | [], b, r => by simp [accMatch, AccRel]
  | e :: es, b, r => by
    simp only [accMatch, AccRel, List.mem_flatMap]
    rintro ⟨m, hm, hr⟩; exact ⟨m, h _ _ _ hm, accMatch_sub h es _ _ hr⟩

theorem prefix_iff {s l : List Expr} : s = l.take s.length ↔ ∃ rest, l = s ++ rest := by
  constructor
  · intro h
    refine ⟨l.drop s.length, ?_⟩
    have h' := (List.take_append_drop s.length l).symm
    rwa [← h] at h'
  · rintro ⟨rest, rfl⟩; simp

mutual
theorem NoChoice.starNC : ∀ p : Pat, NoChoice p → StarNC p
  | .atom _, _ => by simp [StarNC]
  | .var _ _, _ => by simp [StarNC]
  | .not p, h => by simpa [StarNC, NoChoice] using h
  | .choice _ _, h => by simp [NoChoice] at h
  | .seq es, h => by simp only [StarNC, NoChoice] at h ⊢; exact NoChoiceEs.starNC es h
  | .dict _ es, h => by simp only [StarNC, NoChoice] at h ⊢; exact NoChoiceEs.starNC es h
theorem NoChoiceEs.starNC : ∀ es : Elems, NoChoiceEs es → StarNCEs es
  | .nil, _ => by simp [StarNCEs]
  | .one p es, h => by
    simp only [StarNCEs, NoChoiceEs] at h ⊢
    exact ⟨NoChoice.starNC p h.1, NoChoiceEs.starNC es h.2⟩
  | .star p _ _ _ _ es, h => by
    simp only [StarNCEs, NoChoiceEs] at h ⊢
    exact ⟨h.1, NoChoiceEs.starNC es h.2⟩
end

/-- Every result of the matcher comes from a possible match. -/
def SndP (p : Pat) : Prop := ∀ e b k r, r ∈ matchP p e b k → ∃ b', Poss p e b b' ∧ r ∈ k b'
/-- If there is a possible match whose continuation succeeds, the matcher has a result. -/
def SomeP (p : Pat) : Prop := ∀ e b k b' r, Poss p e b b' → r ∈ k b' → ∃ r', r' ∈ matchP p e b k
/-- Every possible match is found. -/
def FullP (p : Pat) : Prop := ∀ e b k b' r, Poss p e b b' → r ∈ k b' → r ∈ matchP p e b k
/-- As `SndP`. -/
def SndPs (p : Pats) : Prop := ∀ e b k r, r ∈ matchPs p e b k → ∃ b', PossAny p e b b' ∧ r ∈ k b'
/-- As `SomeP`. -/
def SomePs (p : Pats) : Prop :=
  ∀ e b k b' r, PossAny p e b b' → r ∈ k b' → ∃ r', r' ∈ matchPs p e b k
/-- As `SndP`. -/
def SndEs (p : Elems) : Prop := ∀ e b k r, r ∈ matchEs p e b k → ∃ b', PossEs p e b b' ∧ r ∈ k b'
/-- As `SomeP`. -/
def SomeEs (p : Elems) : Prop :=
  ∀ e b k b' r, PossEs p e b b' → r ∈ k b' → ∃ r', r' ∈ matchEs p e b k
/-- As `FullP`. -/
def FullEs (p : Elems) : Prop := ∀ e b k b' r, PossEs p e b b' → r ∈ k b' → r ∈ matchEs p e b k

theorem exact_of {p : Pat} (hs : SndP p) (hf : FullP p) (e : Expr) (b m : Bind) :
    m ∈ matchP p e b (fun m => [m]) ↔ Poss p e b m := by
  constructor
  · intro h
    obtain ⟨b', hp, hm⟩ := hs _ _ _ _ h
    rw [List.mem_singleton] at hm
    exact hm ▸ hp
  · intro h
    exact hf _ _ _ _ _ h (List.mem_singleton.mpr rfl)

theorem empty_iff {p : Pat} (hs : SndP p) (hf : SomeP p) (e : Expr) (b : Bind) :
    matchP p e b (fun m => [m]) = [] ↔ ¬ ∃ m, Poss p e b m := by
  constructor
  · rintro h ⟨m, hm⟩
    obtain ⟨r, hr⟩ := hf _ _ (fun m => [m]) _ _ hm (List.mem_singleton.mpr rfl)
    rw [h] at hr
    exact List.not_mem_nil hr
  · intro h
    rcases hl : matchP p e b (fun m => [m]) with _ | ⟨r, rs⟩
    · rfl
    · exfalso
      have hr : r ∈ matchP p e b (fun m => [m]) := by rw [hl]; exact List.mem_cons_self
      obtain ⟨b', hp, _⟩ := hs _ _ _ _ hr
      exact h ⟨b', hp⟩

theorem matchP_not (p : Pat) (e : Expr) (b : Bind) (k : Bind → List Bind) (r : Bind) :
    r ∈ matchP (.not p) e b k ↔ matchP p e b (fun m => [m]) = [] ∧ r ∈ k b := by
  simp only [matchP]
  rcases matchP p e b (fun m => [m]) with _ | ⟨r', rs⟩ <;> simp

/-- The two cases of the sequence matcher at a `Star`. -/
theorem mem_matchEs_star {p : Pat} {name : Option Name} {acc : List Name} {greedy plus : Bool}
    {es : Elems} (hs : SndP p) (hf : FullP p) (l : List Expr) (b : Bind) (k : Bind → List Bind)
    (r : Bind) :
    r ∈ matchEs (.star p name acc greedy plus es) l b k ↔
      (∃ s rest, name.bind b = some (.seq s) ∧ l = s ++ rest ∧ r ∈ matchEs es rest b k) ∨
      (name.bind b = none ∧ ∃ seg rest m, l = seg ++ rest ∧ (plus = true → seg ≠ []) ∧
        AccRel (fun e b m => Poss p e b m) acc seg b m ∧
        r ∈ matchEs es rest (starBind name b m seg) k) := by
  simp only [matchEs]
  rcases hn : name.bind b with _ | v
  · simp only [List.mem_flatMap, Prod.exists, reduceCtorEq, false_and, exists_false, false_or,
      true_and]
    constructor
    · rintro ⟨seg, rest, hsp, m, hm, hr⟩
      obtain ⟨h1, h2⟩ := mem_splits.mp hsp
      exact ⟨seg, rest, m, h1, h2, (mem_accMatch (exact_of hs hf) _ _ _).mp hm, hr⟩
    · rintro ⟨seg, rest, m, h1, h2, hm, hr⟩
      exact ⟨seg, rest, mem_splits.mpr ⟨h1, h2⟩, m, (mem_accMatch (exact_of hs hf) _ _ _).mpr hm, hr⟩
  · simp only [reduceCtorEq, false_and, or_false, Option.some.injEq]
    rcases v with a | s | ⟨ks, vs⟩
    · simp
    · dsimp only
      by_cases hp : s = l.take s.length
      · obtain ⟨rest, rfl⟩ := prefix_iff.mp hp
        rw [if_pos hp]
        constructor
        · intro h
          exact ⟨s, rest, rfl, rfl, by simpa using h⟩
        · rintro ⟨s', rest', h1, h2, h3⟩
          injection h1 with h1
          subst h1
          rw [List.append_cancel_left h2]
          simpa using h3
      · rw [if_neg hp]
        constructor
        · intro h; exact absurd h List.not_mem_nil
        · rintro ⟨s', rest', h1, h2, h3⟩
          injection h1 with h1
          subst h1
          exact absurd (prefix_iff.mpr ⟨_, h2⟩) hp
    · simp

mutual
theorem prog_P : ∀ p : Pat, (StarNC p → SndP p ∧ SomeP p) ∧ (NoChoice p → FullP p)
  | .atom a => by
    refine ⟨fun _ => ⟨?_, ?_⟩, fun _ => ?_⟩
    · intro e b k r h
      simp only [matchP] at h
      split at h
      · exact ⟨b, by simp only [Poss]; exact ⟨by assumption, trivial⟩, h⟩
      · simp at h
    · intro e b k b' r h hr
      simp only [Poss] at h
      obtain ⟨h, rfl⟩ := h
      exact ⟨r, by simp only [matchP]; rwa [if_pos h]⟩
    · intro e b k b' r h hr
      simp only [Poss] at h
      obtain ⟨h, rfl⟩ := h
      simp only [matchP]; rwa [if_pos h]
  | .var name ok => by
    have full : FullP (.var name ok) := by
      intro e b k b' r h hr
      simp only [Poss] at h
      simp only [matchP]
      obtain ⟨hok, ⟨rfl, rfl⟩ | ⟨n, rfl, ⟨hn, rfl⟩ | ⟨hn, rfl⟩⟩⟩ := h
      · rwa [if_pos hok]
      · simp only [if_pos hok, hn]; exact hr
      · simp only [if_pos hok, hn]; exact hr
    refine ⟨fun _ => ⟨?_, fun e b k b' r h hr => ⟨r, full e b k b' r h hr⟩⟩, fun _ => full⟩
    intro e b k r h
    simp only [matchP] at h
    simp only [Poss]
    split at h
    · rename_i hok
      rcases name with _ | n
      · exact ⟨b, ⟨hok, .inl ⟨rfl, rfl⟩⟩, h⟩
      · simp only at h
        rcases hn : b n with _ | w
        · rw [hn] at h
          exact ⟨_, ⟨hok, .inr ⟨n, rfl, .inl ⟨hn, rfl⟩⟩⟩, h⟩
        · rw [hn] at h
          simp only at h
          split at h
          · rename_i hw
            exact ⟨b, ⟨hok, .inr ⟨n, rfl, .inr ⟨hw ▸ hn, rfl⟩⟩⟩, h⟩
          · simp at h
    · simp at h
  | .not p => by
    have ih := prog_P p
    have full : StarNC p → FullP (.not p) := by
      intro hnc e b k b' r h hr
      simp only [Poss] at h
      obtain ⟨h, rfl⟩ := h
      exact (matchP_not _ _ _ _ _).mpr ⟨(empty_iff (ih.1 hnc).1 (ih.1 hnc).2 _ _).mpr h, hr⟩
    refine ⟨fun hnc => ?_, fun hnc => ?_⟩
    · simp only [StarNC] at hnc
      refine ⟨?_, fun e b k b' r h hr => ⟨r, full hnc e b k b' r h hr⟩⟩
      intro e b k r h
      obtain ⟨h0, hr⟩ := (matchP_not _ _ _ _ _).mp h
      exact ⟨b, by simp only [Poss]; exact ⟨(empty_iff (ih.1 hnc).1 (ih.1 hnc).2 _ _).mp h0, trivial⟩, hr⟩
    · simp only [NoChoice] at hnc
      exact full hnc
  | .choice name ps => by
    have ih := prog_Ps ps
    refine ⟨fun hnc => ?_, fun hnc => by simp [NoChoice] at hnc⟩
    simp only [StarNC] at hnc
    refine ⟨?_, ?_⟩
    · intro e b k r h
      simp only [matchP] at h
      simp only [Poss]
      exact (ih hnc).1 _ _ _ _ h
    · intro e b k b' r h hr
      simp only [Poss] at h
      simp only [matchP]
      exact (ih hnc).2 _ _ _ _ _ h hr
  | .seq es => by
    have ih := prog_Es es
    refine ⟨fun hnc => ⟨?_, ?_⟩, fun hnc => ?_⟩
    · simp only [StarNC] at hnc
      intro e b k r h
      simp only [matchP] at h
      rcases e with a | l | ⟨ks, l⟩
      · simp at h
      · obtain ⟨b', h1, h2⟩ := (ih.1 hnc).1 _ _ _ _ h
        exact ⟨b', by simp only [Poss]; exact ⟨l, rfl, h1⟩, h2⟩
      · simp at h
    · simp only [StarNC] at hnc
      intro e b k b' r h hr
      simp only [Poss] at h
      obtain ⟨l, rfl, h⟩ := h
      simp only [matchP]
      exact (ih.1 hnc).2 _ _ _ _ _ h hr
    · simp only [NoChoice] at hnc
      intro e b k b' r h hr
      simp only [Poss] at h
      obtain ⟨l, rfl, h⟩ := h
      simp only [matchP]
      exact ih.2 hnc _ _ _ _ _ h hr
  | .dict keys es => by
    have ih := prog_Es es
    refine ⟨fun hnc => ⟨?_, ?_⟩, fun hnc => ?_⟩
    · simp only [StarNC] at hnc
      intro e b k r h
      simp only [matchP] at h
      rcases e with a | l | ⟨ks, l⟩
      · simp at h
      · simp at h
      · simp only at h
        split at h
        · rename_i hk
          obtain ⟨b', h1, h2⟩ := (ih.1 hnc).1 _ _ _ _ h
          exact ⟨b', by simp only [Poss]; exact ⟨l, by rw [hk], h1⟩, h2⟩
        · simp at h
    · simp only [StarNC] at hnc
      intro e b k b' r h hr
      simp only [Poss] at h
      obtain ⟨l, rfl, h⟩ := h
      simp only [matchP, if_true]
      exact (ih.1 hnc).2 _ _ _ _ _ h hr
    · simp only [NoChoice] at hnc
      intro e b k b' r h hr
      simp only [Poss] at h
      obtain ⟨l, rfl, h⟩ := h
      simp only [matchP, if_true]
      exact ih.2 hnc _ _ _ _ _ h hr
theorem prog_Ps : ∀ ps : Pats, StarNCPs ps → SndPs ps ∧ SomePs ps
  | .nil, _ => by
    refine ⟨fun e b k r h => by simp [matchPs] at h, fun e b k b' r h _ => by simp [PossAny] at h⟩
  | .cons p ps, hnc => by
    simp only [StarNCPs] at hnc
    have ih := (prog_P p).1 hnc.1
    have ihs := prog_Ps ps hnc.2
    refine ⟨?_, ?_⟩
    · intro e b k r h
      simp only [matchPs] at h
      simp only [PossAny]
      rcases hm : matchP p e b k with _ | ⟨r', rs⟩
      · rw [hm] at h
        obtain ⟨b', h1, h2⟩ := ihs.1 _ _ _ _ h
        exact ⟨b', .inr h1, h2⟩
      · rw [hm] at h
        have h' : r ∈ matchP p e b k := by rw [hm]; exact h
        obtain ⟨b', h1, h2⟩ := ih.1 _ _ _ _ h'
        exact ⟨b', .inl h1, h2⟩
    · intro e b k b' r h hr
      simp only [PossAny] at h
      simp only [matchPs]
      rcases hm : matchP p e b k with _ | ⟨r', rs⟩
      · rcases h with h | h
        · obtain ⟨r', hr'⟩ := ih.2 _ _ _ _ _ h hr
          rw [hm] at hr'
          exact absurd hr' List.not_mem_nil
        · exact ihs.2 _ _ _ _ _ h hr
      · exact ⟨r', List.mem_cons_self⟩
theorem prog_Es : ∀ es : Elems, (StarNCEs es → SndEs es ∧ SomeEs es) ∧ (NoChoiceEs es → FullEs es)
  | .nil => by
    have full : FullEs .nil := by
      intro l b k b' r h hr
      simp only [PossEs] at h
      obtain ⟨rfl, rfl⟩ := h
      simpa only [matchEs] using hr
    refine ⟨fun _ => ⟨?_, fun e b k b' r h hr => ⟨r, full e b k b' r h hr⟩⟩, fun _ => full⟩
    intro l b k r h
    simp only [matchEs] at h
    rcases l with _ | ⟨x, xs⟩
    · exact ⟨b, by simp only [PossEs]; exact ⟨trivial, trivial⟩, h⟩
    · simp at h
  | .one p es => by
    have ihp := prog_P p
    have ihe := prog_Es es
    refine ⟨fun hnc => ⟨?_, ?_⟩, fun hnc => ?_⟩
    · simp only [StarNCEs] at hnc
      intro l b k r h
      simp only [matchEs] at h
      rcases l with _ | ⟨x, xs⟩
      · simp at h
      · obtain ⟨m, h1, h2⟩ := (ihp.1 hnc.1).1 _ _ _ _ h
        obtain ⟨b', h3, h4⟩ := (ihe.1 hnc.2).1 _ _ _ _ h2
        exact ⟨b', by simp only [PossEs]; exact ⟨x, xs, m, rfl, h1, h3⟩, h4⟩
    · simp only [StarNCEs] at hnc
      intro l b k b' r h hr
      simp only [PossEs] at h
      obtain ⟨x, xs, m, rfl, h1, h2⟩ := h
      obtain ⟨r', hr'⟩ := (ihe.1 hnc.2).2 _ _ _ _ _ h2 hr
      simp only [matchEs]
      exact (ihp.1 hnc.1).2 _ _ (fun b' => matchEs es xs b' k) _ _ h1 hr'
    · simp only [NoChoiceEs] at hnc
      intro l b k b' r h hr
      simp only [PossEs] at h
      obtain ⟨x, xs, m, rfl, h1, h2⟩ := h
      simp only [matchEs]
      exact ihp.2 hnc.1 _ _ (fun b' => matchEs es xs b' k) _ _ h1 (ihe.2 hnc.2 _ _ _ _ _ h2 hr)
  | .star p name acc greedy plus es => by
    have ihp := prog_P p
    have ihe := prog_Es es
    refine ⟨fun hnc => ⟨?_, ?_⟩, fun hnc => ?_⟩
    · simp only [StarNCEs] at hnc
      have hs := (ihp.1 (NoChoice.starNC p hnc.1)).1
      have hf := ihp.2 hnc.1
      intro l b k r h
      rcases (mem_matchEs_star hs hf l b k r).mp h with ⟨s, rest, h1, h2, h3⟩ |
        ⟨h1, seg, rest, m, h2, h3, h4, h5⟩
      · obtain ⟨b', h4, h5⟩ := (ihe.1 hnc.2).1 _ _ _ _ h3
        exact ⟨b', by simp only [PossEs]; exact .inl ⟨s, rest, h1, h2, h4⟩, h5⟩
      · obtain ⟨b', h6, h7⟩ := (ihe.1 hnc.2).1 _ _ _ _ h5
        exact ⟨b', by simp only [PossEs]; exact .inr ⟨h1, seg, rest, m, h2, h3, h4, h6⟩, h7⟩
    · simp only [StarNCEs] at hnc
      have hs := (ihp.1 (NoChoice.starNC p hnc.1)).1
      have hf := ihp.2 hnc.1
      intro l b k b' r h hr
      simp only [PossEs] at h
      rcases h with ⟨s, rest, h1, h2, h3⟩ | ⟨h1, seg, rest, m, h2, h3, h4, h5⟩
      · obtain ⟨r', hr'⟩ := (ihe.1 hnc.2).2 _ _ _ _ _ h3 hr
        exact ⟨r', (mem_matchEs_star hs hf l b k r').mpr (.inl ⟨s, rest, h1, h2, hr'⟩)⟩
      · obtain ⟨r', hr'⟩ := (ihe.1 hnc.2).2 _ _ _ _ _ h5 hr
        exact ⟨r', (mem_matchEs_star hs hf l b k r').mpr
          (.inr ⟨h1, seg, rest, m, h2, h3, h4, hr'⟩)⟩
    · simp only [NoChoiceEs] at hnc
      have hs := (ihp.1 (NoChoice.starNC p hnc.1)).1
      have hf := ihp.2 hnc.1
      intro l b k b' r h hr
      simp only [PossEs] at h
      rcases h with ⟨s, rest, h1, h2, h3⟩ | ⟨h1, seg, rest, m, h2, h3, h4, h5⟩
      · exact (mem_matchEs_star hs hf l b k r).mpr
          (.inl ⟨s, rest, h1, h2, ihe.2 hnc.2 _ _ _ _ _ h3 hr⟩)
      · exact (mem_matchEs_star hs hf l b k r).mpr
          (.inr ⟨h1, seg, rest, m, h2, h3, h4, ihe.2 hnc.2 _ _ _ _ _ h5 hr⟩)
end

end Verif.Matching
