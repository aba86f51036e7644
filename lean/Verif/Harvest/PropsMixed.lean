/-
C06 continued: names that are sown both with `sow(.., mode='clobber')` and with `sow_cond`, which the
hypothesis `Regular` of `sow_cond_last_partial` excludes.  What `reap` returns for such a name in straight-line
code is determined here for every history of sows, inside and outside of a nested scope.
-/
import Mathlib.Data.List.Induction
import Verif.Harvest.PropsReap

namespace Verif.Harvest

/-- One sow of a fixed name: its mode, value and predicate, computed from the environment. -/
structure Sown (V A : Type) where
  mode : Mode
  value : A → Val V
  pred : A → Bool

/-- Straight-line code that sows one name again and again. -/
def sowSeq {V A : Type} (tag n : String) : List (Sown V A) → Prog V A A
  | [] => .pure .ok
  | s :: l => .seq (.sow tag n s.mode s.value s.pred (fun a _ => a)) (sowSeq tag n l)

/-- The last value sown with `sow_cond` whose predicate held. -/
def lastTrue {V A : Type} (a : A) (l : List (Sown V A)) : Option (Val V) :=
  ((l.filter (fun s => s.pred a)).getLast?).map (fun s => s.value a)

theorem lastTrue_concat {V A : Type} (a : A) (l : List (Sown V A)) (s : Sown V A) :
    lastTrue a (l ++ [s]) = if s.pred a then some (s.value a) else lastTrue a l := by
  unfold lastTrue
  by_cases h : s.pred a = true <;> simp [h]

/-- The entry of name `n` after a history of sows. -/
def histReap {V A : Type} (a : A) (r : Option (Reap V)) (l : List (Sown V A)) : Option (Reap V) :=
  l.foldl (fun r s => some (newReap r s.mode (s.value a) (s.pred a))) r

theorem run_reapT_sowSeq {V A : Type} (S : Settings) (tag n : String) (hd : S.dispatch tag n = .handle)
    (fuel : Nat) (a : A) : ∀ (l : List (Sown V A)) (d : Reaps V),
    ∃ d', run fuel (reapT S (sowSeq tag n l)) (a, d) = .ok (a, d') ∧ d' n = histReap a (d n) l
  | [], d => ⟨d, rfl, rfl⟩
  | s :: l, d => by
    obtain ⟨d', h1, h2⟩ := run_reapT_sowSeq S tag n hd fuel a l (d.handle n s.mode (s.value a) (s.pred a))
    refine ⟨d', ?_, ?_⟩
    · simp only [sowSeq, reapT, hd, run]
      exact h1
    · rw [h2]; simp [histReap, Reaps.handle]

theorem meta_sowSeq {V A : Type} (S : Settings) (tag n : String) (hd : S.dispatch tag n = .handle) :
    ∀ (l : List (Sown V A)) (m : Meta), (∀ s ∈ l, s.mode.isClobber = true) →
      (∀ k, m.get n = some k → k.isClobber = true) → ∃ m', metaOf S (sowSeq tag n l) m = .ok m' ∧
        (l ≠ [] ∨ m ≠ [] → m' ≠ [])
  | [], m, _, _ => ⟨m, rfl, by simp⟩
  | s :: l, m, hl, hm => by
    have hs := hl s (by simp)
    have hne : s.mode ≠ .invalid := by intro h; rw [h] at hs; cases hs
    have h1 : m.handle n s.mode = .ok (m.set n s.mode) := by
      unfold Meta.handle
      rcases h : m.get n with _ | k
      · rfl
      · simp [hs, hm k h]
    obtain ⟨m', h2, h3⟩ := meta_sowSeq S tag n hd l (m.set n s.mode) (fun t ht => hl t (by simp [ht]))
      (by intro k hk; simp [Meta.get, Meta.set] at hk; rw [← hk]; exact hs)
    refine ⟨m', ?_, fun _ => h3 (Or.inr (by simp [Meta.set]))⟩
    simp only [sowSeq, metaOf, if_neg hne, hd, h1]
    exact h2

theorem histReap_concat {V A : Type} (a : A) (r : Option (Reap V)) (l : List (Sown V A)) (s : Sown V A) :
    histReap a r (l ++ [s]) = some (newReap (histReap a r l) s.mode (s.value a) (s.pred a)) := by
  simp [histReap]

/-- After the last 'clobber' sow `c`, followed by the `sow_cond`s `t`. -/
theorem histReap_tail {V A : Type} (a : A) (r : Option (Reap V)) (c : Sown V A) (hc : c.mode = .clobber)
    (t : List (Sown V A)) (ht : ∀ s ∈ t, s.mode = .condClobber) :
    histReap a r (c :: t) = some ⟨(lastTrue a t).getD (c.value a),
      if t = [] then none else some (t.any (fun s => s.pred a)),
      if t = [] then .clobber else .condClobber⟩ := by
  induction t using List.reverseRecOn with
  | nil => simp [histReap, newReap, hc, lastTrue]
  | append_singleton t s ih =>
    rw [← List.cons_append, histReap_concat, ih (fun x hx => ht x (by simp [hx])), ht s (by simp),
      lastTrue_concat]
    by_cases he : t = []
    · subst he
      by_cases hp : s.pred a = true <;> simp [newReap, hp, lastTrue]
    · by_cases hp : s.pred a = true <;> simp [newReap, he, hp]

/-- Only `sow_cond`s. -/
theorem histReap_cond {V A : Type} (a : A) (c : Sown V A) (hc : c.mode = .condClobber)
    (t : List (Sown V A)) (ht : ∀ s ∈ t, s.mode = .condClobber) :
    histReap a none (c :: t) = some ⟨(lastTrue a t).getD (c.value a),
      some ((c :: t).any (fun s => s.pred a)), .condClobber⟩ := by
  induction t using List.reverseRecOn with
  | nil => simp [histReap, newReap, hc, lastTrue]
  | append_singleton t s ih =>
    rw [← List.cons_append, histReap_concat, ih (fun x hx => ht x (by simp [hx])), ht s (by simp),
      lastTrue_concat]
    by_cases hp : s.pred a = true <;> simp [newReap, hp, Bool.or_comm]

/-- C06, mixed modes: when the last 'clobber' sow of `n` is followed by the `sow_cond`s `t`, `reap` returns the
clobbered value if `t` is empty, else the last value of `t` whose predicate held, and zeros when none did. -/
theorem mixed_reap {V A : Type} (S : Settings) (tag n : String) (hact : S.active tag n = true)
    (h : List (Sown V A)) (hh : ∀ s ∈ h, s.mode.isClobber = true) (c : Sown V A) (hc : c.mode = .clobber)
    (t : List (Sown V A)) (ht : ∀ s ∈ t, s.mode = .condClobber) (fuel : Nat) (a : A) :
    ∃ g d, callAndReap S (sowSeq tag n (h ++ c :: t)) = .ok g ∧ run fuel g a = .ok (a, d) ∧
      d n = some (if t = [] then c.value a else (lastTrue a t).getD .zeros) := by
  have hd : S.dispatch tag n = .handle := dispatch_handle.2 hact
  obtain ⟨m', hm, -⟩ := meta_sowSeq S tag n hd (h ++ c :: t) [] (by
    intro s hs
    simp only [List.mem_append, List.mem_cons] at hs
    rcases hs with hs | rfl | hs
    · exact hh s hs
    · rw [hc]; rfl
    · rw [ht s hs]; rfl) (by simp [Meta.get])
  obtain ⟨d', h1, h2⟩ := run_reapT_sowSeq S tag n hd fuel a (h ++ c :: t) (fun _ => none)
  refine ⟨_, fun k => (d' k).map selectFromPred, by simp only [callAndReap, hm]; rfl, ?_, ?_⟩
  · simp only [run]
    show (do let b ← run fuel (reapT S (sowSeq tag n (h ++ c :: t))) (a, fun _ => none)
             (Except.ok (b.1, fun k => (b.2 k).map selectFromPred) : Except RErr _)) = _
    rw [h1]; rfl
  · have : histReap a none (h ++ c :: t) = histReap a (histReap a none h) (c :: t) := by
      simp [histReap, List.foldl_append]
    show (d' n).map selectFromPred = _
    rw [h2, this, histReap_tail a _ c hc t ht]
    by_cases he : t = []
    · simp [he, selectFromPred, lastTrue]
    · simp only [if_neg he, Option.map_some, selectFromPred, Option.some.injEq]
      rcases hp : t.any (fun s => s.pred a) with _ | _
      · have hf : t.filter (fun s => s.pred a) = [] := by
          rw [List.filter_eq_nil_iff]; intro s hs hps
          rw [List.any_eq_false] at hp; exact hp s hs hps
        simp [lastTrue, hf]
      · have hf : (t.filter (fun s => s.pred a)) ≠ [] := by
          intro h0; rw [List.filter_eq_nil_iff] at h0
          rw [List.any_eq_true] at hp; obtain ⟨s, hs, hps⟩ := hp; exact h0 s hs hps
        simp only [lastTrue]
        rw [List.getLast?_eq_some_getLast hf]; rfl

/-- C06, mixed modes inside a nested scope: the dictionary of the scope holds the last value of `t` whose
predicate held, or else the clobbered value. -/
theorem mixed_reap_nested {V A : Type} (S : Settings) (tag n scope : String)
    (hact : S.active tag n = true) (hs : S.active S.tag scope = true)
    (h : List (Sown V A)) (hh : ∀ s ∈ h, s.mode.isClobber = true) (c : Sown V A) (hc : c.mode = .clobber)
    (t : List (Sown V A)) (ht : ∀ s ∈ t, s.mode = .condClobber) (fuel : Nat) (a : A) :
    ∃ g d f, callAndReap S (.nest scope id (sowSeq tag n (h ++ c :: t)) (fun _ b => b)) = .ok g ∧
      run fuel g a = .ok (a, d) ∧ d scope = some (.dict f) ∧
      f n = some ((lastTrue a t).getD (c.value a)) := by
  have hd : S.dispatch tag n = .handle := dispatch_handle.2 hact
  have hds : S.dispatch S.tag scope = .handle := dispatch_handle.2 hs
  obtain ⟨m', hm, hne⟩ := meta_sowSeq S tag n hd (h ++ c :: t) [] (by
    intro s hs
    simp only [List.mem_append, List.mem_cons] at hs
    rcases hs with hs | rfl | hs
    · exact hh s hs
    · rw [hc]; rfl
    · rw [ht s hs]; rfl) (by simp [Meta.get])
  have hne' : m'.isEmpty = false := by
    rcases m' with _ | _
    · exact absurd rfl (hne (Or.inl (by simp)))
    · rfl
  have hmD : metaD S (sowSeq tag n (h ++ c :: t)) = m' := by simp [metaD, hm]
  obtain ⟨d', h1, h2⟩ := run_reapT_sowSeq S tag n hd fuel a (h ++ c :: t) (fun _ => none)
  have hmo : metaOf S (.nest scope id (sowSeq tag n (h ++ c :: t)) (fun _ b => b)) []
      = .ok (Meta.set [] scope .strict) := by
    simp only [metaOf, hm]
    show (if m'.isEmpty = true then _ else _) = _
    rw [hne', hds]; rfl
  refine ⟨_, fun k => ((Reaps.handle (fun _ => none) scope .strict
      (.dict (fun k => (d' k).map (·.value))) false) k).map selectFromPred,
    fun k => (d' k).map (·.value), by simp only [callAndReap, hmo]; rfl, ?_, ?_, ?_⟩
  · simp only [run, reapT, hmD, hne', hds, id, bind, Except.bind, h1, Except.map]
    rfl
  · simp [Reaps.handle, newReap, selectFromPred]
  · have : histReap a none (h ++ c :: t) = histReap a (histReap a none h) (c :: t) := by
      simp [histReap, List.foldl_append]
    show (d' n).map (·.value) = _
    rw [h2, this, histReap_tail a _ c hc t ht]; rfl

/-- A name sown with 'clobber' and then with a `sow_cond` whose predicate is false: `reap` returns zeros,
although the name was sown with a value. -/
theorem mixed_false_gives_zeros {V : Type} (v w : V) (fuel : Nat) :
    ∃ g d, callAndReap ⟨"t", [], none, false⟩ (sowSeq (A := Unit) "t" "x"
        [⟨.clobber, fun _ => .leaf v, fun _ => false⟩, ⟨.condClobber, fun _ => .leaf w, fun _ => false⟩]) = .ok g ∧
      run fuel g () = .ok ((), d) ∧ d "x" = some .zeros := by
  obtain ⟨g, d, h1, h2, h3⟩ := mixed_reap (V := V) (A := Unit) ⟨"t", [], none, false⟩ "t" "x" (by simp [Settings.active])
    [] (by simp) ⟨.clobber, fun _ => .leaf v, fun _ => false⟩ rfl
    [⟨.condClobber, fun _ => .leaf w, fun _ => false⟩] (by simp) fuel ()
  exact ⟨g, d, h1, h2, by simpa [lastTrue] using h3⟩

/-- The same program inside a nested scope keeps the value. -/
example {V : Type} (v w : V) (fuel : Nat) :
    ∃ g d f, callAndReap ⟨"t", [], none, false⟩ (.nest "s" id (sowSeq (A := Unit) "t" "x"
        [⟨.clobber, fun _ => .leaf v, fun _ => false⟩, ⟨.condClobber, fun _ => .leaf w, fun _ => false⟩])
          (fun _ b => b)) = .ok g ∧
      run fuel g () = .ok ((), d) ∧ d "s" = some (.dict f) ∧ f "x" = some (.leaf v) := by
  obtain ⟨g, d, f, h1, h2, h3, h4⟩ := mixed_reap_nested (V := V) (A := Unit) ⟨"t", [], none, false⟩ "t" "x" "s"
    (by simp [Settings.active]) (by simp [Settings.active])
    [] (by simp) ⟨.clobber, fun _ => .leaf v, fun _ => false⟩ rfl
    [⟨.condClobber, fun _ => .leaf w, fun _ => false⟩] (by simp) fuel ()
  exact ⟨g, d, f, h1, h2, h3, by simpa [lastTrue] using h4⟩

end Verif.Harvest
