import Verif.Propagate.Spec
import Mathlib.Data.List.Basic
import Mathlib.Order.WellFounded

namespace Verif.Propagate

variable {C L S : Type} (O : CellOps C L)

theorem writeAll_len (env : Env C) (as : List (Atom L)) (cs : List C) (h : cs.length = as.length) :
    (writeAll O env as cs).2.length = as.length := by
  induction as generalizing env cs with
  | nil => cases cs <;> simp [writeAll] at *
  | cons a as ih =>
    obtain _ | ⟨c, cs⟩ := cs
    · simp at h
    · simp only [writeAll, List.length_cons]
      rw [ih _ _ (by simpa using h)]

/-- After writing, a variable either kept its cell or holds the cell returned by one of the writes. -/
theorem writeAll_last (env : Env C) (as : List (Atom L)) (cs : List C) (x : Nat) :
    (writeAll O env as cs).1 x = env x ∨
    ∃ i : Nat, as[i]? = some (Atom.var x) ∧ (writeAll O env as cs).2[i]? = some ((writeAll O env as cs).1 x) := by
  induction as generalizing env cs with
  | nil => left; cases cs <;> rfl
  | cons a as ih =>
    obtain _ | ⟨c, cs⟩ := cs
    · left; rfl
    · simp only [writeAll]
      rcases ih (write O env a c).1 cs with h | ⟨i, h1, h2⟩
      · rw [h]
        cases a with
        | lit v => left; rfl
        | drop y => left; rfl
        | var y =>
          by_cases hxy : x = y
          · subst hxy
            right
            exact ⟨0, rfl, by simp [write]⟩
          · left; simp [write, hxy]
      · right; exact ⟨i + 1, by simpa using h1, by simpa using h2⟩

/-- Variables that are not written keep their cell. -/
theorem writeAll_frame (env : Env C) (as : List (Atom L)) (cs : List C) (x : Nat)
    (h : some x ∉ as.map Atom.node) : (writeAll O env as cs).1 x = env x := by
  rcases writeAll_last O env as cs x with h' | ⟨i, h1, -⟩
  · exact h'
  · exfalso; apply h
    have := List.mem_of_getElem? h1
    exact List.mem_map.2 ⟨_, this, rfl⟩

/-- The measure used for termination never grows when writing. -/
theorem writeAll_rank (rank : C → Nat) (hj : ∀ a b, rank (O.join a b) ≤ rank a) (env : Env C)
    (as : List (Atom L)) (cs : List C) (x : Nat) : rank ((writeAll O env as cs).1 x) ≤ rank (env x) := by
  induction as generalizing env cs with
  | nil => cases cs <;> exact Nat.le_refl _
  | cons a as ih =>
    obtain _ | ⟨c, cs⟩ := cs
    · exact Nat.le_refl _
    · simp only [writeAll]
      refine Nat.le_trans (ih _ _) ?_
      cases a with
      | lit v => exact Nat.le_refl _
      | drop y => exact Nat.le_refl _
      | var y =>
        by_cases hxy : x = y
        · subst hxy; simpa [write] using hj _ _
        · simp [write, hxy]

/-- A cell returned by a write to `x` is at least as high as the final one. -/
theorem writeAll_rank_ret (rank : C → Nat) (hj : ∀ a b, rank (O.join a b) ≤ rank a) (env : Env C)
    (as : List (Atom L)) (cs : List C) (x : Nat) (i : Nat) (n : C) (h1 : as[i]? = some (Atom.var x))
    (h2 : (writeAll O env as cs).2[i]? = some n) : rank ((writeAll O env as cs).1 x) ≤ rank n := by
  induction as generalizing env cs i with
  | nil => simp at h1
  | cons a as ih =>
    obtain _ | ⟨c, cs⟩ := cs
    · simp [writeAll] at h2
    · simp only [writeAll] at h2 ⊢
      cases i with
      | zero =>
        simp only [List.getElem?_cons_zero, Option.some.injEq] at h1 h2
        subst h1
        refine Nat.le_trans (writeAll_rank O rank hj _ _ _ _) ?_
        rw [← h2]; simp [write]
      | succ i => exact ih _ _ i (by simpa using h1) (by simpa using h2)

/-- A cell returned for a dropped variable is its current cell. -/
theorem writeAll_drop (env : Env C) (as : List (Atom L)) (cs : List C) (x : Nat) (i : Nat) (n : C)
    (h1 : as[i]? = some (Atom.drop x)) (h2 : (writeAll O env as cs).2[i]? = some n) :
    ∃ j ≤ i, n = (writeAll O env (as.take j) cs).1 x := by
  induction as generalizing env cs i with
  | nil => simp at h1
  | cons a as ih =>
    obtain _ | ⟨c, cs⟩ := cs
    · simp [writeAll] at h2
    · simp only [writeAll] at h2
      cases i with
      | zero =>
        simp only [List.getElem?_cons_zero, Option.some.injEq] at h1 h2
        subst h1
        exact ⟨0, Nat.le_refl _, by simp [write] at h2; simp [writeAll, h2]⟩
      | succ i =>
        obtain ⟨j, hj, hn⟩ := ih (write O env a c).1 cs i (by simpa using h1) (by simpa using h2)
        exact ⟨j + 1, by omega, by simpa [writeAll] using hn⟩

/-! ### The queue -/

theorem Pushes.mem {J : Jaxpr C L S} {cur : Nat} {xs q q' : List Nat} (h : Pushes J cur xs q q') (e : Nat) :
    e ∈ q' ↔ e ∈ q ∨ (e ≠ cur ∧ ∃ x ∈ xs, Nbr J x e) := by
  induction h with
  | nil q => simp
  | cons x xs q ns q' hnd hns ht ih =>
    rw [ih, List.mem_append, hns]
    constructor
    · rintro ((⟨h1, h2, h3⟩ | h) | ⟨h1, x', h2, h3⟩)
      · exact .inr ⟨h3, x, by simp, h1⟩
      · exact .inl h
      · exact .inr ⟨h1, x', by simp [h2], h3⟩
    · rintro (h | ⟨h1, x', h2, h3⟩)
      · exact .inl (.inr h)
      · rcases List.mem_cons.1 h2 with rfl | h2
        · by_cases hq : e ∈ q
          · exact .inl (.inr hq)
          · exact .inl (.inl ⟨h3, hq, h1⟩)
        · exact .inr ⟨h1, x', h2, h3⟩

theorem Pushes.nodup {J : Jaxpr C L S} {cur : Nat} {xs q q' : List Nat} (h : Pushes J cur xs q q')
    (hq : q.Nodup) : q'.Nodup := by
  induction h with
  | nil q => exact hq
  | cons x xs q ns q' hnd hns ht ih =>
    apply ih
    rw [List.nodup_append]
    refine ⟨hnd, hq, ?_⟩
    rintro a ha b hb rfl
    exact ((hns a).1 ha).2.1 hb

open Classical in
/-- Some choice of the order always exists. -/
theorem Pushes.exists (J : Jaxpr C L S) (cur : Nat) (xs q : List Nat) : ∃ q', Pushes J cur xs q q' := by
  induction xs generalizing q with
  | nil => exact ⟨q, .nil q⟩
  | cons x xs ih =>
    obtain ⟨q', h⟩ := ih ((List.range J.eqns.length).filter (fun e => Nbr J x e ∧ e ∉ q ∧ e ≠ cur) ++ q)
    refine ⟨q', .cons x xs q _ q' (List.nodup_range.filter _) ?_ h⟩
    intro e
    simp only [List.mem_filter, List.mem_range, decide_eq_true_eq, and_iff_right_iff_imp]
    rintro ⟨⟨eq, he, -⟩, -⟩
    exact (List.getElem?_eq_some_iff.1 he).1

theorem mem_progressed {atoms : List (Atom L)} {old new : List C} {x : Nat} :
    x ∈ progressed O atoms old new ↔ ∃ (i : Nat) (a : Atom L) (o n : C), atoms[i]? = some a ∧ old[i]? = some o ∧
      new[i]? = some n ∧ O.lt o n = true ∧ a.node = some x := by
  simp only [progressed, List.mem_filterMap, List.mem_filter]
  constructor
  · rintro ⟨⟨a, o, n⟩, ⟨hm, hlt⟩, hn⟩
    obtain ⟨i, hi⟩ := List.mem_iff_getElem?.1 hm
    rw [List.getElem?_zip_eq_some, List.getElem?_zip_eq_some] at hi
    exact ⟨i, a, o, n, hi.1, hi.2.1, hi.2.2, hlt, hn⟩
  · rintro ⟨i, a, o, n, h1, h2, h3, h4, h5⟩
    refine ⟨(a, o, n), ⟨?_, h4⟩, h5⟩
    apply List.mem_iff_getElem?.2
    exact ⟨i, by rw [List.getElem?_zip_eq_some, List.getElem?_zip_eq_some]; exact ⟨h1, h2, h3⟩⟩

theorem Sized.exec {J : Jaxpr C L S} (h : Sized J) {q : Eqn C L S} (hq : q ∈ J.eqns) (env : Env C) :
    (q.rule (q.ins.map (read O env)) (q.outs.map (read O env))).1.length = q.ins.length ∧
    (q.rule (q.ins.map (read O env)) (q.outs.map (read O env))).2.1.length = q.outs.length ∧
    (Propagate.exec O env q).2.1.length = q.ins.length ∧ (Propagate.exec O env q).2.2.1.length = q.outs.length := by
  obtain ⟨h1, h2⟩ := h q hq (q.ins.map (read O env)) (q.outs.map (read O env)) (by simp) (by simp)
  exact ⟨h1, h2, writeAll_len O _ _ _ h1, writeAll_len O _ _ _ h2⟩

/-- Executing an equation only changes its own variables. -/
theorem exec_frame (env : Env C) (q : Eqn C L S) (x : Nat) (h : some x ∉ (q.ins ++ q.outs).map Atom.node) :
    (exec O env q).1 x = env x := by
  simp only [List.map_append, List.mem_append, not_or] at h
  simp only [exec]
  rw [writeAll_frame O _ _ _ _ h.2, writeAll_frame O _ _ _ _ h.1]

/-- Position `i` of the atoms of an equation. -/
theorem getElem?_append_cases {α : Type} {l r : List α} {i : Nat} {a : α} (h : (l ++ r)[i]? = some a) :
    (i < l.length ∧ l[i]? = some a) ∨ (l.length ≤ i ∧ r[i - l.length]? = some a) := by
  rw [List.getElem?_append] at h
  split at h
  · exact .inl ⟨by assumption, h⟩
  · exact .inr ⟨by omega, h⟩

end Verif.Propagate
