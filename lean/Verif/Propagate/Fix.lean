import Verif.Propagate.Term

/-! The final environment: least solution, whatever the order. -/
namespace Verif.Propagate

variable {C L S : Type} [SemilatticeSup C] (O : CellOps C L)

theorem le_writeAll (hO : Lawful O) (env : Env C) (as : List (Atom L)) (cs : List C) (x : Nat) :
    env x ≤ (writeAll O env as cs).1 x := by
  induction as generalizing env cs with
  | nil => cases cs <;> exact le_refl _
  | cons a as ih =>
    obtain _ | ⟨c, cs⟩ := cs
    · exact le_refl _
    · simp only [writeAll]
      refine le_trans ?_ (ih _ _)
      cases a with
      | lit v => exact le_refl _
      | drop y => exact le_refl _
      | var y =>
        by_cases hxy : x = y
        · subst hxy; simp [write, hO.join_eq]
        · simp [write, hxy]

theorem written_le_writeAll (hO : Lawful O) (env : Env C) (as : List (Atom L)) (cs : List C) (x i : Nat) (c : C)
    (h1 : as[i]? = some (Atom.var x)) (h2 : cs[i]? = some c) : c ≤ (writeAll O env as cs).1 x := by
  induction as generalizing env cs i with
  | nil => simp at h1
  | cons a as ih =>
    obtain _ | ⟨d, cs⟩ := cs
    · simp at h2
    · simp only [writeAll]
      cases i with
      | zero =>
        simp only [List.getElem?_cons_zero, Option.some.injEq] at h1 h2
        subst h1 h2
        refine le_trans ?_ (le_writeAll O hO _ _ _ _)
        simp [write, hO.join_eq]
      | succ i => exact ih _ _ i (by simpa using h1) (by simpa using h2)

theorem writeAll_le (hO : Lawful O) (env : Env C) (as : List (Atom L)) (cs : List C) (v : Env C)
    (h0 : ∀ x, env x ≤ v x)
    (h1 : ∀ (i x : Nat) (c : C), as[i]? = some (Atom.var x) → cs[i]? = some c → c ≤ v x) (x : Nat) :
    (writeAll O env as cs).1 x ≤ v x := by
  induction as generalizing env cs with
  | nil => cases cs <;> exact h0 x
  | cons a as ih =>
    obtain _ | ⟨d, cs⟩ := cs
    · exact h0 x
    · simp only [writeAll]
      apply ih
      · intro y
        cases a with
        | lit v => exact h0 y
        | drop z => exact h0 y
        | var z =>
          by_cases hyz : y = z
          · subst hyz
            simpa [write, hO.join_eq] using ⟨h0 y, h1 0 y d (by simp) (by simp)⟩
          · simpa [write, hyz] using h0 y
      · intro i y c h2 h3
        exact h1 (i + 1) y c (by simpa using h2) (by simpa using h3)

theorem le_exec (hO : Lawful O) (env : Env C) (q : Eqn C L S) (x : Nat) : env x ≤ (exec O env q).1 x :=
  le_trans (le_writeAll O hO _ _ _ _) (le_writeAll O hO _ _ _ _)

theorem exec_le (hO : Lawful O) (env : Env C) (q : Eqn C L S) (v : Env C) (h0 : ∀ x, env x ≤ v x)
    (h1 : ∀ (i x : Nat) (c : C), q.ins[i]? = some (Atom.var x) →
      (q.rule (q.ins.map (read O env)) (q.outs.map (read O env))).1[i]? = some c → c ≤ v x)
    (h2 : ∀ (i x : Nat) (c : C), q.outs[i]? = some (Atom.var x) →
      (q.rule (q.ins.map (read O env)) (q.outs.map (read O env))).2.1[i]? = some c → c ≤ v x) (x : Nat) :
    (exec O env q).1 x ≤ v x :=
  writeAll_le O hO _ _ _ v (fun y => writeAll_le O hO _ _ _ v h0 h1 y) h2 x

omit [SemilatticeSup C] in
theorem map_read_congr (as : List (Atom L)) (env env' : Env C)
    (h : ∀ x, some x ∈ as.map Atom.node → env x = env' x) : as.map (read O env) = as.map (read O env') := by
  apply List.map_congr_left
  intro a ha
  cases a with
  | lit v => rfl
  | var x => exact h x (List.mem_map.2 ⟨_, ha, rfl⟩)
  | drop x => exact h x (List.mem_map.2 ⟨_, ha, rfl⟩)

theorem map_read_mono (as : List (Atom L)) (env env' : Env C) (h : ∀ x, env x ≤ env' x) :
    List.Forall₂ (· ≤ ·) (as.map (read O env)) (as.map (read O env')) := by
  induction as with
  | nil => exact .nil
  | cons a as ih =>
    refine .cons ?_ ih
    cases a with
    | lit v => exact le_refl _
    | var x => exact h x
    | drop x => exact h x

theorem forall₂_get {α : Type} {R : α → α → Prop} {l m : List α} (h : List.Forall₂ R l m) {i : Nat} {a : α}
    (hi : l[i]? = some a) : ∃ b, m[i]? = some b ∧ R a b := by
  induction h generalizing i with
  | nil => simp at hi
  | cons hab _ ih =>
    cases i with
    | zero => simp at hi; subst hi; exact ⟨_, rfl, hab⟩
    | succ i => exact ih (by simpa using hi)

/-- A closed environment above `env` stays above after executing a monotone rule. -/
theorem exec_le_of_closed (hO : Lawful O) {q : Eqn C L S} (hm : Monotone' q) (env v : Env C)
    (h0 : ∀ x, env x ≤ v x) (hc : Closed O v q) (x : Nat) : (exec O env q).1 x ≤ v x := by
  obtain ⟨m1, m2⟩ := hm _ _ _ _ (by simp) (by simp) (map_read_mono O q.ins env v h0) (map_read_mono O q.outs env v h0)
  refine exec_le O hO env q v h0 ?_ ?_ x
  · intro i y c h1 h2
    obtain ⟨d, hd, hcd⟩ := forall₂_get m1 h2
    exact le_trans hcd (hc.1 i y d h1 hd)
  · intro i y c h1 h2
    obtain ⟨d, hd, hcd⟩ := forall₂_get m2 h2
    exact le_trans hcd (hc.2 i y d h1 hd)

omit [SemilatticeSup C] in
theorem varOf_left {q : Eqn C L S} {x : Nat} (h : some x ∈ q.ins.map Atom.node) : VarOf q x := by
  simp only [VarOf, List.map_append, List.mem_append]; exact .inl h

omit [SemilatticeSup C] in
theorem varOf_right {q : Eqn C L S} {x : Nat} (h : some x ∈ q.outs.map Atom.node) : VarOf q x := by
  simp only [VarOf, List.map_append, List.mem_append]; exact .inr h

theorem Closed.congr {env env' : Env C} {q : Eqn C L S} (h : Closed O env q)
    (he : ∀ x, VarOf q x → env x = env' x) : Closed O env' q := by
  have h1 := map_read_congr O q.ins env env' (fun x hx => he x (varOf_left hx))
  have h2 := map_read_congr O q.outs env env' (fun x hx => he x (varOf_right hx))
  refine ⟨fun i x c hi hc => ?_, fun i x c hi hc => ?_⟩
  · rw [← h1, ← h2] at hc
    rw [← he x (varOf_left (List.mem_map.2 ⟨_, List.mem_of_getElem? hi, rfl⟩))]
    exact h.1 i x c hi hc
  · rw [← h1, ← h2] at hc
    rw [← he x (varOf_right (List.mem_map.2 ⟨_, List.mem_of_getElem? hi, rfl⟩))]
    exact h.2 i x c hi hc

/-- Every variable changed by executing an equation is reported as progressed. -/
theorem changed_progressed (hO : Lawful O) {J : Jaxpr C L S} (hs : Sized J) {q : Eqn C L S} (hq : q ∈ J.eqns)
    (env : Env C) (x : Nat) (h : (exec O env q).1 x ≠ env x) :
    x ∈ progressed O (q.ins ++ q.outs) (q.ins.map (read O env) ++ q.outs.map (read O env))
        ((exec O env q).2.1 ++ (exec O env q).2.2.1) := by
  rw [mem_progressed]
  have hlt : env x < (exec O env q).1 x := lt_of_le_of_ne (le_exec O hO env q x) (fun he => h he.symm)
  obtain ⟨-, -, hl, -⟩ := hs.exec O hq env
  rcases writeAll_last O (writeAll O env q.ins
      (q.rule (q.ins.map (read O env)) (q.outs.map (read O env))).1).1 q.outs
      (q.rule (q.ins.map (read O env)) (q.outs.map (read O env))).2.1 x with h1 | ⟨i, h1, h2⟩
  · rcases writeAll_last O env q.ins
      (q.rule (q.ins.map (read O env)) (q.outs.map (read O env))).1 x with h3 | ⟨i, h3, h4⟩
    · exfalso; apply h; simp only [exec]; rw [h1, h3]
    · have hi : i < q.ins.length := (List.getElem?_eq_some_iff.1 h3).1
      refine ⟨i, .var x, env x, (exec O env q).1 x, ?_, ?_, ?_, (hO.lt_iff _ _).2 hlt, rfl⟩
      · rw [List.getElem?_append_left hi]; exact h3
      · rw [← List.map_append, List.getElem?_map, List.getElem?_append_left hi, h3]; rfl
      · rw [List.getElem?_append_left (by omega)]
        simp only [exec]; rw [h1]; exact h4
  · refine ⟨i + q.ins.length, .var x, env x, (exec O env q).1 x, ?_, ?_, ?_, (hO.lt_iff _ _).2 hlt, rfl⟩
    · rw [List.getElem?_append_right (by omega)]; simpa using h1
    · rw [← List.map_append, List.getElem?_map, List.getElem?_append_right (by omega)]; simp [h1, read]
    · rw [List.getElem?_append_right (by omega), hl]; simpa [exec] using h2

/-- Every progressed variable has strictly more information afterwards. -/
theorem progressed_changed (hO : Lawful O) {J : Jaxpr C L S} (hs : Sized J) {q : Eqn C L S} (hq : q ∈ J.eqns)
    (env : Env C) (x : Nat)
    (h : x ∈ progressed O (q.ins ++ q.outs) (q.ins.map (read O env) ++ q.outs.map (read O env))
        ((exec O env q).2.1 ++ (exec O env q).2.2.1)) : env x < (exec O env q).1 x := by
  obtain ⟨i, a, o, n, h1, h2, h3, h4, h5⟩ := (mem_progressed O).1 h
  have ho : o = env x := by
    rw [← List.map_append, List.getElem?_map, h1] at h2
    cases a with
    | lit v => simp [Atom.node] at h5
    | var y => simp [Atom.node] at h5; subst h5; simpa [read] using h2.symm
    | drop y => simp [Atom.node] at h5; subst h5; simpa [read] using h2.symm
  subst ho
  refine lt_of_lt_of_le ((hO.lt_iff _ _).1 h4) ?_
  obtain ⟨-, -, hl, -⟩ := hs.exec O hq env
  have key : ∀ (env : Env C) (as : List (Atom L)) (cs : List C) (i : Nat) (a : Atom L) (n : C),
      as[i]? = some a → a.node = some x → (writeAll O env as cs).2[i]? = some n →
      n ≤ (writeAll O env as cs).1 x := by
    intro env as cs i a n h1 h5 h3
    induction as generalizing env cs i with
    | nil => simp at h1
    | cons b as ih =>
      obtain _ | ⟨c, cs⟩ := cs
      · simp [writeAll] at h3
      · simp only [writeAll] at h3 ⊢
        cases i with
        | zero =>
          simp only [List.getElem?_cons_zero, Option.some.injEq] at h1 h3
          subst h1
          refine le_trans ?_ (le_writeAll O hO _ _ _ _)
          rw [← h3]
          cases b with
          | lit v => simp [Atom.node] at h5
          | var y => simp [Atom.node] at h5; subst h5; simp [write]
          | drop y => simp [Atom.node] at h5; subst h5; simp [write]
        | succ i => exact ih _ _ i (by simpa using h1) (by simpa using h3)
  rw [List.getElem?_append] at h1 h3
  rw [hl] at h3
  split at h1
  · rename_i hi
    rw [if_pos hi] at h3
    exact le_trans (key _ _ _ _ _ _ h1 h5 h3) (le_writeAll O hO _ _ _ _)
  · rename_i hi
    rw [if_neg hi] at h3
    exact key _ _ _ _ _ _ h1 h5 h3

/-! ### Invariants of a run from `s0` -/

/-- The invariant of the loop. -/
structure Inv (J : Jaxpr C L S) (s0 s : St C S) : Prop where
  above : ∀ x, s0.env x ≤ s.env x
  /-- an equation outside the queue is closed, or it was never woken up -/
  closed : ∀ (e : Nat) (q : Eqn C L S), J.eqns[e]? = some q → e ∈ s.queue ∨ Closed O s.env q ∨
    (e ∉ s0.queue ∧ ∀ x, VarOf q x → s.env x = s0.env x)
  /-- an equation in the queue was there initially or was woken up by a changed variable -/
  woken : ∀ (e : Nat) (q : Eqn C L S), J.eqns[e]? = some q → e ∈ s.queue → e ∈ s0.queue ∨
    ∃ x, VarOf q x ∧ s.env x ≠ s0.env x

theorem Inv.step (hO : Lawful O) {J : Jaxpr C L S} (hs : Sized J) (hi : ∀ q ∈ J.eqns, Idem O q)
    {s0 s t : St C S} (h : Inv O J s0 s) (hst : Step O J s t) : Inv O J s0 t := by
  cases hst with
  | mk e rest q q' hq he hp =>
    have hqm : q ∈ J.eqns := List.mem_of_getElem? he
    have hab : ∀ x, s0.env x ≤ (exec O s.env q).1 x := fun x => le_trans (h.above x) (le_exec O hO _ _ _)
    refine ⟨hab, ?_, ?_⟩
    · intro e' p hp'
      by_cases hee : e' = e
      · subst hee
        obtain rfl : p = q := by rw [he] at hp'; exact (Option.some.inj hp').symm
        exact .inr (.inl (hi _ hqm s.env))
      · by_cases hch : ∃ x, VarOf p x ∧ (exec O s.env q).1 x ≠ s.env x
        · obtain ⟨x, hx, hne⟩ := hch
          exact .inl ((hp.mem e').2 (.inr ⟨hee, x, changed_progressed O hO hs hqm _ _ hne, p, hp', hx⟩))
        · have hsame : ∀ x, VarOf p x → s.env x = (exec O s.env q).1 x := by
            intro x hx
            by_contra hne
            exact hch ⟨x, hx, fun hh => hne hh.symm⟩
          rcases h.closed e' p hp' with h1 | h1 | ⟨h1, h2⟩
          · left
            rw [hq] at h1
            rcases List.mem_cons.1 h1 with h1 | h1
            · exact absurd h1 hee
            · exact (hp.mem e').2 (.inl h1)
          · exact .inr (.inl (h1.congr O hsame))
          · exact .inr (.inr ⟨h1, fun x hx => by rw [← h2 x hx]; exact (hsame x hx).symm⟩)
    · intro e' p hp' hmem
      rcases (hp.mem e').1 hmem with h1 | ⟨-, x, hx, hn⟩
      · rcases h.woken e' p hp' (by rw [hq]; exact List.mem_cons_of_mem _ h1) with h2 | ⟨x, hx, hne⟩
        · exact .inl h2
        · refine .inr ⟨x, hx, fun heq => hne ?_⟩
          exact le_antisymm (by rw [← heq]; exact le_exec O hO _ _ _) (h.above x)
      · obtain ⟨p2, hp2, hx2⟩ := hn
        obtain rfl : p2 = p := by rw [hp2] at hp'; exact Option.some.inj hp'
        refine .inr ⟨x, hx2, ?_⟩
        have := progressed_changed O hO hs hqm s.env x hx
        exact ne_of_gt (lt_of_le_of_lt (h.above x) this)

theorem Inv.init (J : Jaxpr C L S) (s0 : St C S) : Inv O J s0 s0 := by
  refine ⟨fun x => le_refl _, fun e q _ => ?_, fun e q _ h => .inl h⟩
  by_cases h : e ∈ s0.queue
  · exact .inl h
  · exact .inr (.inr ⟨h, fun x _ => rfl⟩)

theorem Inv.steps (hO : Lawful O) {J : Jaxpr C L S} (hs : Sized J) (hi : ∀ q ∈ J.eqns, Idem O q)
    {s0 s : St C S} (h : Steps O J s0 s) : Inv O J s0 s := by
  induction h with
  | refl => exact Inv.init O J s0
  | tail t u _ hst ih => exact ih.step O hO hs hi hst

/-- When the loop stops the environment is a solution. -/
theorem Inv.solution {J : Jaxpr C L S} {s0 s : St C S} (h : Inv O J s0 s) (hq : s.queue = []) :
    s.env ∈ Solutions O J s0.env s0.queue := by
  refine ⟨h.above, fun e q he hor => ?_⟩
  rcases h.closed e q he with h1 | h1 | ⟨h1, h2⟩
  · rw [hq] at h1; simp at h1
  · exact h1
  · rcases hor with h3 | ⟨x, hx, hne⟩
    · exact absurd h3 h1
    · exact absurd (h2 x hx) hne

/-- During the loop the environment is below every solution. -/
theorem Steps.env_le (hO : Lawful O) {J : Jaxpr C L S} (hs : Sized J) (hi : ∀ q ∈ J.eqns, Idem O q)
    (hm : ∀ q ∈ J.eqns, Monotone' q) {s0 s : St C S} (h : Steps O J s0 s) {v : Env C}
    (hv : v ∈ Solutions O J s0.env s0.queue) (x : Nat) : s.env x ≤ v x := by
  induction h generalizing x with
  | refl => exact hv.1 x
  | tail s t h hst ih =>
    have hinv := Inv.steps O hO hs hi h
    cases hst with
    | mk e rest q q' hq he hp =>
      have hqm : q ∈ J.eqns := List.mem_of_getElem? he
      refine exec_le_of_closed O hO (hm q hqm) _ _ ih ?_ x
      apply hv.2 e q he
      rcases hinv.woken e q he (by rw [hq]; simp) with h1 | ⟨y, hy, hne⟩
      · exact .inl h1
      · refine .inr ⟨y, hy, fun heq => hne ?_⟩
        exact le_antisymm (by rw [← heq]; exact ih y) (hinv.above y)

end Verif.Propagate
