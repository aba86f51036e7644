import Verif.Propagate.Lemmas
import Mathlib.Data.List.Perm.Subperm

/-! Termination of the worklist loop. -/
namespace Verif.Propagate

variable {C L S : Type} (O : CellOps C L)

/-- The nodes of a jaxpr's equations, with repetitions. -/
def nodes (J : Jaxpr C L S) : List Nat := (J.eqns.flatMap (fun q => q.ins ++ q.outs)).filterMap Atom.node

theorem mem_nodes {J : Jaxpr C L S} {q : Eqn C L S} (hq : q ∈ J.eqns) {x : Nat} (h : VarOf q x) :
    x ∈ nodes J := by
  simp only [VarOf, List.mem_map] at h
  obtain ⟨a, ha, hx⟩ := h
  exact List.mem_filterMap.2 ⟨a, List.mem_flatMap.2 ⟨q, hq, ha⟩, hx⟩

/-- Total remaining rank. -/
def total (rank : C → Nat) (J : Jaxpr C L S) (env : Env C) : Nat := ((nodes J).map (fun x => rank (env x))).sum

theorem sum_lt_of {l : List Nat} {f g : Nat → Nat} (hle : ∀ x, f x ≤ g x) {y : Nat} (hy : y ∈ l) (hlt : f y < g y) :
    (l.map f).sum < (l.map g).sum := by
  have hle' : ∀ l : List Nat, (l.map f).sum ≤ (l.map g).sum := by
    intro l
    induction l with
    | nil => simp
    | cons a l ih => simp only [List.map_cons, List.sum_cons]; have := hle a; omega
  induction l with
  | nil => simp at hy
  | cons a l ih =>
    simp only [List.map_cons, List.sum_cons]
    rcases List.mem_cons.1 hy with rfl | h
    · have := hle' l; omega
    · have := ih h; have := hle a; omega

theorem sum_le_of {l : List Nat} {f g : Nat → Nat} (hle : ∀ x, f x ≤ g x) :
    (l.map f).sum ≤ (l.map g).sum := by
  induction l with
  | nil => simp
  | cons a l ih => simp only [List.map_cons, List.sum_cons]; have := hle a; omega

variable (rank : C → Nat) (hj : ∀ a b, rank (O.join a b) ≤ rank a)
  (hlt : ∀ a b, O.lt a b = true → rank b < rank a)

include hj in
theorem exec_rank (env : Env C) (q : Eqn C L S) (x : Nat) : rank ((exec O env q).1 x) ≤ rank (env x) :=
  Nat.le_trans (writeAll_rank O rank hj _ _ _ _) (writeAll_rank O rank hj _ _ _ _)

include hj hlt in
theorem progressed_rank {J : Jaxpr C L S} (hs : Sized J) {q : Eqn C L S} (hq : q ∈ J.eqns) (env : Env C)
    {x : Nat} (h : x ∈ progressed O (q.ins ++ q.outs) (q.ins.map (read O env) ++ q.outs.map (read O env))
        ((exec O env q).2.1 ++ (exec O env q).2.2.1)) :
    VarOf q x ∧ rank ((exec O env q).1 x) < rank (env x) := by
  obtain ⟨i, a, o, n, h1, h2, h3, h4, h5⟩ := (mem_progressed O).1 h
  refine ⟨List.mem_map.2 ⟨a, List.mem_of_getElem? h1, h5⟩, ?_⟩
  have ho : o = env x := by
    rw [← List.map_append, List.getElem?_map, h1] at h2
    cases a with
    | lit v => simp [Atom.node] at h5
    | var y => simp [Atom.node] at h5; subst h5; simpa [read] using h2.symm
    | drop y => simp [Atom.node] at h5; subst h5; simpa [read] using h2.symm
  subst ho
  refine Nat.lt_of_le_of_lt ?_ (hlt _ _ h4)
  obtain ⟨-, -, hl, -⟩ := hs.exec O hq env
  have key : ∀ (env : Env C) (as : List (Atom L)) (cs : List C) (i : Nat) (a : Atom L) (n : C),
      as[i]? = some a → a.node = some x → (writeAll O env as cs).2[i]? = some n →
      rank ((writeAll O env as cs).1 x) ≤ rank n := by
    intro env as cs i a n h1 h5 h3
    induction as generalizing env cs i with
    | nil => simp at h1
    | cons b as ih =>
      obtain _ | ⟨c, cs⟩ := cs
      · simp [writeAll] at h3
      · simp only [writeAll] at h3 ⊢
        cases i with
        | zero =>
          simp only [List.getElem?_cons_zero, Option.some.injEq] at h1 h3
          subst h1
          refine Nat.le_trans (writeAll_rank O rank hj _ _ _ _) ?_
          rw [← h3]
          cases b with
          | lit v => simp [Atom.node] at h5
          | var y => simp [Atom.node] at h5; subst h5; simp [write]
          | drop y => simp [Atom.node] at h5; subst h5; simp [write]
        | succ i => exact ih _ _ i (by simpa using h1) (by simpa using h3)
  rw [List.getElem?_append] at h1 h3
  rw [hl] at h3
  split at h1
  · rename_i hi
    rw [if_pos hi] at h3
    exact Nat.le_trans (writeAll_rank O rank hj _ _ _ _) (key _ _ _ _ _ _ h1 h5 h3)
  · rename_i hi
    rw [if_neg hi] at h3
    exact key _ _ _ _ _ _ h1 h5 h3

/-- The queue stays valid. -/
theorem Step.valid {J : Jaxpr C L S} {s t : St C S} (h : Step O J s t) (hv : ValidQueue J s.queue) :
    ValidQueue J t.queue := by
  cases h with
  | mk e rest q q' hq he hp =>
    rw [hq] at hv
    refine ⟨hp.nodup (List.nodup_cons.1 hv.1).2, fun e' he' => ?_⟩
    rcases (hp.mem e').1 he' with h | ⟨-, x, -, q2, h2, -⟩
    · exact hv.2 _ (List.mem_cons_of_mem _ h)
    · exact (List.getElem?_eq_some_iff.1 h2).1

/-- The potential: what the loop can still do. -/
def potential (J : Jaxpr C L S) (s : St C S) : Nat := s.queue.length + J.eqns.length * total rank J s.env

theorem valid_length {J : Jaxpr C L S} {q : List Nat} (h : ValidQueue J q) : q.length ≤ J.eqns.length := by
  have := (List.subperm_of_subset h.1 (l₂ := List.range J.eqns.length)
    (fun e he => List.mem_range.2 (h.2 e he))).length_le
  simpa using this

include hj hlt in
theorem Step.potential_lt {J : Jaxpr C L S} (hs : Sized J) {s t : St C S} (h : Step O J s t)
    (hv : ValidQueue J s.queue) : potential rank J t < potential rank J s := by
  have hv' := h.valid O hv
  have hn := valid_length hv'
  cases h with
  | mk e rest q q' hq he hp =>
    have hqm : q ∈ J.eqns := List.mem_of_getElem? he
    simp only [potential] at hn ⊢
    have hle : ∀ x, rank ((exec O s.env q).1 x) ≤ rank (s.env x) := exec_rank O rank hj s.env q
    rcases hpr : progressed O (q.ins ++ q.outs) (q.ins.map (read O s.env) ++ q.outs.map (read O s.env))
        ((exec O s.env q).2.1 ++ (exec O s.env q).2.2.1) with _ | ⟨x, xs⟩
    · rw [hpr] at hp
      cases hp
      rw [hq]
      have := sum_le_of (l := nodes J) hle
      have := Nat.mul_le_mul_left J.eqns.length this
      simp only [List.length_cons, total]
      omega
    · obtain ⟨h1, h2⟩ := progressed_rank O rank hj hlt hs hqm s.env (x := x) (by rw [hpr]; simp)
      have h3 := sum_lt_of (l := nodes J) hle (mem_nodes hqm h1) h2
      have h4 := Nat.mul_le_mul_left J.eqns.length (Nat.succ_le_of_lt h3)
      rw [Nat.mul_succ] at h4
      have h5 : s.queue.length ≥ 1 := by rw [hq]; simp
      simp only [total]
      omega

/-- With work left there is a next step. -/
theorem step_exists {J : Jaxpr C L S} (s : St C S) (hv : ValidQueue J s.queue) (hne : s.queue ≠ []) :
    ∃ t, Step O J s t := by
  rcases hq : s.queue with _ | ⟨e, rest⟩
  · exact absurd hq hne
  · have he : e < J.eqns.length := hv.2 e (by rw [hq]; simp)
    obtain ⟨q', h⟩ := Pushes.exists J e (progressed O (J.eqns[e].ins ++ J.eqns[e].outs)
        (J.eqns[e].ins.map (read O s.env) ++ J.eqns[e].outs.map (read O s.env))
        ((exec O s.env J.eqns[e]).2.1 ++ (exec O s.env J.eqns[e]).2.2.1)) rest
    exact ⟨_, .mk s e rest J.eqns[e] q' hq (List.getElem?_eq_getElem he) h⟩

theorem InitQueue.valid {J : Jaxpr C L S} {q : List Nat} (h : InitQueue J q) : ValidQueue J q := by
  refine ⟨h.1, fun e he => ?_⟩
  obtain ⟨x, -, q2, h2, -⟩ := (h.2 e).1 he
  exact (List.getElem?_eq_some_iff.1 h2).1

end Verif.Propagate
