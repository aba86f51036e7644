import Verif.Propagate.Nested

/-!
Concrete instances: the hypotheses of the C24/C25 theorems hold for a non-trivial graph; and the order matters
when an equation uses a variable twice, because the current equation is not put back in the queue
(propagate.py:226).
-/
namespace Verif.Propagate

/-- Known / unknown cells. -/
def boolOps : CellOps Bool Nat := ⟨fun a b => !a && b, fun a b => a || b, fun _ => false, fun _ => true⟩

theorem boolOps_lawful : Lawful boolOps := ⟨fun a b => rfl, fun a b => by cases a <;> cases b <;> decide⟩

/-- The rank of known / unknown. -/
def boolRank (b : Bool) : Nat := if b then 0 else 1

theorem boolRank_join (a b : Bool) : boolRank (boolOps.join a b) ≤ boolRank a := by
  cases a <;> cases b <;> decide

theorem boolRank_lt (a b : Bool) (h : boolOps.lt a b = true) : boolRank b < boolRank a := by
  revert h; cases a <;> cases b <;> decide

/-- An invertible unary primitive: knowledge flows both ways. -/
def unaryRule : List Bool → List Bool → List Bool × List Bool × Nat
  | [a], [b] => ([a || b], [a || b], 1)
  | i, o => (i, o, 0)

/-- `x1 = f x0; x2 = g x1; x3 = h x2`, with `x0` the input and `x3` the output. -/
def chain : Jaxpr Bool Nat Nat :=
  ⟨[], [.var 0], [.var 3], [⟨[.var 0], [.var 1], unaryRule⟩, ⟨[.var 1], [.var 2], unaryRule⟩,
    ⟨[.var 2], [.var 3], unaryRule⟩]⟩

theorem list_len1 {α : Type} {l : List α} (h : l.length = 1) : ∃ a, l = [a] := List.length_eq_one_iff.1 h

theorem chain_sized : Sized chain := by
  intro q hq i o hi ho
  simp only [chain, List.mem_cons, List.not_mem_nil, or_false] at hq
  rcases hq with rfl | rfl | rfl <;> simp only [List.length_cons, List.length_nil] at hi ho ⊢ <;>
    obtain ⟨a, rfl⟩ := list_len1 hi <;> obtain ⟨b, rfl⟩ := list_len1 ho <;> simp [unaryRule]

theorem unary_monotone (x y : Nat) : Monotone' (⟨[.var x], [.var y], unaryRule⟩ : Eqn Bool Nat Nat) := by
  intro i i' o o' hi ho h1 h2
  obtain ⟨a, rfl⟩ := list_len1 hi
  obtain ⟨b, rfl⟩ := list_len1 ho
  obtain ⟨a', rfl⟩ := list_len1 h1.length_eq.symm
  obtain ⟨b', rfl⟩ := list_len1 h2.length_eq.symm
  simp only [List.forall₂_cons, List.forall₂_nil_right_iff, and_true] at h1 h2
  simp only [unaryRule, List.forall₂_cons, List.forall₂_nil_right_iff, and_true, and_self]
  revert h1 h2
  cases a <;> cases b <;> cases a' <;> cases b' <;> decide

theorem unary_idem (x y : Nat) (h : x ≠ y) : Idem boolOps (⟨[.var x], [.var y], unaryRule⟩ : Eqn Bool Nat Nat) := by
  apply idem_of_rule_idem boolOps boolOps_lawful [x] [y] (by simpa using h)
  · intro i o hi ho
    obtain ⟨a, rfl⟩ := list_len1 hi
    obtain ⟨b, rfl⟩ := list_len1 ho
    simp [unaryRule]
  · intro i o hi ho
    obtain ⟨a, rfl⟩ := list_len1 hi
    obtain ⟨b, rfl⟩ := list_len1 ho
    cases a <;> cases b <;> simp [unaryRule]

theorem chain_idem : ∀ q ∈ chain.eqns, Idem boolOps q := by
  intro q hq
  simp only [chain, List.mem_cons, List.not_mem_nil, or_false] at hq
  rcases hq with rfl | rfl | rfl <;> exact unary_idem _ _ (by decide)

theorem chain_monotone : ∀ q ∈ chain.eqns, Monotone' q := by
  intro q hq
  simp only [chain, List.mem_cons, List.not_mem_nil, or_false] at hq
  rcases hq with rfl | rfl | rfl <;> exact unary_monotone _ _

/-- A start of the loop. -/
def chainStart (o : Bool) : St Bool Nat := ⟨initEnv boolOps chain [] [false] [o], [2, 0], fun _ => none⟩

theorem chain_init (o : Bool) : Init boolOps chain [] [false] [o] (chainStart o) := by
  refine ⟨rfl, ⟨by simp [chainStart], fun e => ?_⟩, fun _ => rfl⟩
  rcases e with _ | _ | _ | e <;> simp [chainStart, chain, Nbr, Atom.node]

/-- The hypotheses of `propagate_completes` and `propagate_least` hold for this graph: it has complete runs,
and every one of them inverts the whole chain, that is makes the input known from the output. -/
example (o : Bool) : ∃ t, Steps boolOps chain (chainStart o) t ∧ t.queue = [] :=
  propagate_completes boolOps chain chain_sized boolRank boolRank_join boolRank_lt [] [false] [o] _ _
    (chain_init o) (.refl _)

theorem chain_inverted (t : St Bool Nat) (h : Steps boolOps chain (chainStart true) t) (hq : t.queue = []) :
    t.env 0 = true := by
  obtain ⟨hab, hcl⟩ := (propagate_least boolOps boolOps_lawful chain chain_sized chain_idem chain_monotone _ _ h hq).1
  have h3 : t.env 3 = true := by
    have := hab 3
    have h4 : (chainStart true).env 3 = true := by decide
    rw [h4] at this
    revert this; cases t.env 3 <;> decide
  have e2 : t.env 2 = true := by
    have h := (hcl 2 ⟨[.var 2], [.var 3], unaryRule⟩ rfl (.inl (by decide))).1 0 2 (t.env 2 || t.env 3) rfl rfl
    rw [h3] at h
    revert h; cases t.env 2 <;> decide
  have e1 : t.env 1 = true := by
    have hwake : t.env 2 ≠ (chainStart true).env 2 := by rw [e2]; decide
    have h := (hcl 1 ⟨[.var 1], [.var 2], unaryRule⟩ rfl (.inr ⟨2, by simp [VarOf, Atom.node], hwake⟩)).1 0 1
      (t.env 1 || t.env 2) rfl rfl
    rw [e2] at h
    revert h; cases t.env 1 <;> decide
  have h := (hcl 0 ⟨[.var 0], [.var 1], unaryRule⟩ rfl (.inl (by decide))).1 0 0 (t.env 0 || t.env 1) rfl rfl
  rw [e1] at h
  revert h; cases t.env 0 <;> decide

/-- Soundness instance: with nothing known about the output nothing becomes known. -/
example (t : St Bool Nat) (h : Steps boolOps chain (chainStart false) t) (x : Nat) : t.env x = false := by
  apply propagate_sound boolOps chain (fun _ c => c = false) (fun _ _ => True) _ [] [false] [false] _ _ _ _ _
    (chain_init false) h
  · refine ⟨?_, fun _ => rfl, fun _ => trivial, ?_⟩
    · intro _ a b ha hb; subst ha hb; rfl
    · intro q hq i o hi ho
      simp only [chain, List.mem_cons, List.not_mem_nil, or_false] at hq
      rcases hq with rfl | rfl | rfl <;>
      · obtain ⟨a, rfl⟩ := list_len1 hi.length_eq.symm
        obtain ⟨b, rfl⟩ := list_len1 ho.length_eq.symm
        simp only [List.forall₂_cons, List.forall₂_nil_right_iff, and_true] at hi ho
        subst hi ho
        refine ⟨?_, ?_⟩ <;> rintro (_ | k) x c h1 h2 <;> simp [unaryRule] at h1 h2 <;> exact h2
  · intro k x c h1; simp [chain] at h1
  · rintro (_ | k) x c h1 h2 <;> simp [chain] at h1 h2; exact h2
  · rintro (_ | k) x c h1 h2 <;> simp [chain] at h1 h2; exact h2

/-! ### A repeated variable makes the order matter -/

/-- `y, z = p x x d` where `z` is known from the first argument and the second argument from `y`. -/
def twiceRule : List Bool → List Bool → List Bool × List Bool × Nat
  | [a, b, d], [y, z] => ([a, b || y, d], [y, z || a], 1)
  | i, o => (i, o, 0)

/-- `d = f u; y, z = p x x d` (variables `u,d,x,y,z = 0..4`), inputs `u, x`, outputs `y, z`. -/
def twice : Jaxpr Bool Nat Nat :=
  ⟨[], [.var 0, .var 2], [.var 3, .var 4],
    [⟨[.var 2, .var 2, .var 1], [.var 3, .var 4], twiceRule⟩, ⟨[.var 0], [.var 1], unaryRule⟩]⟩

/-- The equation at fault: its rule is idempotent on separate cells, but not in an environment where the two
arguments are the same variable. -/
theorem repeated_variable_not_idem :
    RuleIdem 3 2 twiceRule ∧
    ¬ Idem boolOps (⟨[.var 2, .var 2, .var 1], [.var 3, .var 4], twiceRule⟩ : Eqn Bool Nat Nat) := by
  refine ⟨?_, fun h => ?_⟩
  · intro i o hi ho
    obtain ⟨a, b, d, rfl⟩ := List.length_eq_three.1 hi
    obtain ⟨y, z, rfl⟩ := List.length_eq_two.1 ho
    cases a <;> cases b <;> cases d <;> cases y <;> cases z <;> simp [twiceRule]
  · have := (h (fun x => decide (x = 3))).2 1 4 true rfl rfl
    revert this; decide

/-- The start with the queue in a given order; `u` and `y` are known. -/
def twiceStart (q : List Nat) : St Bool Nat :=
  ⟨initEnv boolOps twice [] [true, false] [true, false], q, fun _ => none⟩

theorem nbr_twice (x e : Nat) : Nbr twice x e ↔
    (e = 0 ∧ (x = 2 ∨ x = 1 ∨ x = 3 ∨ x = 4)) ∨ (e = 1 ∧ (x = 0 ∨ x = 1)) := by
  rcases e with _ | _ | e <;> simp [Nbr, twice, Atom.node] <;> tauto

theorem twice_init (q : List Nat) (hq : q = [0, 1] ∨ q = [1, 0]) :
    Init boolOps twice [] [true, false] [true, false] (twiceStart q) := by
  refine ⟨rfl, ⟨by rcases hq with rfl | rfl <;> decide, fun e => ?_⟩, fun _ => rfl⟩
  simp only [nbr_twice]
  have : e ∈ (twiceStart q).queue ↔ e = 0 ∨ e = 1 := by
    rcases hq with rfl | rfl <;> simp [twiceStart]; tauto
  rw [this]
  constructor
  · rintro (rfl | rfl)
    · exact ⟨2, by decide, .inl ⟨rfl, .inl rfl⟩⟩
    · exact ⟨0, by decide, .inr ⟨rfl, .inl rfl⟩⟩
  · rintro ⟨x, -, ⟨h, -⟩ | ⟨h, -⟩⟩
    · exact .inl h
    · exact .inr h

theorem pushes_nil (cur x : Nat) (q : List Nat) (h : ∀ e, Nbr twice x e → e ∈ q ∨ e = cur) :
    Pushes twice cur [x] q q := by
  refine .cons x [] q [] q .nil ?_ (.nil q)
  intro e
  simp only [List.not_mem_nil, false_iff, not_and, not_not]
  intro hn hq
  rcases h e hn with h | h
  · exact absurd h hq
  · exact h

/-- Without idempotence in the environment the conclusion of `propagate_order_independent` is false of the
code: with a variable used twice by one equation, two orders of the initial queue give different results. -/
theorem order_matters_with_repeated_variable :
    ∃ s0 t0 s t : St Bool Nat, Init boolOps twice [] [true, false] [true, false] s0 ∧
      Init boolOps twice [] [true, false] [true, false] t0 ∧
      Steps boolOps twice s0 s ∧ Steps boolOps twice t0 t ∧ s.queue = [] ∧ t.queue = [] ∧
      s.env 4 = true ∧ t.env 4 = false := by
  have a1 := Steps.tail _ _ _ (Steps.refl _) (Step.mk (O := boolOps) (J := twice) (twiceStart [0, 1]) 0 [1] _ [1] rfl rfl
    (pushes_nil 0 2 [1] (by intro e h; rw [nbr_twice] at h; simp at h; exact .inr h)))
  have a2 := Steps.tail _ _ _ a1 (Step.mk _ 1 [] _ [0] rfl rfl
    (Pushes.cons (cur := 1) 1 [] [] [0] [0] (by decide)
      (by intro e; rw [nbr_twice]; rcases e with _ | _ | e <;> simp) (.nil _)))
  have a3 := Steps.tail _ _ _ a2 (Step.mk _ 0 [] _ [] rfl rfl
    (pushes_nil 0 4 [] (by intro e h; rw [nbr_twice] at h; simp at h; exact .inr h)))
  have b1 := Steps.tail _ _ _ (Steps.refl _) (Step.mk (O := boolOps) (J := twice) (twiceStart [1, 0]) 1 [0] _ [0] rfl rfl
    (pushes_nil 1 1 [0] (by intro e h; rw [nbr_twice] at h; simp at h; simpa using h)))
  have b2 := Steps.tail _ _ _ b1 (Step.mk _ 0 [] _ [] rfl rfl
    (pushes_nil 0 2 [] (by intro e h; rw [nbr_twice] at h; simp at h; exact .inr h)))
  exact ⟨_, _, _, _, twice_init _ (.inl rfl), twice_init _ (.inr rfl), a3, b2, rfl, rfl, rfl, rfl⟩

end Verif.Propagate
