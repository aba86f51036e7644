import Verif.Propagate.Props

/-!
C24 for called jaxprs: the rule of a call equation is itself a propagation (propagate.py:297-325, 339-360), so
the hypotheses of the theorems must carry over from the equations of the callee to the call equation.
-/
namespace Verif.Propagate

variable {C L S : Type} [SemilatticeSup C] (O : CellOps C L)

/-- `r` is what propagating through `J` returns (`flat_propagate`, propagate.py:339-347; constants are `()`,
propagate.py:303, 313): for all cells some complete run returns these cells for the inputs and outputs. -/
def CallRule (J : Jaxpr C L S) {S' : Type} (r : List C → List C → List C × List C × S') : Prop :=
  J.constvars = [] ∧ ∀ i o, i.length = J.invars.length → o.length = J.outvars.length →
    ∃ s0 s, Init O J [] i o s0 ∧ Steps O J s0 s ∧ s.queue = [] ∧
      (r i o).1 = J.invars.map (read O s.env) ∧ (r i o).2.1 = J.outvars.map (read O s.env)

/-- A rule that adds nothing to what it added before. -/
def RuleIdem {S' : Type} (n m : Nat) (r : List C → List C → List C × List C × S') : Prop :=
  ∀ i o, i.length = n → o.length = m →
    List.Forall₂ (· ≤ ·) (r (List.zipWith (· ⊔ ·) i (r i o).1) (List.zipWith (· ⊔ ·) o (r i o).2.1)).1
      (List.zipWith (· ⊔ ·) i (r i o).1) ∧
    List.Forall₂ (· ≤ ·) (r (List.zipWith (· ⊔ ·) i (r i o).1) (List.zipWith (· ⊔ ·) o (r i o).2.1)).2.1
      (List.zipWith (· ⊔ ·) o (r i o).2.1)

theorem unknown_le_initEnv (hO : Lawful O) (J : Jaxpr C L S) (k i o : List C) (x : Nat) :
    O.unknown x ≤ initEnv O J k i o x := by
  unfold initEnv
  refine le_trans ?_ (le_writeAll O hO _ _ _ x)
  refine le_trans ?_ (le_writeAll O hO _ _ _ x)
  refine le_trans ?_ (le_writeAll O hO _ _ _ x)
  exact le_writeAll O hO _ _ _ x

/-- The initial environment is the least one above the given cells. -/
theorem initEnv_le (hO : Lawful O) (J : Jaxpr C L S) (k i o : List C) (v : Env C)
    (hu : ∀ x, O.unknown x ≤ v x)
    (hk : ∀ (j x : Nat) (c : C), J.constvars[j]? = some (Atom.var x) → k[j]? = some c → c ≤ v x)
    (hi : ∀ (j x : Nat) (c : C), J.invars[j]? = some (Atom.var x) → i[j]? = some c → c ≤ v x)
    (ho : ∀ (j x : Nat) (c : C), J.outvars[j]? = some (Atom.var x) → o[j]? = some c → c ≤ v x) (x : Nat) :
    initEnv O J k i o x ≤ v x := by
  unfold initEnv
  refine writeAll_le O hO _ _ _ v (fun y => writeAll_le O hO _ _ _ v (fun y => writeAll_le O hO _ _ _ v
    (fun y => writeAll_le O hO _ _ _ v hu hk y) hi y) ho y) ?_ x
  intro j y c h1 h2
  rw [List.getElem?_map, h1] at h2
  simp only [Option.map_some, Option.some.injEq] at h2
  rw [← h2]
  exact hu y

theorem initEnv_const (hO : Lawful O) (J : Jaxpr C L S) (k i o : List C) (x : Nat) :
    ∀ (j : Nat) (c : C), J.constvars[j]? = some (Atom.var x) → k[j]? = some c → c ≤ initEnv O J k i o x := by
  intro j c h1 h2
  unfold initEnv
  refine le_trans ?_ (le_writeAll O hO _ _ _ x)
  refine le_trans ?_ (le_writeAll O hO _ _ _ x)
  refine le_trans ?_ (le_writeAll O hO _ _ _ x)
  exact written_le_writeAll O hO _ _ _ x j c h1 h2

theorem initEnv_in (hO : Lawful O) (J : Jaxpr C L S) (k i o : List C) (x : Nat) :
    ∀ (j : Nat) (c : C), J.invars[j]? = some (Atom.var x) → i[j]? = some c → c ≤ initEnv O J k i o x := by
  intro j c h1 h2
  unfold initEnv
  refine le_trans ?_ (le_writeAll O hO _ _ _ x)
  refine le_trans ?_ (le_writeAll O hO _ _ _ x)
  exact written_le_writeAll O hO _ _ _ x j c h1 h2

theorem initEnv_out (hO : Lawful O) (J : Jaxpr C L S) (k i o : List C) (x : Nat) :
    ∀ (j : Nat) (c : C), J.outvars[j]? = some (Atom.var x) → o[j]? = some c → c ≤ initEnv O J k i o x := by
  intro j c h1 h2
  unfold initEnv
  refine le_trans ?_ (le_writeAll O hO _ _ _ x)
  exact written_le_writeAll O hO _ _ _ x j c h1 h2

open Classical in
/-- Inner variables start unknown. -/
theorem initEnv_inner (hO : Lawful O) (J : Jaxpr C L S) (k i o : List C) (x : Nat)
    (hx : some x ∉ (J.outvars ++ J.invars ++ J.constvars).map Atom.node) : initEnv O J k i o x = O.unknown x := by
  simp only [List.map_append, List.mem_append, not_or] at hx
  refine le_antisymm ?_ (unknown_le_initEnv O hO J k i o x)
  have := initEnv_le O hO J k i o (fun y => if y = x then O.unknown x else initEnv O J k i o y) ?_ ?_ ?_ ?_ x
  · simpa using this
  · intro y
    by_cases h : y = x
    · subst h; simp
    · simpa [h] using unknown_le_initEnv O hO J k i o y
  · intro j y c h1 h2
    have hy : y ≠ x := by rintro rfl; exact hx.2 (List.mem_map.2 ⟨_, List.mem_of_getElem? h1, rfl⟩)
    simpa [hy] using initEnv_const O hO J k i o y j c h1 h2
  · intro j y c h1 h2
    have hy : y ≠ x := by rintro rfl; exact hx.1.2 (List.mem_map.2 ⟨_, List.mem_of_getElem? h1, rfl⟩)
    simpa [hy] using initEnv_in O hO J k i o y j c h1 h2
  · intro j y c h1 h2
    have hy : y ≠ x := by rintro rfl; exact hx.1.1 (List.mem_map.2 ⟨_, List.mem_of_getElem? h1, rfl⟩)
    simpa [hy] using initEnv_out O hO J k i o y j c h1 h2

/-- More information about the inputs and outputs gives no less in the result. -/
theorem propagate_mono (hO : Lawful O) (J : Jaxpr C L S) (hs : Sized J)
    (hi : ∀ q ∈ J.eqns, Idem O q) (hm : ∀ q ∈ J.eqns, Monotone' q) (k i i' o o' : List C)
    (hii : List.Forall₂ (· ≤ ·) i i') (hoo : List.Forall₂ (· ≤ ·) o o')
    (s0 s t0 t : St C S) (h0 : Init O J k i o s0) (h0' : Init O J k i' o' t0)
    (h : Steps O J s0 s) (h' : Steps O J t0 t) (hq : s.queue = []) (hq' : t.queue = []) (x : Nat) :
    s.env x ≤ t.env x := by
  have hle : ∀ x, s0.env x ≤ t0.env x := by
    intro x
    rw [h0.1, h0'.1]
    refine initEnv_le O hO J k i o _ (unknown_le_initEnv O hO J k i' o') ?_ ?_ ?_ x
    · exact fun j y c h1 h2 => initEnv_const O hO J k i' o' y j c h1 h2
    · intro j y c h1 h2
      obtain ⟨d, hd, hcd⟩ := forall₂_get hii h2
      exact le_trans hcd (initEnv_in O hO J k i' o' y j d h1 hd)
    · intro j y c h1 h2
      obtain ⟨d, hd, hcd⟩ := forall₂_get hoo h2
      exact le_trans hcd (initEnv_out O hO J k i' o' y j d h1 hd)
  have ht := (propagate_least O hO J hs hi hm t0 t h' hq').1
  have hin : t.env ∈ Solutions O J s0.env s0.queue := by
    refine ⟨fun y => le_trans (hle y) (ht.1 y), ?_⟩
    intro e q he hor
    apply ht.2 e q he
    have hmem : e ∈ s0.queue ↔ e ∈ t0.queue := by rw [h0.2.1.2, h0'.2.1.2]
    rcases hor with h1 | ⟨y, hy, hne⟩
    · exact .inl (hmem.1 h1)
    · by_cases h2 : t.env y = t0.env y
      · left
        rw [h0'.2.1.2]
        refine ⟨y, ?_, q, he, hy⟩
        by_contra hno
        apply hne
        rw [h2, h0.1, h0'.1, initEnv_inner O hO J k i o y hno, initEnv_inner O hO J k i' o' y hno]
      · exact .inr ⟨y, hy, h2⟩
  exact (propagate_least O hO J hs hi hm s0 s h hq).2 hin x

/-- Propagating again from the resulting cells gives nothing new. -/
theorem propagate_again (hO : Lawful O) (J : Jaxpr C L S) (hs : Sized J)
    (hi : ∀ q ∈ J.eqns, Idem O q) (hm : ∀ q ∈ J.eqns, Monotone' q) (k i i' o o' : List C)
    (s0 s t0 t : St C S) (h0 : Init O J k i o s0) (h0' : Init O J k i' o' t0)
    (h : Steps O J s0 s) (h' : Steps O J t0 t) (hq : s.queue = []) (hq' : t.queue = [])
    (hii : List.Forall₂ (· ≤ ·) i i') (hoo : List.Forall₂ (· ≤ ·) o o')
    (hir : ∀ (j x : Nat) (c : C), J.invars[j]? = some (Atom.var x) → i'[j]? = some c → c ≤ s.env x)
    (hor : ∀ (j x : Nat) (c : C), J.outvars[j]? = some (Atom.var x) → o'[j]? = some c → c ≤ s.env x) :
    t.env = s.env := by
  have hs' := (propagate_least O hO J hs hi hm s0 s h hq).1
  refine le_antisymm ?_ (fun x => propagate_mono O hO J hs hi hm k i i' o o' hii hoo s0 s t0 t h0 h0' h h' hq hq' x)
  have hmem : ∀ e, e ∈ s0.queue ↔ e ∈ t0.queue := fun e => by rw [h0.2.1.2, h0'.2.1.2]
  have hu : ∀ x, O.unknown x ≤ s.env x := fun x =>
    le_trans (by rw [h0.1]; exact unknown_le_initEnv O hO J k i o x) (hs'.1 x)
  have h1 : ∀ x, t0.env x ≤ s.env x := by
    intro x
    rw [h0'.1]
    refine initEnv_le O hO J k i' o' _ hu ?_ hir hor x
    intro j y c h1 h2
    refine le_trans ?_ (hs'.1 y)
    rw [h0.1]
    exact initEnv_const O hO J k i o y j c h1 h2
  have h2 : ∀ x, s0.env x ≤ t0.env x := by
    intro x
    rw [h0.1, h0'.1]
    refine initEnv_le O hO J k i o _ (unknown_le_initEnv O hO J k i' o') ?_ ?_ ?_ x
    · exact fun j y c h1 h2 => initEnv_const O hO J k i' o' y j c h1 h2
    · intro j y c h1 h2
      obtain ⟨d, hd, hcd⟩ := forall₂_get hii h2
      exact le_trans hcd (initEnv_in O hO J k i' o' y j d h1 hd)
    · intro j y c h1 h2
      obtain ⟨d, hd, hcd⟩ := forall₂_get hoo h2
      exact le_trans hcd (initEnv_out O hO J k i' o' y j d h1 hd)
  refine (propagate_least O hO J hs hi hm t0 t h' hq').2 ⟨h1, fun e q he hor' => hs'.2 e q he ?_⟩
  rcases hor' with h3 | ⟨y, hy, hne⟩
  · exact .inl ((hmem e).2 h3)
  · refine .inr ⟨y, hy, fun heq => hne ?_⟩
    exact le_antisymm (by rw [heq]; exact h2 y) (h1 y)

theorem forall₂_zip_left (l r : List C) (h : r.length = l.length) :
    List.Forall₂ (· ≤ ·) l (List.zipWith (· ⊔ ·) l r) := by
  induction l generalizing r with
  | nil => cases r <;> simp_all
  | cons a l ih =>
    obtain _ | ⟨b, r⟩ := r
    · simp at h
    · exact .cons le_sup_left (ih r (by simpa using h))

theorem forall₂_zip_right (l r : List C) (h : r.length = l.length) :
    List.Forall₂ (· ≤ ·) r (List.zipWith (· ⊔ ·) l r) := by
  induction l generalizing r with
  | nil => cases r <;> simp_all
  | cons a l ih =>
    obtain _ | ⟨b, r⟩ := r
    · simp at h
    · exact .cons le_sup_right (ih r (by simpa using h))

/-- C24.  Nested calls: if the rules of the called jaxpr are monotone and idempotent then so is the rule of the
call, so the theorems about the order of propagation extend to calls of calls to any depth. -/
theorem call_rule_monotone (hO : Lawful O) (J : Jaxpr C L S) (hs : Sized J)
    (hi : ∀ q ∈ J.eqns, Idem O q) (hm : ∀ q ∈ J.eqns, Monotone' q) {S' : Type}
    (ins outs : List (Atom L)) (hli : ins.length = J.invars.length) (hlo : outs.length = J.outvars.length)
    (r : List C → List C → List C × List C × S') (hr : CallRule O J r) :
    Monotone' (⟨ins, outs, r⟩ : Eqn C L S') := by
  intro i i' o o' h1 h2 h3 h4
  obtain ⟨s0, s, a1, a2, a3, a4, a5⟩ := hr.2 i o (by rw [h1]; exact hli) (by rw [h2]; exact hlo)
  obtain ⟨t0, t, b1, b2, b3, b4, b5⟩ := hr.2 i' o' (by rw [← h3.length_eq, h1]; exact hli)
    (by rw [← h4.length_eq, h2]; exact hlo)
  have hle := propagate_mono O hO J hs hi hm [] i i' o o' h3 h4 s0 s t0 t a1 b1 a2 b2 a3 b3
  simp only [a4, a5, b4, b5]
  exact ⟨map_read_mono O _ _ _ hle, map_read_mono O _ _ _ hle⟩

theorem call_rule_idem (hO : Lawful O) (J : Jaxpr C L S) (hs : Sized J)
    (hi : ∀ q ∈ J.eqns, Idem O q) (hm : ∀ q ∈ J.eqns, Monotone' q) {S' : Type}
    (r : List C → List C → List C × List C × S') (hr : CallRule O J r) :
    RuleIdem J.invars.length J.outvars.length r := by
  intro i o hli hlo
  obtain ⟨s0, s, a1, a2, a3, a4, a5⟩ := hr.2 i o hli hlo
  have l1 : (r i o).1.length = i.length := by rw [a4, hli]; simp
  have l2 : (r i o).2.1.length = o.length := by rw [a5, hlo]; simp
  obtain ⟨t0, t, b1, b2, b3, b4, b5⟩ := hr.2 (List.zipWith (· ⊔ ·) i (r i o).1) (List.zipWith (· ⊔ ·) o (r i o).2.1)
    (by rw [List.length_zipWith, l1]; omega) (by rw [List.length_zipWith, l2]; omega)
  have hs' := (propagate_least O hO J hs hi hm s0 s a2 a3).1
  have heq := propagate_again O hO J hs hi hm [] i _ o _ s0 s t0 t a1 b1 a2 b2 a3 b3
    (forall₂_zip_left _ _ l1) (forall₂_zip_left _ _ l2) ?_ ?_
  · rw [b4, b5, heq]
    refine ⟨?_, ?_⟩
    · rw [← a4]; exact forall₂_zip_right _ _ l1
    · rw [← a5]; exact forall₂_zip_right _ _ l2
  · intro j x c h1 h2
    rw [List.getElem?_zipWith] at h2
    rcases hij : i[j]? with _ | ci
    · rw [hij] at h2; simp at h2
    · rw [hij, a4, List.getElem?_map, h1] at h2
      simp only [Option.map_some, Option.some.injEq, read] at h2
      rw [← h2]
      refine sup_le (le_trans ?_ (hs'.1 x)) (le_refl _)
      rw [a1.1]; exact initEnv_in O hO J [] i o x j ci h1 hij
  · intro j x c h1 h2
    rw [List.getElem?_zipWith] at h2
    rcases hij : o[j]? with _ | ci
    · rw [hij] at h2; simp at h2
    · rw [hij, a5, List.getElem?_map, h1] at h2
      simp only [Option.map_some, Option.some.injEq, read] at h2
      rw [← h2]
      refine sup_le (le_trans ?_ (hs'.1 x)) (le_refl _)
      rw [a1.1]; exact initEnv_out O hO J [] i o x j ci h1 hij

/-! ### From rules to equations -/

theorem writeAll_distinct (hO : Lawful O) (env : Env C) (xs : List Nat) (cs : List C) (hn : xs.Nodup)
    (hl : cs.length = xs.length) :
    (xs.map (Atom.var (L := L))).map (read O (writeAll O env (xs.map Atom.var) cs).1) =
      List.zipWith (· ⊔ ·) (xs.map env) cs := by
  induction xs generalizing env cs with
  | nil => simp
  | cons x xs ih =>
    obtain _ | ⟨c, cs⟩ := cs
    · simp at hl
    · have hx := (List.nodup_cons.1 hn).1
      have hfr : some x ∉ ((xs.map (Atom.var (L := L))).map Atom.node) := by
        simp only [List.map_map, List.mem_map, Function.comp, not_exists, not_and]
        intro y hy h
        simp only [Atom.node, Option.some.injEq] at h
        exact hx (h ▸ hy)
      simp only [List.map_cons, writeAll, List.zipWith_cons_cons, List.cons.injEq]
      refine ⟨?_, ?_⟩
      · simp only [read]
        rw [writeAll_frame O _ _ _ _ hfr]
        simp [write, hO.join_eq]
      · rw [ih _ _ (List.nodup_cons.1 hn).2 (by simpa using hl)]
        congr 1
        apply List.map_congr_left
        intro y hy
        have : y ≠ x := by rintro rfl; exact hx hy
        simp [write, this]

/-- C24.  An equation over distinct variables whose rule is idempotent is idempotent in every environment.
(With a repeated variable this fails: see `repeated_variable_not_idem`.) -/
theorem idem_of_rule_idem (hO : Lawful O) (xs ys : List Nat) (hn : (xs ++ ys).Nodup)
    (r : List C → List C → List C × List C × S)
    (hl : ∀ i o, i.length = xs.length → o.length = ys.length →
      (r i o).1.length = xs.length ∧ (r i o).2.1.length = ys.length)
    (hr : RuleIdem xs.length ys.length r) :
    Idem O (⟨xs.map Atom.var, ys.map Atom.var, r⟩ : Eqn C L S) := by
  intro env
  obtain ⟨hx, hy, hxy⟩ := List.nodup_append.1 hn
  obtain ⟨l1, l2⟩ := hl (xs.map env) (ys.map env) (by simp) (by simp)
  obtain ⟨m1, m2⟩ := hr (xs.map env) (ys.map env) (by simp) (by simp)
  have rd : ∀ (zs : List Nat) (v : Env C), (zs.map (Atom.var (L := L))).map (read O v) = zs.map v := by
    intro zs v; rw [List.map_map]; rfl
  have nd : ∀ (zs : List Nat) (x : Nat), x ∉ zs → some x ∉ ((zs.map (Atom.var (L := L))).map Atom.node) := by
    intro zs x hx
    simp only [List.map_map, List.mem_map, Function.comp, not_exists, not_and]
    intro y hy h
    simp only [Atom.node, Option.some.injEq] at h
    exact hx (h ▸ hy)
  have e1 : (xs.map (Atom.var (L := L))).map (read O (exec O env (⟨xs.map Atom.var, ys.map Atom.var, r⟩ : Eqn C L S)).1) =
      List.zipWith (· ⊔ ·) (xs.map env) (r (xs.map env) (ys.map env)).1 := by
    rw [← writeAll_distinct O hO env xs _ hx l1]
    simp only [exec, rd]
    apply List.map_congr_left
    intro x hxm
    exact writeAll_frame O _ _ _ _ (nd ys x (fun hm => hxy x hxm x hm rfl))
  have e2 : (ys.map (Atom.var (L := L))).map (read O (exec O env (⟨xs.map Atom.var, ys.map Atom.var, r⟩ : Eqn C L S)).1) =
      List.zipWith (· ⊔ ·) (ys.map env) (r (xs.map env) (ys.map env)).2.1 := by
    simp only [exec]
    rw [writeAll_distinct O hO _ ys _ hy (by simpa [rd] using l2)]
    simp only [rd]
    congr 1
    apply List.map_congr_left
    intro y hym
    exact writeAll_frame O _ _ _ _ (nd xs y (fun hm => hxy y hm y hym rfl))
  refine ⟨fun j x c h1 h2 => ?_, fun j x c h1 h2 => ?_⟩
  · simp only [e1, e2] at h2
    obtain ⟨d, hd, hcd⟩ := forall₂_get m1 h2
    rw [← e1, List.getElem?_map, h1] at hd
    simp only [Option.map_some, Option.some.injEq, read] at hd
    rw [hd]; exact hcd
  · simp only [e1, e2] at h2
    obtain ⟨d, hd, hcd⟩ := forall₂_get m2 h2
    rw [← e2, List.getElem?_map, h1] at hd
    simp only [Option.map_some, Option.some.injEq, read] at hd
    rw [hd]; exact hcd

end Verif.Propagate
