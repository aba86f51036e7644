import Verif.Autoconj.CanonNormal

/-
C36: `canonicalize` returns on every expression that has a value, provided that 52 index names are
enough for all its einsums together.  Examples.
-/

namespace Verif.Autoconj

variable {R : Type} [CommSemiring R]

/-- The number of distinct index names of a formula. -/
def names (f : Formula) : ℕ := (f.ins.flatten ++ f.out).toFinset.card

mutual
/-- The number of axes of the operands. -/
def axes (oth : Others R) : List AExpr → ℕ
  | [] => 0
  | e :: es => ((shapeOf oth e).getD []).length + axes oth es
end

/-- The index names an operation needs as an einsum. -/
def need (oth : Others R) : Op → List AExpr → ℕ
  | .einsum f, _ => names f
  | .transpose _, args => axes oth args
  | .squeeze _, args => axes oth args
  | .reduceSum _, args => axes oth args
  | .dot _ _ _ _, args => axes oth args
  | _, _ => 0

mutual
/-- The index names that all the einsums of an expression need together. -/
def budget (oth : Others R) : AExpr → ℕ
  | .var _ _ => 0
  | .app op args => need oth op args + budgets oth args
/-- The same for the operands. -/
def budgets (oth : Others R) : List AExpr → ℕ
  | [] => 0
  | e :: es => budget oth e + budgets oth es
end

theorem budgets_append (oth : Others R) (a b : List AExpr) :
    budgets oth (a ++ b) = budgets oth a + budgets oth b := by
  induction a with
  | nil => simp [budgets]
  | cons e a ih => simp only [List.cons_append, budgets, ih]; omega

/-- On expressions with a value and enough index names the rule returns, and needs no more names. -/
def TotalA (oth : Others R) (env : ℕ → Option (Arr R)) (r : AExpr → Option AExpr) : Prop :=
  ∀ e v, eval oth env e = some v → budget oth e ≤ 52 → ∃ e', r e = some e' ∧ budget oth e' ≤ budget oth e

theorem names_one {n : ℕ} (hn : n ≤ 52) {is : List ℕ} (h : ∀ i ∈ is, i < n) :
    names ⟨[letters n], is.map L⟩ ≤ n := by
  unfold names
  rw [letters_eq hn]
  have hsub : ([(List.range n).map L].flatten ++ is.map L).toFinset ⊆ ((List.range n).map L).toFinset := by
    intro l hl
    rw [List.mem_toFinset, List.mem_append] at hl
    rw [List.mem_toFinset]
    rcases hl with hl | hl
    · simpa using hl
    · obtain ⟨i, hi, rfl⟩ := List.mem_map.1 hl
      exact List.mem_map_of_mem (List.mem_range.2 (h i hi))
  refine (Finset.card_le_card hsub).trans ((List.toFinset_card_le _).trans ?_)
  simp

theorem one_total (oth : Others R) {env : ℕ → Option (Arr R)} {op : Op} {x : AExpr} {v : Arr R}
    (hv : eval oth env (.app op [x]) = some v) : ∃ a, eval oth env x = some a ∧ shapeOf oth x = some a.shape ∧
      opSem oth op [a] = some v := by
  rw [eval_app] at hv
  obtain ⟨as, has, hv⟩ := hv
  obtain ⟨a, ws, ha, hws, rfl⟩ := evalAll_cons.1 has
  simp only [evalAll, Option.some.injEq] at hws
  subst hws
  exact ⟨a, ha, eval_shape ha, hv⟩

theorem transposeRule_total (oth : Others R) (env : ℕ → Option (Arr R)) : TotalA oth env (transposeRule oth) := by
  intro e v hv hb
  unfold transposeRule
  split
  swap
  · exact ⟨_, rfl, le_rfl⟩
  rename_i perm x
  obtain ⟨a, ha, hs, hop⟩ := one_total oth hv
  simp only [opSem, opShape, List.map_cons, List.map_nil, Option.map_eq_some_iff] at hop
  obtain ⟨s, hs', rfl⟩ := hop
  split at hs'
  swap
  · cases hs'
  rename_i hc
  obtain ⟨h52, hn, hlt, hlen⟩ := hc
  rw [hs, Option.bind_some, lettersAt_eq h52 hlt, Option.bind_some]
  refine ⟨_, rfl, ?_⟩
  have := names_one h52 hlt
  simp only [budget, budgets, need, axes, hs, Option.getD_some]
  omega

theorem squeezeRule_total (oth : Others R) (env : ℕ → Option (Arr R)) : TotalA oth env (squeezeRule oth) := by
  intro e v hv hb
  unfold squeezeRule
  split
  swap
  · exact ⟨_, rfl, le_rfl⟩
  rename_i dims x
  obtain ⟨a, ha, hs, hop⟩ := one_total oth hv
  simp only [opSem, opShape, List.map_cons, List.map_nil, Option.map_eq_some_iff] at hop
  obtain ⟨s, hs', rfl⟩ := hop
  split at hs'
  swap
  · cases hs'
  rename_i hc
  rw [hs, Option.bind_some, ← rest, lettersAt_eq hc.1 rest_lt, Option.bind_some]
  refine ⟨_, rfl, ?_⟩
  have := names_one (is := rest a.shape.length dims) hc.1 rest_lt
  simp only [budget, budgets, need, axes, hs, Option.getD_some]
  omega

theorem reduceSumRule_total (oth : Others R) (env : ℕ → Option (Arr R)) : TotalA oth env (reduceSumRule oth) := by
  intro e v hv hb
  unfold reduceSumRule
  split
  swap
  · exact ⟨_, rfl, le_rfl⟩
  rename_i dims x
  obtain ⟨a, ha, hs, hop⟩ := one_total oth hv
  simp only [opSem, opShape, List.map_cons, List.map_nil, Option.map_eq_some_iff] at hop
  obtain ⟨s, hs', rfl⟩ := hop
  split at hs'
  swap
  · cases hs'
  rename_i hc
  rw [hs, Option.bind_some, ← rest, lettersAt_eq hc.1 rest_lt, Option.bind_some]
  refine ⟨_, rfl, ?_⟩
  have := names_one (is := rest a.shape.length dims) hc.1 rest_lt
  simp only [budget, budgets, need, axes, hs, Option.getD_some]
  omega

theorem dotRule_total (oth : Others R) (env : ℕ → Option (Arr R)) : TotalA oth env (dotRule oth) := by
  intro e v hv hb
  unfold dotRule
  split
  swap
  · exact ⟨_, rfl, le_rfl⟩
  rename_i cx cy bx by' x y
  rw [eval_app] at hv
  obtain ⟨as, has, hv⟩ := hv
  obtain ⟨a, ws, ha, hws, rfl⟩ := evalAll_cons.1 has
  obtain ⟨b, ws', hb', hws', rfl⟩ := evalAll_cons.1 hws
  simp only [evalAll, Option.some.injEq] at hws'
  subst hws'
  simp only [opSem, List.map_cons, List.map_nil, Option.map_eq_some_iff] at hv
  obtain ⟨s, hs, rfl⟩ := hv
  obtain ⟨yd, ob, h1, h2, h3⟩ := dot_einsum oth hs
  obtain ⟨d, hfit, _, hsub, _⟩ := einsum_some h3
  simp only [eval_shape ha, eval_shape hb', Option.bind_some, h1, h2]
  refine ⟨_, rfl, ?_⟩
  have hn : names ⟨[letters a.shape.length, yd], ob ++ ((letters a.shape.length).filter (· ∉ yd) ++
      yd.filter (· ∉ letters a.shape.length))⟩ ≤ a.shape.length + b.shape.length := by
    unfold names
    have hsub' : ([letters a.shape.length, yd].flatten ++ (ob ++ ((letters a.shape.length).filter (· ∉ yd) ++
      yd.filter (· ∉ letters a.shape.length)))).toFinset ⊆ [letters a.shape.length, yd].flatten.toFinset := by
      intro l hl
      rw [List.mem_toFinset, List.mem_append] at hl
      rw [List.mem_toFinset]
      rcases hl with hl | hl
      · exact hl
      · exact hsub l hl
    refine (Finset.card_le_card hsub').trans ((List.toFinset_card_le _).trans ?_)
    simp only [List.map_cons, List.map_nil, List.cons.injEq, and_true] at hfit
    have e1 := congrArg List.length hfit.1
    have e2 := congrArg List.length hfit.2
    simp only [List.length_map] at e1 e2
    simp only [List.flatten_cons, List.flatten_nil, List.append_nil, List.length_append]
    omega
  simp only [budget, budgets, need, axes, eval_shape ha, eval_shape hb', Option.getD_some]
  omega

theorem compose_names {parent child f : Formula} {n : ℕ} (h : compose parent n child = some f)
    (hn : child.out.Nodup) : names f ≤ names parent + names child := by
  obtain ⟨left, old, right, ρp, ρc, hsplit, _, _, _, rfl⟩ := compose_spec h hn
  unfold names
  have hsub : ((left.map (·.map ρp) ++ child.ins.map (·.map ρc) ++ right.map (·.map ρp)).flatten ++
      parent.out.map ρp).toFinset ⊆
      (parent.ins.flatten ++ parent.out).toFinset.image ρp ∪
      (child.ins.flatten ++ child.out).toFinset.image ρc := by
    have e : ∀ (x : List (List Letter)) (ρ : Letter → Letter),
        (x.map (·.map ρ)).flatten = x.flatten.map ρ := by intro x ρ; simp [List.map_flatten]
    intro m hm
    rw [List.mem_toFinset] at hm
    simp only [List.flatten_append, e, List.mem_append, List.mem_map] at hm
    rw [Finset.mem_union, Finset.mem_image, Finset.mem_image]
    simp only [List.mem_toFinset, List.mem_append, hsplit, List.flatten_append, List.flatten_cons]
    rcases hm with ((⟨l, hl, h⟩ | ⟨l, hl, h⟩) | ⟨l, hl, h⟩) | ⟨l, hl, h⟩
    · exact Or.inl ⟨l, Or.inl (Or.inl hl), h⟩
    · exact Or.inr ⟨l, Or.inl hl, h⟩
    · exact Or.inl ⟨l, Or.inl (Or.inr (Or.inr hl)), h⟩
    · exact Or.inl ⟨l, Or.inr hl, h⟩
  refine (Finset.card_le_card hsub).trans ((Finset.card_union_le _ _).trans ?_)
  exact Nat.add_le_add Finset.card_image_le Finset.card_image_le

theorem composeRule_total (oth : Others R) (env : ℕ → Option (Arr R)) : TotalA oth env composeRule := by
  intro e v hv hb
  unfold composeRule
  split
  swap
  · exact ⟨_, rfl, le_rfl⟩
  rename_i f args
  split
  · exact ⟨_, rfl, le_rfl⟩
  · rename_i left cf cargs right hf
    have hargs := firstEinsum_spec hf
    rw [hargs, eval_app] at hv
    obtain ⟨as, has, hv⟩ := hv
    obtain ⟨vl, vr, h1, h2, rfl⟩ := evalAll_append.1 has
    obtain ⟨c, vr, hcc, h3, rfl⟩ := evalAll_cons.1 h2
    obtain ⟨cs, hcs, hc⟩ := eval_app.1 hcc
    rw [opSem_einsum] at hc hv
    have hbud : names f + (budgets oth left + (names cf + budgets oth cargs + budgets oth right)) ≤ 52 := by
      rw [hargs] at hb
      simp only [budget, need, budgets_append, budgets] at hb
      omega
    have hcard : (f.ins.flatten ++ f.out).toFinset.card +
        (cf.ins.flatten.filter (· ∉ cf.out)).toFinset.card ≤ 52 := by
      have : (cf.ins.flatten.filter (· ∉ cf.out)).toFinset.card ≤ names cf := by
        unfold names
        apply Finset.card_le_card
        intro l hl
        rw [List.mem_toFinset] at hl ⊢
        exact List.mem_append_left _ (List.mem_filter.1 hl).1
      unfold names at hbud this
      omega
    obtain ⟨g, hg, _⟩ := compose_einsums_returns hc hv hcard
    rw [evalAll_length h1] at hg
    refine ⟨_, by rw [hg]; rfl, ?_⟩
    obtain ⟨_, _, hnd, _⟩ := einsum_some hc
    have hnm := compose_names hg hnd
    rw [hargs]
    simp only [budget, need, budgets_append, budgets]
    omega

theorem addRule_total (oth : Others R) (env : ℕ → Option (Arr R)) : TotalA oth env addRule := by
  intro e v hv hb
  unfold addRule
  split
  · exact ⟨_, rfl, by simp [budget, need]⟩
  · exact ⟨_, rfl, le_rfl⟩

theorem addnRule_total (oth : Others R) (env : ℕ → Option (Arr R)) : TotalA oth env addnRule := by
  intro e v hv hb
  unfold addnRule
  split
  · split
    · exact ⟨_, rfl, le_rfl⟩
    · rename_i hf
      refine ⟨_, rfl, ?_⟩
      rw [firstAddn_spec hf]
      simp only [budget, need, budgets_append, budgets]
      omega
  · exact ⟨_, rfl, le_rfl⟩

theorem ruleListA_total {oth : Others R} {env : ℕ → Option (Arr R)} : ∀ rs : List (AExpr → Option AExpr),
    (∀ r ∈ rs, TotalA oth env r) → TotalA oth env (ruleListA rs)
  | [], _ => fun e v _ _ => ⟨e, rfl, le_rfl⟩
  | r :: rs, hrs => fun e v hv hb => by
    obtain ⟨e', h1, h2⟩ := hrs r (by simp) e v hv hb
    simp only [ruleListA, h1, Option.bind_some]
    split
    · exact ⟨e', rfl, h2⟩
    · exact ruleListA_total rs (fun r h => hrs r (by simp [h])) e v hv hb

theorem axes_eq {oth : Others R} {env : ℕ → Option (Arr R)} : ∀ {es : List AExpr} {vs : List (Arr R)},
    evalAll oth env es = some vs → axes oth es = (vs.map fun a => a.shape.length).sum
  | [], vs, h => by simp only [evalAll, Option.some.injEq] at h; subst h; rfl
  | e :: es, vs, h => by
    obtain ⟨v, ws, h1, h2, rfl⟩ := evalAll_cons.1 h
    simp only [axes, eval_shape h1, Option.getD_some, List.map_cons, List.sum_cons, axes_eq h2]

mutual
theorem bottomUpA_total {oth : Others R} {env : ℕ → Option (Arr R)} {r : AExpr → Option AExpr}
    (hr : TotalA oth env r) (hp : PreservesA oth r) : ∀ (e : AExpr) (v : Arr R), eval oth env e = some v →
      budget oth e ≤ 52 → ∃ e', bottomUpA r e = some e' ∧ budget oth e' ≤ budget oth e
  | .var n s, v, hv, hb => by simpa only [bottomUpA] using hr _ v hv hb
  | .app op args, v, hv, hb => by
    obtain ⟨as, has, hv⟩ := eval_app.1 hv
    obtain ⟨args', h1, h2⟩ := bottomUpAs_total hr hp args as has (by
      simp only [budget] at hb; omega)
    have has' := bottomUpAs_preserves hp h1 env as has
    have hneed : need oth op args' = need oth op args := by
      have e := (axes_eq has').trans (axes_eq has).symm
      cases op <;> simp only [need, e]
    obtain ⟨e', h3, h4⟩ := hr (.app op args') v (eval_app.2 ⟨as, has', hv⟩) (by
      simp only [budget, hneed] at hb ⊢; omega)
    refine ⟨e', by simp only [bottomUpA, h1, Option.bind_some, h3], h4.trans ?_⟩
    simp only [budget, hneed]; omega
theorem bottomUpAs_total {oth : Others R} {env : ℕ → Option (Arr R)} {r : AExpr → Option AExpr}
    (hr : TotalA oth env r) (hp : PreservesA oth r) : ∀ (es : List AExpr) (vs : List (Arr R)),
      evalAll oth env es = some vs → budgets oth es ≤ 52 →
      ∃ es', bottomUpAs r es = some es' ∧ budgets oth es' ≤ budgets oth es
  | [], _, _, _ => ⟨[], rfl, le_rfl⟩
  | e :: es, vs, hv, hb => by
    obtain ⟨v, ws, h1, h2, rfl⟩ := evalAll_cons.1 hv
    simp only [budgets] at hb
    obtain ⟨e', h3, h4⟩ := bottomUpA_total hr hp e v h1 (by omega)
    obtain ⟨es', h5, h6⟩ := bottomUpAs_total hr hp es ws h2 (by omega)
    refine ⟨e' :: es', by simp only [bottomUpAs, h3, h5, Option.bind_some], ?_⟩
    simp only [budgets]; omega
end

theorem canonRules_total (oth : Others R) (env : ℕ → Option (Arr R)) : ∀ r ∈ canonRules oth, TotalA oth env r := by
  intro r hr
  simp only [canonRules, List.mem_cons, List.not_mem_nil, or_false] at hr
  rcases hr with rfl | rfl | rfl | rfl | rfl | rfl | rfl
  · exact transposeRule_total oth env
  · exact dotRule_total oth env
  · exact squeezeRule_total oth env
  · exact reduceSumRule_total oth env
  · exact composeRule_total oth env
  · exact addRule_total oth env
  · exact addnRule_total oth env

/-- C36.  On every expression that has a value and whose einsums need at most 52 index names in all,
`canonicalize` returns an expression that is canonical and has the same value. -/
theorem canonicalize_returns (oth : Others R) {env : ℕ → Option (Arr R)} {e : AExpr} {v : Arr R}
    (hv : eval oth env e = some v) (hb : budget oth e ≤ 52) :
    ∃ e', canonicalize oth e = some e' ∧ Canonical e' ∧ eval oth env e' = some v := by
  have hpres : PreservesA oth (pass oth) := fun e e' => bottomUpA_preserves
    (ruleListA_preserves _ (canonRules_preserve oth))
  have htot : TotalA oth env (pass oth) := bottomUpA_total (ruleListA_total _ (canonRules_total oth env))
    (ruleListA_preserves _ (canonRules_preserve oth))
  rcases canonicalize_never_loops oth e with ⟨e', h⟩ | ⟨n, e1, h1, h2⟩
  · exact ⟨e', h, canonicalize_canonical oth h, canonicalize_value oth h hv⟩
  · exfalso
    have step : ∀ n (e : AExpr), eval oth env e = some v → budget oth e ≤ 52 →
        ∀ e1, applyA (pass oth) n e = some e1 → eval oth env e1 = some v ∧ budget oth e1 ≤ 52 := by
      intro n
      induction n with
      | zero =>
        intro e hv hb e1 h
        simp only [applyA, Option.some.injEq] at h
        subst h; exact ⟨hv, hb⟩
      | succ n ih =>
        intro e hv hb e1 h
        obtain ⟨e2, h2, h3⟩ := htot e v hv hb
        simp only [applyA, h2, Option.bind_some] at h
        exact ih e2 (hpres _ _ h2 env v hv) (h3.trans hb) e1 h
    obtain ⟨hv1, hb1⟩ := step n e hv hb e1 h1
    obtain ⟨e2, h3, _⟩ := htot e1 v hv1 hb1
    rw [h2] at h3; cases h3

/-! ### Non-vacuity -/

theorem iteratedA_step {r : AExpr → Option AExpr} {e e' : AExpr} (h : r e = some e') (hne : e ≠ e') :
    iteratedA r e = iteratedA r e' := by
  rw [iteratedA, h]
  simp only [Option.bind_eq_bind, Option.bind_some, if_neg hne]

theorem iteratedA_stop {r : AExpr → Option AExpr} {e : AExpr} (h : r e = some e) : iteratedA r e = some e := by
  rw [iteratedA, h]; simp

/-- No other primitives. -/
def noOthers : Others ℤ := ⟨fun _ _ => none, fun _ _ => none, fun _ _ => rfl⟩

/-- `x + (y + z)` becomes `AddN((x, y, z))` (canonicalize_test.py). -/
example : canonicalize noOthers
    (.app .add [.var 0 [3, 4], .app .add [.var 1 [3, 4], .var 2 [3, 4]]]) =
    some (.app .addn [.var 0 [3, 4], .var 1 [3, 4], .var 2 [3, 4]]) := by
  unfold canonicalize
  rw [iteratedA_step (e' := .app .addn [.var 0 [3, 4], .app .addn [.var 1 [3, 4], .var 2 [3, 4]]])
    (by rfl) (by decide)]
  rw [iteratedA_step (e' := .app .addn [.var 0 [3, 4], .var 1 [3, 4], .var 2 [3, 4]]) (by rfl) (by decide)]
  exact iteratedA_stop (by rfl)

/-- `(w @ x).T` becomes a single einsum `'ab,bc->ca'`. -/
example : canonicalize noOthers
    (.app (.transpose [1, 0]) [.app (.dot [1] [0] [] []) [.var 0 [4, 5], .var 1 [5, 2]]]) =
    some (.app (.einsum ⟨[[1, 2], [2, 0]], [0, 1]⟩) [.var 0 [4, 5], .var 1 [5, 2]]) := by
  unfold canonicalize
  rw [iteratedA_step (e' := .app (.einsum ⟨[[0, 1]], [1, 0]⟩)
    [.app (.einsum ⟨[[0, 1], [1, 3]], [0, 3]⟩) [.var 0 [4, 5], .var 1 [5, 2]]]) (by decide +kernel) (by decide)]
  rw [iteratedA_step (e' := .app (.einsum ⟨[[1, 2], [2, 0]], [0, 1]⟩) [.var 0 [4, 5], .var 1 [5, 2]])
    (by decide +kernel) (by decide)]
  exact iteratedA_stop (by decide +kernel)

/-- The hypotheses of `canonicalize_returns` are met by that expression. -/
example (w x : List ℕ → ℤ) : ∃ v, eval noOthers (fun n => if n = 0 then some ⟨[4, 5], w⟩ else some ⟨[5, 2], x⟩)
    (.app (.transpose [1, 0]) [.app (.dot [1] [0] [] []) [.var 0 [4, 5], .var 1 [5, 2]]]) = some v ∧
    v.shape = [2, 4] ∧
    budget noOthers (.app (.transpose [1, 0]) [.app (.dot [1] [0] [] []) [.var 0 [4, 5], .var 1 [5, 2]]]) ≤ 52 := by
  have hd : opSem noOthers (.dot [1] [0] [] []) [⟨[4, 5], w⟩, ⟨[5, 2], x⟩] =
      some (mkArr [4, 2] (opVal (.dot [1] [0] [] []) [⟨[4, 5], w⟩, ⟨[5, 2], x⟩])) := by
    simp only [opSem, List.map_cons, List.map_nil]
    rw [show opShape noOthers (.dot [1] [0] [] []) [[4, 5], [5, 2]] = some [4, 2] by decide]
    rfl
  generalize mkArr [4, 2] (opVal (.dot [1] [0] [] []) [⟨[4, 5], w⟩, ⟨[5, 2], x⟩]) = a at hd
  have ha := opSem_shape hd
  simp only [List.map_cons, List.map_nil] at ha
  rw [show opShape noOthers (.dot [1] [0] [] []) [[4, 5], [5, 2]] = some [4, 2] by decide] at ha
  injection ha with ha
  have ht : opSem noOthers (.transpose [1, 0]) [a] = some (mkArr [2, 4] (opVal (.transpose [1, 0]) [a])) := by
    simp only [opSem, List.map_cons, List.map_nil, ← ha]
    rw [show opShape noOthers (.transpose [1, 0]) [[4, 2]] = some [2, 4] by decide]
    rfl
  refine ⟨_, eval_app.2 ⟨[a], evalAll_cons.2 ⟨a, [], eval_app.2 ⟨_, ?_, hd⟩, rfl, rfl⟩, ht⟩, rfl, by decide⟩
  simp [evalAll, eval]

end Verif.Autoconj
