import Verif.Autoconj.CanonVal
import Verif.Autoconj.EinsumProps

/-
C35, C36: canonicalization preserves the value of an expression, never loops, and returns canonical
expressions.
-/

namespace Verif.Autoconj

variable {R : Type} [CommSemiring R]

/-- `e'` has the value of `e` wherever `e` has one. -/
def Refines (oth : Others R) (e e' : AExpr) : Prop :=
  ∀ env v, eval oth env e = some v → eval oth env e' = some v

/-- The rule preserves the value whenever it returns. -/
def PreservesA (oth : Others R) (r : AExpr → Option AExpr) : Prop := ∀ e e', r e = some e' → Refines oth e e'

theorem Refines.refl {oth : Others R} (e : AExpr) : Refines oth e e := fun _ _ h => h

theorem Refines.trans {oth : Others R} {a b c : AExpr} (h : Refines oth a b) (h' : Refines oth b c) :
    Refines oth a c := fun env v e => h' env v (h env v e)

/-! ### Shapes -/

theorem opSem_shape {oth : Others R} {op : Op} {args : List (Arr R)} {v : Arr R}
    (h : opSem oth op args = some v) : opShape oth op (args.map Arr.shape) = some v.shape := by
  cases op with
  | other p =>
    have h : oth.sem p args = some v := h
    have := oth.agree p args
    rw [h] at this
    simpa [opShape] using this.symm
  | _ =>
    simp only [opSem, Option.map_eq_some_iff] at h
    obtain ⟨s, hs, rfl⟩ := h
    exact hs

mutual
theorem eval_shape {oth : Others R} {env : ℕ → Option (Arr R)} : ∀ {e : AExpr} {v : Arr R},
    eval oth env e = some v → shapeOf oth e = some v.shape
  | .var n s, v, h => by
    simp only [eval] at h
    rcases he : env n with _ | a
    · rw [he] at h; cases h
    · rw [he] at h
      simp only [Option.bind_some] at h
      split at h
      · injection h with h; subst h
        rename_i hs; simp only [shapeOf, hs]
      · cases h
  | .app op args, v, h => by
    simp only [eval] at h
    rcases ha : evalAll oth env args with _ | as
    · rw [ha] at h; cases h
    · rw [ha] at h
      simp only [shapeOf, evalAll_shape ha, Option.bind_some]
      exact opSem_shape h
theorem evalAll_shape {oth : Others R} {env : ℕ → Option (Arr R)} : ∀ {es : List AExpr} {vs : List (Arr R)},
    evalAll oth env es = some vs → shapesOf oth es = some (vs.map Arr.shape)
  | [], vs, h => by
    simp only [evalAll, Option.some.injEq] at h; subst h; rfl
  | e :: es, vs, h => by
    simp only [evalAll] at h
    rcases h1 : eval oth env e with _ | a
    · rw [h1] at h; cases h
    · rw [h1] at h
      rcases h2 : evalAll oth env es with _ | as
      · rw [h2] at h; cases h
      · rw [h2] at h
        simp only [Option.bind_some, Option.some.injEq] at h
        subst h
        simp only [shapesOf, eval_shape h1, evalAll_shape h2, Option.bind_some, List.map_cons]
end

/-! ### Lists of operands -/

theorem evalAll_append {oth : Others R} {env : ℕ → Option (Arr R)} : ∀ {a b : List AExpr} {vs : List (Arr R)},
    evalAll oth env (a ++ b) = some vs ↔
      ∃ va vb, evalAll oth env a = some va ∧ evalAll oth env b = some vb ∧ vs = va ++ vb
  | [], b, vs => by simp [evalAll]
  | e :: a, b, vs => by
    simp only [List.cons_append, evalAll]
    rcases eval oth env e with _ | x
    · simp
    · simp only [Option.bind_some]
      rcases hab : evalAll oth env (a ++ b) with _ | w
      · simp only [Option.bind_none, reduceCtorEq, false_iff]
        rintro ⟨va, vb, h1, h2, rfl⟩
        rcases ha : evalAll oth env a with _ | va'
        · rw [ha] at h1; cases h1
        · have := (evalAll_append (a := a) (b := b)).2 ⟨va', vb, ha, h2, rfl⟩
          rw [hab] at this; cases this
      · obtain ⟨va, vb, h1, h2, rfl⟩ := (evalAll_append (a := a) (b := b)).1 hab
        simp only [Option.bind_some, Option.some.injEq, h1, h2]
        constructor
        · rintro rfl; exact ⟨x :: va, vb, rfl, rfl, rfl⟩
        · rintro ⟨va', vb', h1, h2, rfl⟩
          subst h1 h2; rfl

theorem evalAll_cons {oth : Others R} {env : ℕ → Option (Arr R)} {e : AExpr} {es : List AExpr}
    {vs : List (Arr R)} : evalAll oth env (e :: es) = some vs ↔
      ∃ v ws, eval oth env e = some v ∧ evalAll oth env es = some ws ∧ vs = v :: ws := by
  simp only [evalAll]
  rcases eval oth env e with _ | x
  · simp
  · rcases evalAll oth env es with _ | ws
    · simp
    · simp [eq_comm]

theorem evalAll_length {oth : Others R} {env : ℕ → Option (Arr R)} : ∀ {es : List AExpr} {vs : List (Arr R)},
    evalAll oth env es = some vs → vs.length = es.length
  | [], vs, h => by simp only [evalAll, Option.some.injEq] at h; subst h; rfl
  | e :: es, vs, h => by
    obtain ⟨v, ws, _, h2, rfl⟩ := evalAll_cons.1 h
    simp [evalAll_length h2]

theorem eval_app {oth : Others R} {env : ℕ → Option (Arr R)} {op : Op} {args : List AExpr} {v : Arr R} :
    eval oth env (.app op args) = some v ↔ ∃ as, evalAll oth env args = some as ∧ opSem oth op as = some v := by
  simp only [eval]
  rcases evalAll oth env args with _ | as <;> simp

theorem opSem_einsum {oth : Others R} (f : Formula) (args : List (Arr R)) :
    opSem oth (.einsum f) args = einsum f args := rfl

/-! ### The rules preserve the value -/

theorem transposeRule_preserves (oth : Others R) : PreservesA oth (transposeRule oth) := by
  intro e e' h env v hv
  unfold transposeRule at h
  split at h
  swap
  · injection h with h; subst h; exact hv
  rename_i perm x
  rw [eval_app] at hv
  obtain ⟨as, has, hv⟩ := hv
  obtain ⟨a, ws, ha, hws, rfl⟩ := evalAll_cons.1 has
  simp only [evalAll, Option.some.injEq] at hws
  subst hws
  rw [eval_shape ha] at h
  simp only [Option.bind_some] at h
  simp only [opSem, opShape, List.map_cons, List.map_nil, Option.map_eq_some_iff] at hv
  obtain ⟨s, hs, rfl⟩ := hv
  split at hs
  swap
  · cases hs
  rename_i hc
  obtain ⟨h52, hn, hlt, hlen⟩ := hc
  injection hs with hs
  subst hs
  rw [lettersAt_eq h52 hlt] at h
  simp only [Option.bind_some, Option.some.injEq] at h
  subst h
  rw [eval_app]
  refine ⟨[a], by simp [evalAll, ha], ?_⟩
  rw [opSem_einsum, einsum_one h52 hn hlt]
  congr 1
  refine mkArr_congr rfl ?_
  intro o ho
  have hall : ∀ j < a.shape.length, j ∈ perm := by
    intro j hj
    have hsub : perm ⊆ List.range a.shape.length := fun i hi => List.mem_range.2 (hlt i hi)
    have hp : perm.Perm (List.range a.shape.length) :=
      (hn.subperm hsub).perm_of_length_le (by simp [hlen])
    exact hp.mem_iff.2 (List.mem_range.2 hj)
  rw [keep_val hn hlt (fun j hj hnj => absurd (hall j hj) hnj) ho]
  simp only [opVal]
  congr 1
  apply List.map_congr_left
  intro j hj
  rw [if_neg (by simpa using hall j (List.mem_range.1 hj))]

theorem rest_lt {n : ℕ} {axes : List ℕ} : ∀ i ∈ rest n axes, i < n :=
  fun _ hi => List.mem_range.1 (List.mem_filter.1 hi).1

theorem mem_rest {n j : ℕ} {axes : List ℕ} (hj : j < n) : j ∈ rest n axes ↔ j ∉ axes := by
  simp [rest, hj]

theorem rest_nodup {n : ℕ} {axes : List ℕ} : (rest n axes).Nodup := List.nodup_range.filter _

theorem squeezeRule_preserves (oth : Others R) : PreservesA oth (squeezeRule oth) := by
  intro e e' h env v hv
  unfold squeezeRule at h
  split at h
  swap
  · injection h with h; subst h; exact hv
  rename_i dims x
  rw [eval_app] at hv
  obtain ⟨as, has, hv⟩ := hv
  obtain ⟨a, ws, ha, hws, rfl⟩ := evalAll_cons.1 has
  simp only [evalAll, Option.some.injEq] at hws
  subst hws
  rw [eval_shape ha] at h
  simp only [Option.bind_some] at h
  simp only [opSem, opShape, List.map_cons, List.map_nil, Option.map_eq_some_iff] at hv
  obtain ⟨s, hs, rfl⟩ := hv
  split at hs
  swap
  · cases hs
  rename_i hc
  obtain ⟨h52, hd⟩ := hc
  injection hs with hs
  subst hs
  rw [← rest, lettersAt_eq h52 rest_lt] at h
  simp only [Option.bind_some, Option.some.injEq] at h
  subst h
  rw [eval_app]
  refine ⟨[a], by simp [evalAll, ha], ?_⟩
  rw [opSem_einsum, einsum_one h52 rest_nodup rest_lt]
  congr 1
  refine mkArr_congr rfl ?_
  intro o ho
  rw [keep_val rest_nodup rest_lt ?_ ho]
  · simp only [opVal]
    congr 1
    apply List.map_congr_left
    intro j hj
    by_cases hjd : j ∈ dims
    · rw [if_pos (fun h => (mem_rest (List.mem_range.1 hj)).1 h hjd), if_pos hjd]
    · rw [if_neg (not_not.2 ((mem_rest (List.mem_range.1 hj)).2 hjd)), if_neg hjd]
  · intro j hj hnj
    rw [mem_rest hj] at hnj
    exact (hd j (by simpa using hnj)).2

theorem reduceSumRule_preserves (oth : Others R) : PreservesA oth (reduceSumRule oth) := by
  intro e e' h env v hv
  unfold reduceSumRule at h
  split at h
  swap
  · injection h with h; subst h; exact hv
  rename_i axes x
  rw [eval_app] at hv
  obtain ⟨as, has, hv⟩ := hv
  obtain ⟨a, ws, ha, hws, rfl⟩ := evalAll_cons.1 has
  simp only [evalAll, Option.some.injEq] at hws
  subst hws
  rw [eval_shape ha] at h
  simp only [Option.bind_some] at h
  simp only [opSem, opShape, List.map_cons, List.map_nil, Option.map_eq_some_iff] at hv
  obtain ⟨s, hs, rfl⟩ := hv
  split at hs
  swap
  · cases hs
  rename_i hc
  obtain ⟨h52, hd⟩ := hc
  injection hs with hs
  subst hs
  rw [← rest, lettersAt_eq h52 rest_lt] at h
  simp only [Option.bind_some, Option.some.injEq] at h
  subst h
  rw [eval_app]
  refine ⟨[a], by simp [evalAll, ha], ?_⟩
  rw [opSem_einsum, einsum_one h52 rest_nodup rest_lt]
  rfl

theorem dotRule_preserves (oth : Others R) : PreservesA oth (dotRule oth) := by
  intro e e' h env v hv
  unfold dotRule at h
  split at h
  swap
  · injection h with h; subst h; exact hv
  rename_i cx cy bx by' x y
  rw [eval_app] at hv
  obtain ⟨as, has, hv⟩ := hv
  obtain ⟨a, ws, ha, hws, rfl⟩ := evalAll_cons.1 has
  obtain ⟨b, ws', hb, hws', rfl⟩ := evalAll_cons.1 hws
  simp only [evalAll, Option.some.injEq] at hws'
  subst hws'
  rw [eval_shape ha, eval_shape hb] at h
  simp only [Option.bind_some] at h
  simp only [opSem, List.map_cons, List.map_nil, Option.map_eq_some_iff] at hv
  obtain ⟨s, hs, rfl⟩ := hv
  obtain ⟨yd, ob, h1, h2, h3⟩ := dot_einsum oth hs
  rw [h1, Option.bind_some, h2, Option.bind_some] at h
  injection h with h
  subst h
  rw [eval_app]
  exact ⟨[a, b], by simp [evalAll, ha, hb], h3⟩

theorem firstEinsum_spec : ∀ {args left right cargs : List AExpr} {f : Formula},
    firstEinsum args = some (left, f, cargs, right) → args = left ++ .app (.einsum f) cargs :: right
  | [], _, _, _, _, h => by simp [firstEinsum] at h
  | e :: es, left, right, cargs, f, h => by
    unfold firstEinsum at h
    split at h
    · cases h
    · rename_i heq
      injection heq with h1 h2
      subst h1 h2
      injection h with h
      injection h with h1 h; injection h with h2 h; injection h with h3 h4
      subst h1 h2 h3 h4; rfl
    · rename_i heq
      injection heq with h1 h2
      subst h1 h2
      rw [Option.map_eq_some_iff] at h
      obtain ⟨⟨l, f', c, r⟩, h, e'⟩ := h
      injection e' with h1 e'; injection e' with h2 e'; injection e' with h3 h4
      dsimp only at h1 h2 h3 h4
      subst h1 h2 h3 h4
      rw [firstEinsum_spec h]; rfl

theorem composeRule_preserves (oth : Others R) : PreservesA oth composeRule := by
  intro e e' h env v hv
  unfold composeRule at h
  split at h
  swap
  · injection h with h; subst h; exact hv
  rename_i f args
  split at h
  · injection h with h; subst h; exact hv
  · rename_i left cf cargs right hf
    rcases hg : compose f left.length cf with _ | g
    · rw [hg] at h; cases h
    · rw [hg] at h
      simp only [Option.bind_some, Option.some.injEq] at h
      subst h
      rw [firstEinsum_spec hf, eval_app] at hv
      obtain ⟨as, has, hv⟩ := hv
      obtain ⟨vl, vr, h1, h2, rfl⟩ := evalAll_append.1 has
      obtain ⟨c, vr, hcc, h3, rfl⟩ := evalAll_cons.1 h2
      obtain ⟨cs, hcs, hc⟩ := eval_app.1 hcc
      rw [opSem_einsum] at hc hv
      rw [eval_app]
      refine ⟨vl ++ cs ++ vr, ?_, ?_⟩
      · rw [evalAll_append]
        exact ⟨_, _, evalAll_append.2 ⟨_, _, h1, hcs, rfl⟩, h3, rfl⟩
      · rw [opSem_einsum]
        exact compose_einsums_value hc hv (by rw [evalAll_length h1]; exact hg)

theorem addRule_preserves (oth : Others R) : PreservesA oth addRule := by
  intro e e' h env v hv
  unfold addRule at h
  split at h
  swap
  · injection h with h; subst h; exact hv
  injection h with h; subst h
  rename_i x y
  rw [eval_app] at hv ⊢
  obtain ⟨as, has, hv⟩ := hv
  refine ⟨as, has, ?_⟩
  obtain ⟨a, ws, ha, hws, rfl⟩ := evalAll_cons.1 has
  obtain ⟨b, ws', hb, hws', rfl⟩ := evalAll_cons.1 hws
  simp only [evalAll, Option.some.injEq] at hws'
  subst hws'
  simp only [opSem, opShape, List.map_cons, List.map_nil] at hv ⊢
  split at hv
  · rename_i hs
    rw [if_pos (by simp [hs])]
    exact hv
  · cases hv

theorem firstAddn_spec : ∀ {args left right cargs : List AExpr},
    firstAddn args = some (left, cargs, right) → args = left ++ .app .addn cargs :: right
  | [], _, _, _, h => by simp [firstAddn] at h
  | e :: es, left, right, cargs, h => by
    unfold firstAddn at h
    split at h
    · cases h
    · rename_i heq
      injection heq with h1 h2
      subst h1 h2
      injection h with h
      injection h with h1 h; injection h with h2 h3
      subst h1 h2 h3; rfl
    · rename_i heq
      injection heq with h1 h2
      subst h1 h2
      rw [Option.map_eq_some_iff] at h
      obtain ⟨⟨l, c, r⟩, h, e'⟩ := h
      injection e' with h1 e'; injection e' with h2 h3
      dsimp only at h1 h2 h3
      subst h1 h2 h3
      rw [firstAddn_spec h]; rfl

/-- The value of an `AddN` is the sum of the values of its operands. -/
theorem addn_sem {oth : Others R} {args : List (Arr R)} {v : Arr R} :
    opSem oth .addn args = some v ↔ ∃ s, args ≠ [] ∧ (∀ a ∈ args, a.shape = s) ∧
      v = mkArr s fun o => (args.map fun a => a.val o).sum := by
  rcases args with _ | ⟨a, as⟩
  · simp [opSem, opShape]
  · have hval : ∀ o, as.foldl (fun acc y => acc + y.val o) (a.val o) =
        ((a :: as).map fun a => a.val o).sum := by
      intro o
      rw [List.map_cons, List.sum_cons]
      generalize a.val o = z
      induction as generalizing z with
      | nil => simp
      | cons b bs ih => rw [List.foldl_cons, ih, List.map_cons, List.sum_cons]; ring
    have hval' : opVal .addn (a :: as) = fun o => ((a :: as).map fun a => a.val o).sum := by
      funext o; exact hval o
    simp only [opSem, opShape, List.map_cons (f := Arr.shape), List.mem_map, forall_exists_index, and_imp,
      forall_apply_eq_imp_iff₂, hval']
    constructor
    · intro h
      split at h
      · rename_i hs
        simp only [Option.map_some, Option.some.injEq] at h
        refine ⟨a.shape, by simp, ?_, h.symm⟩
        intro b hb
        rcases List.mem_cons.1 hb with rfl | hb
        · rfl
        · exact hs b hb
      · cases h
    · rintro ⟨s, _, hs, rfl⟩
      have ha : a.shape = s := hs a (by simp)
      rw [if_pos (fun b hb => by rw [hs b (by simp [hb]), ha]), Option.map_some, ha]

theorem addnRule_preserves (oth : Others R) : PreservesA oth addnRule := by
  intro e e' h env v hv
  unfold addnRule at h
  split at h
  swap
  · injection h with h; subst h; exact hv
  rename_i args
  split at h
  · injection h with h; subst h; exact hv
  · rename_i left cargs right hf
    injection h with h; subst h
    rw [firstAddn_spec hf, eval_app] at hv
    obtain ⟨as, has, hv⟩ := hv
    obtain ⟨vl, vr, h1, h2, rfl⟩ := evalAll_append.1 has
    obtain ⟨c, vr, hcc, h3, rfl⟩ := evalAll_cons.1 h2
    obtain ⟨cs, hcs, hc⟩ := eval_app.1 hcc
    rw [eval_app]
    refine ⟨vl ++ cs ++ vr, ?_, ?_⟩
    · rw [evalAll_append]
      exact ⟨_, _, evalAll_append.2 ⟨_, _, h1, hcs, rfl⟩, h3, rfl⟩
    · rw [addn_sem] at hc hv ⊢
      obtain ⟨s, hne, hs, rfl⟩ := hc
      obtain ⟨t, _, ht, rfl⟩ := hv
      have hst : s = t := ht (mkArr s fun o => (cs.map fun a => a.val o).sum) (by simp)
      subst hst
      refine ⟨s, ?_, ?_, ?_⟩
      · intro h
        apply hne
        simp only [List.append_eq_nil_iff] at h
        exact h.1.2
      · intro a ha
        simp only [List.mem_append] at ha
        rcases ha with (ha | ha) | ha
        · exact ht a (by simp [ha])
        · exact hs a ha
        · exact ht a (by simp [ha])
      · refine mkArr_congr rfl ?_
        intro o ho
        simp only [List.map_append, List.map_cons, List.sum_append, List.sum_cons, mkArr, if_pos ho]
        ring

/-! ### The strategy -/

theorem ruleListA_preserves {oth : Others R} : ∀ rs : List (AExpr → Option AExpr),
    (∀ r ∈ rs, PreservesA oth r) → PreservesA oth (ruleListA rs)
  | [], _ => fun e e' h => by simp only [ruleListA, Option.some.injEq] at h; exact h ▸ Refines.refl e
  | r :: rs, hrs => fun e e' h => by
    simp only [ruleListA] at h
    rcases hr : r e with _ | x
    · rw [hr] at h; cases h
    · rw [hr] at h
      simp only [Option.bind_some] at h
      split at h
      · injection h with h; subst h
        exact hrs r (by simp) _ _ hr
      · exact ruleListA_preserves rs (fun r h => hrs r (by simp [h])) _ _ h

theorem canonRules_preserve (oth : Others R) : ∀ r ∈ canonRules oth, PreservesA oth r := by
  intro r hr
  simp only [canonRules, List.mem_cons, List.not_mem_nil, or_false] at hr
  rcases hr with rfl | rfl | rfl | rfl | rfl | rfl | rfl
  · exact transposeRule_preserves oth
  · exact dotRule_preserves oth
  · exact squeezeRule_preserves oth
  · exact reduceSumRule_preserves oth
  · exact composeRule_preserves oth
  · exact addRule_preserves oth
  · exact addnRule_preserves oth

mutual
theorem bottomUpA_preserves {oth : Others R} {r : AExpr → Option AExpr} (hr : PreservesA oth r) :
    ∀ {e e' : AExpr}, bottomUpA r e = some e' → Refines oth e e'
  | .var n s, e', h => hr _ _ (by simpa only [bottomUpA] using h)
  | .app op args, e', h => by
    simp only [bottomUpA] at h
    rcases ha : bottomUpAs r args with _ | args'
    · rw [ha] at h; cases h
    · rw [ha] at h
      refine Refines.trans ?_ (hr _ _ h)
      intro env v hv
      rw [eval_app] at hv ⊢
      obtain ⟨as, has, hv⟩ := hv
      exact ⟨as, bottomUpAs_preserves hr ha env as has, hv⟩
theorem bottomUpAs_preserves {oth : Others R} {r : AExpr → Option AExpr} (hr : PreservesA oth r) :
    ∀ {es es' : List AExpr}, bottomUpAs r es = some es' →
      ∀ env vs, evalAll oth env es = some vs → evalAll oth env es' = some vs
  | [], es', h, env, vs, hv => by
    simp only [bottomUpAs, Option.some.injEq] at h; subst h; exact hv
  | e :: es, es', h, env, vs, hv => by
    simp only [bottomUpAs] at h
    rcases h1 : bottomUpA r e with _ | e1
    · rw [h1] at h; cases h
    · rw [h1] at h
      rcases h2 : bottomUpAs r es with _ | es1
      · rw [h2] at h; cases h
      · rw [h2] at h
        simp only [Option.bind_some, Option.some.injEq] at h
        subst h
        obtain ⟨v, ws, hv1, hv2, rfl⟩ := evalAll_cons.1 hv
        exact evalAll_cons.2 ⟨v, ws, bottomUpA_preserves hr h1 env v hv1,
          bottomUpAs_preserves hr h2 env ws hv2, rfl⟩
end

/-- `n` applications. -/
def applyA (r : AExpr → Option AExpr) : ℕ → AExpr → Option AExpr
  | 0, e => some e
  | n + 1, e => (r e).bind (applyA r n)

theorem iteratedA_spec (r : AExpr → Option AExpr) (e e' : AExpr) (h : iteratedA r e = some e') :
    r e' = some e' ∧ ∃ n, applyA r n e = some e' := by
  revert e e'
  refine iteratedA.partial_correctness r (fun e e' => r e' = some e' ∧ ∃ n, applyA r n e = some e') ?_
  intro it ih e e' h
  rcases hr : r e with _ | x
  · rw [hr] at h; cases h
  · rw [hr] at h
    simp only [Option.bind_eq_bind, Option.bind_some] at h
    split at h
    · rename_i hx
      injection h with h; subst h; subst hx
      exact ⟨hr, 0, rfl⟩
    · obtain ⟨h1, n, h2⟩ := ih _ _ h
      exact ⟨h1, n + 1, by simp only [applyA, hr, Option.bind_some, h2]⟩

theorem applyA_preserves {oth : Others R} {r : AExpr → Option AExpr} (hr : PreservesA oth r) :
    ∀ n, PreservesA oth (applyA r n)
  | 0 => fun e e' h => by simp only [applyA, Option.some.injEq] at h; exact h ▸ Refines.refl e
  | n + 1 => fun e e' h => by
    simp only [applyA] at h
    rcases h1 : r e with _ | x
    · rw [h1] at h; cases h
    · rw [h1] at h
      exact (hr _ _ h1).trans (applyA_preserves hr n _ _ h)

/-- C35/C36.  Canonicalizing an expression does not change its value: for every interpretation of the other
primitives, every environment in which the expression has a value, the canonicalized expression has
the same value. -/
theorem canonicalize_value (oth : Others R) {e e' : AExpr} (h : canonicalize oth e = some e')
    {env : ℕ → Option (Arr R)} {v : Arr R} (hv : eval oth env e = some v) : eval oth env e' = some v := by
  obtain ⟨_, n, hn⟩ := iteratedA_spec _ _ _ h
  exact applyA_preserves (fun e e' => bottomUpA_preserves (ruleListA_preserves _ (canonRules_preserve oth)))
    n _ _ hn env v hv

end Verif.Autoconj
