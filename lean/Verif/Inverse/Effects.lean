import Verif.Inverse.Grad
import Verif.LogProb.Chain

/-! What executing one equation does: the instances of `Effect`. -/
namespace Verif.Inverse

open Verif.Propagate

variable {S : Type} {n : Nat} {J : Jaxpr ICell F S} {D : Nat → Fin n → ℝ}

/-- The gradient of an atom. -/
def DA (D : Nat → Fin n → ℝ) : Atom F → Fin n → ℝ
  | .lit _ => 0
  | .var y => D y
  | .drop y => D y

/-- The environment after an equation with operation `op`. -/
noncomputable def execEnv (op : Op) (env : Env ICell) (ins outs : List (Atom F)) : Env ICell :=
  let r := op.rule (ins.map (Propagate.read iOps env)) (outs.map (Propagate.read iOps env))
  (writeAll iOps (writeAll iOps env ins r.1).1 outs r.2.1).1

theorem wr_read (env : Env ICell) (a : Atom F) : (write iOps env a (Propagate.read iOps env a)).1 = env := by
  have := LogProb.writeAll_self env [a]
  simpa [writeAll] using this

theorem wr_var_some (env : Env ICell) (x : Nat) (p : F × F) :
    (write iOps env (.var x) (some p)).1 = Function.update env x (some p) := by
  funext y
  by_cases h : y = x
  · subst h; simp [write, iOps]
  · simp [write, iOps, h]

theorem wr_var_self (env : Env ICell) (x : Nat) : (write iOps env (.var x) (env x)).1 = env := wr_read env (.var x)

theorem update_known (env : Env ICell) (x : Nat) (p : F × F) (hx : env x ≠ none) (u : Nat) :
    env u = none ↔ Function.update env x (some p) u = none := by
  by_cases h : u = x
  · subst h; simp [hx]
  · rw [Function.update_of_ne h]

theorem addF_some {a b : F} {c : ℝ} (h : addF a b = some c) : ∃ x y, a = some x ∧ b = some y ∧ c = x + y := by
  simp only [addF, Option.bind_eq_bind, Option.bind_eq_some_iff, Option.pure_def, Option.some.injEq] at h
  obtain ⟨x, hx, y, hy, rfl⟩ := h
  exact ⟨x, y, hx, hy, rfl⟩

theorem un_effect (Y : Layout J D) (e : Nat) (env : Env ICell) (p : Un) (hp : p ≠ .reshape ∧ p ≠ .convert) (a : Atom F)
    (w : Nat) (val : Nat → ℝ) (hdfn : Y.dfn e = [w]) (hops : Y.ops e = [a].filterMap Atom.node)
    (ha : (∃ v, a = .lit v) ∨ ∃ y, a = .var y) (ht : ∀ u, Tells (some (val u)) (env u))
    (hrel : ∃ f' : ℝ, D w = f' • DA D a ∧ ∀ d, p.dlog (val w) = some d → f' ≠ 0 ∧ d = - Real.log |f'|) :
    Effect Y e env (execEnv (.un p) env [a] [.var w]) := by
  have hwd : w ∈ Y.dfn e := by rw [hdfn]; simp
  have hfwd : ∀ (v l v' : F), Propagate.read iOps env a = some (v, l) → env w = none →
      (∀ y ∈ Y.ops e, env y ≠ none) → execEnv (.un p) env [a] [.var w] = Function.update env w (some (v', some 0)) →
      Effect Y e env (execEnv (.un p) env [a] [.var w]) := by
    intro v l v' hc hw hy heq
    rw [heq]
    refine .fwd ?_ ?_ hy ?_
    · intro u hu
      rw [Function.update_of_ne]; rintro rfl; exact hu hw
    · intro u hu hu'
      by_cases huw : u = w
      · subst huw; exact hwd
      · rw [Function.update_of_ne huw] at hu'; exact absurd hu hu'
    · intro u hu
      rw [hdfn, List.mem_singleton] at hu; subst hu; simp
  rcases ha with ⟨v, rfl⟩ | ⟨y, rfl⟩
  · have hops' : Y.ops e = [] := by rw [hops]; simp [Atom.node]
    rcases hw : env w with _ | ⟨z, l⟩
    · refine hfwd v (some 0) (v.bind p.f) rfl hw (by simp [hops']) ?_
      simp only [execEnv, List.map_cons, List.map_nil, Propagate.read, hw, Op.rule]
      simp only [iOps, unRule, writeAll]
      have := wr_var_some env w (v.bind p.f, some 0)
      simpa [write, iOps] using this
    · refine .same ?_
      simp only [execEnv, List.map_cons, List.map_nil, Propagate.read, Op.rule]
      simp only [iOps, hw, unRule, writeAll]
      have := wr_var_self env w
      rw [hw] at this
      simpa [write, iOps] using this
  · have hops' : Y.ops e = [y] := by rw [hops]; simp [Atom.node]
    have hyw : y ≠ w := by
      rintro rfl
      exact absurd (Y.lt y e y hwd (by rw [hops']; simp)) (by omega)
    rcases hy : env y with _ | ⟨b, m⟩ <;> rcases hw : env w with _ | ⟨z, l⟩
    · refine .same ?_
      simp only [execEnv, List.map_cons, List.map_nil, Propagate.read, hy, hw, Op.rule, unRule, writeAll]
      have h1 := wr_var_self env y
      have h2 := wr_var_self env w
      rw [hy] at h1; rw [hw] at h2
      rw [h1, h2]
    · have hz := ht w _ _ hw
      subst hz
      refine .back w y (some (val w)) ((some (val w) : F).bind p.g) l (p.ld l (some (val w))) hdfn (by rw [hops']; simp) hy
        (by rw [hops']; simp) hw ?_ ?_
      · simp only [execEnv, List.map_cons, List.map_nil, Propagate.read, hy, hw, Op.rule, unRule, writeAll]
        rw [wr_var_some, wr_var_some, Function.update_comm hyw, ← hw, Function.update_eq_self]
      · have hld : p.ld l (some (val w)) = addF l (p.dlog (val w)) := by
          cases p <;> first | rfl | exact absurd rfl hp.1 | exact absurd rfl hp.2
        rw [hld]
        rcases hres : addF l (p.dlog (val w)) with _ | c
        · exact .inl rfl
        · right
          obtain ⟨x0, d, rfl, hd, rfl⟩ := addF_some hres
          obtain ⟨f', h1, h2⟩ := hrel
          obtain ⟨h3, rfl⟩ := h2 d hd
          refine ⟨x0, f', rfl, h3, by rw [sub_eq_add_neg], ?_⟩
          rw [h1]
          simp [DA]
    · refine hfwd b m (b.bind p.f) hy hw (by rw [hops']; simp [hy]) ?_
      simp only [execEnv, List.map_cons, List.map_nil, Propagate.read, hy, hw, Op.rule, unRule, writeAll]
      rw [← hy, wr_var_self, wr_var_some]
    · refine .same ?_
      simp only [execEnv, List.map_cons, List.map_nil, Propagate.read, hy, hw, Op.rule, unRule, writeAll]
      have h1 := wr_var_self env y
      have h2 := wr_var_self env w
      rw [hy] at h1; rw [hw] at h2
      rw [h1, h2]

theorem bin_exec (p : Bin) (env : Env ICell) (a b : Atom F) (w : Nat) :
    execEnv (.bin p) env [a, b] [.var w] =
      match Propagate.read iOps env a, Propagate.read iOps env b, env w with
      | some (u, _), _, some (v, l) =>
        (write iOps (write iOps env b (some (bind2 p.gl u v, addF l (bind2 p.ll u v)))).1 (.var w) (some (v, l))).1
      | none, some (u, _), some (v, l) =>
        (write iOps (write iOps (write iOps env a (some (bind2 p.gr u v, addF l (bind2 p.lr u v)))).1 b
          (Propagate.read iOps env b)).1 (.var w) (some (v, l))).1
      | some (u, _), some (v, _), none => (write iOps env (.var w) (some (bind2 p.f u v, some 0))).1
      | _, _, _ => env := by
  have hA := wr_read env a
  have hB := wr_read env b
  have hW := wr_var_self env w
  have hr : Propagate.read iOps env (Atom.var w) = env w := rfl
  simp only [execEnv, List.map_cons, List.map_nil, hr, Op.rule]
  rcases hca : Propagate.read iOps env a with _ | ⟨u, lu⟩ <;> rcases hcb : Propagate.read iOps env b with _ | ⟨v, lv⟩ <;>
    rcases hcw : env w with _ | ⟨z, l⟩ <;> rw [hca] at hA <;> rw [hcb] at hB <;> rw [hcw] at hW <;>
    simp only [binRule, writeAll, hA, hB, hW]

theorem bin_effect (Y : Layout J D) (e : Nat) (env : Env ICell) (p : Bin) (a b : Atom F)
    (w : Nat) (val : Nat → ℝ) (hdfn : Y.dfn e = [w]) (hops : Y.ops e = [a, b].filterMap Atom.node)
    (ha : (∃ v, a = .lit v) ∨ ∃ y, a = .var y) (hb : (∃ v, b = .lit v) ∨ ∃ y, b = .var y)
    (ht : ∀ u, Tells (some (val u)) (env u)) (ra rb : ℝ) (hra : aval val a = some ra) (hrb : aval val b = some rb)
    (hrel : ∃ α β : ℝ, D w = α • DA D a + β • DA D b ∧
      (∀ d, p.ll ra (val w) = some d → β ≠ 0 ∧ d = - Real.log |β|) ∧
      (∀ d, p.lr rb (val w) = some d → α ≠ 0 ∧ d = - Real.log |α|)) :
    Effect Y e env (execEnv (.bin p) env [a, b] [.var w]) := by
  have hwd : w ∈ Y.dfn e := by rw [hdfn]; simp
  have hmem : ∀ c, c = a ∨ c = b → ∀ y, c = .var y → y ∈ Y.ops e := by
    rintro c (rfl | rfl) y rfl <;> rw [hops] <;> simp [Atom.node, List.mem_filterMap]
  have hne : ∀ c, c = a ∨ c = b → ∀ y, c = .var y → y ≠ w := by
    intro c hc y hy hyw
    subst hyw
    exact absurd (Y.lt y e y hwd (hmem c hc y hy)) (by omega)
  have hops' : ∀ y ∈ Y.ops e, a = .var y ∨ b = .var y := by
    intro y hy
    rw [hops, List.mem_filterMap] at hy
    obtain ⟨c, hc, hcy⟩ := hy
    have : c = .var y := by
      have hcc : (∃ v, c = .lit v) ∨ ∃ y, c = .var y := by
        rcases List.mem_pair.1 hc with rfl | rfl
        · exact ha
        · exact hb
      rcases hcc with ⟨v, rfl⟩ | ⟨y', rfl⟩
      · simp [Atom.node] at hcy
      · simp [Atom.node] at hcy; rw [hcy]
    rcases List.mem_pair.1 hc with rfl | rfl
    · exact .inl this
    · exact .inr this
  have hcell : ∀ c : Atom F, ((∃ v, c = .lit v) ∨ ∃ y, c = .var y) → ∀ v l, Propagate.read iOps env c = some (v, l) →
      v = aval val c := by
    rintro c (⟨v, rfl⟩ | ⟨y, rfl⟩) v' l h
    · simp [Propagate.read, iOps] at h; exact h.1.symm
    · exact ht y _ _ h
  -- the span of the other operand
  have hin : ∀ (c : Atom F) (x : Nat), c = a ∨ c = b → c ≠ .var x →
      DA D c ∈ Submodule.span ℝ (D '' {y | y ∈ Y.ops e ∧ y ≠ x}) := by
    intro c x hc hcx
    have hcc : (∃ v, c = .lit v) ∨ ∃ y, c = .var y := by
      rcases hc with rfl | rfl
      · exact ha
      · exact hb
    rcases hcc with ⟨v, rfl⟩ | ⟨y, rfl⟩
    · exact Submodule.zero_mem _
    · exact Submodule.subset_span ⟨y, ⟨hmem _ hc y rfl, fun h => hcx (by rw [h])⟩, rfl⟩
  obtain ⟨α, β, hD, hβ, hα⟩ := hrel
  rw [bin_exec]
  rcases hca : Propagate.read iOps env a with _ | ⟨u, lu⟩
  · -- left operand unknown
    obtain ⟨x, rfl⟩ : ∃ x, a = .var x := by
      rcases ha with ⟨v, rfl⟩ | h
      · simp [Propagate.read, iOps] at hca
      · exact h
    have hx : env x = none := hca
    rcases hcb : Propagate.read iOps env b with _ | ⟨v, lv⟩
    · exact .same rfl
    · rcases hcw : env w with _ | ⟨z, l⟩
      · exact .same rfl
      · have hbx : b ≠ .var x := by
          rintro rfl; rw [show Propagate.read iOps env (Atom.var x) = env x from rfl, hx] at hcb; simp at hcb
        have hz := ht w _ _ hcw
        subst hz
        have hv := hcell b hb _ _ hcb
        rw [hrb] at hv
        subst hv
        refine .back w x _ (bind2 p.gr (some rb) (some (val w))) l (addF l (bind2 p.lr (some rb) (some (val w)))) hdfn (hmem _ (.inl rfl) x rfl) hx ?_ hcw ?_ ?_
        · intro y hy hyx
          rcases hops' y hy with h | h
          · exact absurd (Atom.var.inj h).symm hyx
          · subst h; rw [show Propagate.read iOps env (Atom.var y) = env y from rfl] at hcb; rw [hcb]; simp
        · show (write iOps (write iOps (write iOps env (.var x) _).1 b (some (some rb, lv))).1 (.var w) (some (some (val w), l))).1 = _
          have h1 := wr_var_some env x (bind2 p.gr (some rb) (some (val w)), addF l (bind2 p.lr (some rb) (some (val w))))
          rw [h1]
          have h2 : (write iOps (Function.update env x (some (bind2 p.gr (some rb) (some (val w)), addF l (bind2 p.lr (some rb) (some (val w)))))) b
              (some (some rb, lv))).1 = Function.update env x (some (bind2 p.gr (some rb) (some (val w)), addF l (bind2 p.lr (some rb) (some (val w))))) := by
            rcases hb with ⟨v, rfl⟩ | ⟨y, rfl⟩
            · rfl
            · have hyx : y ≠ x := fun h => hbx (by rw [h])
              have hey : env y = some (some rb, lv) := hcb
              rw [wr_var_some, Function.update_comm hyx.symm, ← hey, Function.update_eq_self]
          rw [h2, wr_var_some, Function.update_comm (hne _ (.inl rfl) x rfl), ← hcw, Function.update_eq_self]
        · rcases hres : addF l (bind2 p.lr (some rb) (some (val w))) with _ | c
          · exact .inl rfl
          · right
            obtain ⟨x0, d, rfl, hd, rfl⟩ := addF_some hres
            obtain ⟨h3, rfl⟩ := hα d hd
            refine ⟨x0, α, rfl, h3, by rw [sub_eq_add_neg], ?_⟩
            rw [hD, show DA D (Atom.var x) = D x from rfl, add_sub_cancel_left]
            exact Submodule.smul_mem _ _ (hin b x (.inr rfl) hbx)
  · have hak : ∀ y, a = .var y → env y ≠ none := by
      rintro y rfl; rw [show Propagate.read iOps env (Atom.var y) = env y from rfl] at hca; rw [hca]; simp
    have hu := hcell a ha _ _ hca
    rw [hra] at hu
    subst hu
    rcases hcw : env w with _ | ⟨z, l⟩
    · rcases hcb : Propagate.read iOps env b with _ | ⟨v, lv⟩
      · exact .same rfl
      · show Effect Y e env (write iOps env (.var w) _).1
        rw [wr_var_some]
        refine .fwd ?_ ?_ ?_ ?_
        · intro u hu
          rw [Function.update_of_ne]; rintro rfl; exact hu hcw
        · intro u hu hu'
          by_cases huw : u = w
          · subst huw; exact hwd
          · rw [Function.update_of_ne huw] at hu'; exact absurd hu hu'
        · intro y hy
          rcases hops' y hy with h | h
          · exact hak y h
          · subst h; rw [show Propagate.read iOps env (Atom.var y) = env y from rfl] at hcb; rw [hcb]; simp
        · intro u hu
          rw [hdfn, List.mem_singleton] at hu; subst hu; simp
    · have hz := ht w _ _ hcw
      subst hz
      show Effect Y e env (write iOps (write iOps env b _).1 (.var w) _).1
      rcases hb with ⟨v, rfl⟩ | ⟨x, rfl⟩
      · refine .same ?_
        show (write iOps env (.var w) (some (some (val w), l))).1 = env
        rw [← hcw, wr_var_self]
      · have hxw := hne _ (.inr rfl) x rfl
        have henv : (write iOps (write iOps env (.var x) (some (bind2 p.gl (some ra) (some (val w)), addF l (bind2 p.ll (some ra) (some (val w)))))).1
            (.var w) (some (some (val w), l))).1 =
            Function.update env x (some (bind2 p.gl (some ra) (some (val w)), addF l (bind2 p.ll (some ra) (some (val w))))) := by
          rw [wr_var_some, wr_var_some, Function.update_comm hxw, ← hcw, Function.update_eq_self]
        rw [henv]
        by_cases hx : env x = none
        · have hax : a ≠ .var x := fun h => hak x h hx
          refine .back w x _ _ l _ hdfn (hmem _ (.inr rfl) x rfl) hx ?_ hcw rfl ?_
          · intro y hy hyx
            rcases hops' y hy with h | h
            · exact hak y h
            · exact absurd (Atom.var.inj h).symm hyx
          · rcases hres : addF l (bind2 p.ll (some ra) (some (val w))) with _ | c
            · exact .inl rfl
            · right
              obtain ⟨x0, d, rfl, hd, rfl⟩ := addF_some hres
              obtain ⟨h3, rfl⟩ := hβ d hd
              refine ⟨x0, β, rfl, h3, by rw [sub_eq_add_neg], ?_⟩
              rw [hD, show DA D (Atom.var x) = D x from rfl, add_sub_cancel_right]
              exact Submodule.smul_mem _ _ (hin a x (.inl rfl) hax)
        · refine .again w hwd (by rw [hcw]; simp) ?_ (update_known env x _ hx)
          intro y hy
          rcases hops' y hy with h | h
          · exact hak y h
          · obtain rfl := Atom.var.inj h; exact hx

theorem writeAll_vars_some (env : Env ICell) (ws : List Nat) (vs : List F) (hnd : ws.Nodup)
    (hlen : vs.length = ws.length) :
    (∀ u ∉ ws, (writeAll iOps env (ws.map Atom.var) (vs.map (fun v => some (v, some 0)))).1 u = env u) ∧
    ∀ u ∈ ws, (writeAll iOps env (ws.map Atom.var) (vs.map (fun v => some (v, some 0)))).1 u ≠ none := by
  induction ws generalizing env vs with
  | nil => exact ⟨fun u _ => by cases vs <;> rfl, fun u hu => by simp at hu⟩
  | cons w ws ih =>
    obtain _ | ⟨v, vs⟩ := vs
    · simp at hlen
    · obtain ⟨h1, h2⟩ := ih (write iOps env (.var w) (some (v, some 0))).1 vs (List.nodup_cons.1 hnd).2 (by simpa using hlen)
      simp only [List.map_cons, writeAll]
      refine ⟨?_, ?_⟩
      · intro u hu
        rw [List.mem_cons, not_or] at hu
        rw [h1 u hu.2, wr_var_some, Function.update_of_ne hu.1]
      · intro u hu
        rcases List.mem_cons.1 hu with rfl | hu
        · rw [h1 u (List.nodup_cons.1 hnd).1, wr_var_some]; simp
        · exact h2 u hu

theorem other_effect (Y : Layout J D) (e : Nat) (env : Env ICell) (h : List F → List F) (ins : List (Atom F))
    (ws : List Nat) (hnd : ws.Nodup) (val : Nat → ℝ) (hdfn : Y.dfn e = ws) (hops : Y.ops e = ins.filterMap Atom.node)
    (ht : ∀ u, Tells (some (val u)) (env u))
    (hev : h (ins.map (aval val)) = (ws.map Atom.var).map (aval val)) :
    Effect Y e env (execEnv (.other h) env ins (ws.map .var)) := by
  have hself : Effect Y e env (writeAll iOps (writeAll iOps env ins (ins.map (Propagate.read iOps env))).1 (ws.map .var)
      ((ws.map Atom.var).map (Propagate.read iOps env))).1 := by
    refine .same ?_
    rw [LogProb.writeAll_self, LogProb.writeAll_self]
  simp only [execEnv, Op.rule, defRule]
  split
  · rename_i hall
    split
    · rename_i cs hcs
      have hvs := forall2_some _ _ (LogProb.read_tells val env ht ins) cs hcs
      simp only [hvs, hev]
      rw [LogProb.writeAll_self]
      obtain ⟨h1, h2⟩ := writeAll_vars_some env ws ((ws.map Atom.var).map (aval val)) hnd (by simp)
      have hnone : ∀ u ∈ ws, env u = none := by
        intro u hu
        simp only [List.all_eq_true, List.mem_map, Option.isNone_iff_eq_none] at hall
        exact hall _ ⟨.var u, ⟨u, hu, rfl⟩, rfl⟩
      refine .fwd ?_ ?_ ?_ ?_
      · intro u hu
        exact h1 u fun hm => hu (hnone u hm)
      · intro u hu hu'
        rw [hdfn]
        by_contra hm
        rw [h1 u hm] at hu'
        exact hu' hu
      · intro y hy
        rw [hops, List.mem_filterMap] at hy
        obtain ⟨a, ha, hay⟩ := hy
        have := (LogProb.mapM_read env ins).1 (by rw [hcs]; rfl) y (by rw [List.mem_map]; exact ⟨a, ha, hay⟩)
        exact this
      · intro u hu
        rw [hdfn] at hu
        exact h2 u hu
    · exact hself
  · split <;> exact hself

end Verif.Inverse
