import Verif.LogProb.Props
import Mathlib.LinearAlgebra.Matrix.Determinant.Basic
import Mathlib.LinearAlgebra.Span.Basic
import Mathlib.Data.Real.Basic

/-! The linear algebra behind C27 for graphs.  Every variable `u` has a gradient `D u`.  A run of the propagation
keeps `n` variables, the slots: first the outputs, at the end the inputs.  Inverting an equation replaces its output
by one of its operands; this divides the determinant of the gradients of the slots by the partial derivative. -/
namespace Verif.Inverse

open Verif.Propagate

variable {S : Type} {n : Nat}

/-- The static structure of a program: equation `e` defines the variables `dfn e` (none for a random variable)
from the operands `ops e`, which come earlier, and the gradients of the former depend on those of the latter. -/
structure Layout (J : Jaxpr ICell F S) (D : Nat → Fin n → ℝ) where
  pos : Nat → Nat
  dfn : Nat → List Nat
  ops : Nat → List Nat
  uniq : ∀ u e e', u ∈ dfn e → u ∈ dfn e' → e = e'
  lt : ∀ u e y, u ∈ dfn e → y ∈ ops e → pos y < pos u
  nodes : ∀ (e : Nat) q u y, u ∈ dfn e → J.eqns[e]? = some q → some y ∈ (q.ins ++ q.outs).map Atom.node →
    y ∈ ops e ∨ y ∈ dfn e
  span : ∀ u e, u ∈ dfn e → D u ∈ Submodule.span ℝ (D '' {y | y ∈ ops e})

/-- What executing equation `e` does to the environment. -/
inductive Effect {J : Jaxpr ICell F S} {D : Nat → Fin n → ℝ} (Y : Layout J D) (e : Nat) (env env' : Env ICell) : Prop
  | same (h : env' = env)
  | back (w x : Nat) (v v' l l' : F) (hw : Y.dfn e = [w]) (hx : x ∈ Y.ops e) (hxn : env x = none)
      (hy : ∀ y ∈ Y.ops e, y ≠ x → env y ≠ none) (hwc : env w = some (v, l))
      (henv : env' = Function.update env x (some (v', l')))
      (hl : l' = none ∨ ∃ a α : ℝ, l = some a ∧ α ≠ 0 ∧ l' = some (a - Real.log |α|) ∧
        D w - α • D x ∈ Submodule.span ℝ (D '' {y | y ∈ Y.ops e ∧ y ≠ x}))
  | fwd (h1 : ∀ u, env u ≠ none → env' u = env u) (h2 : ∀ u, env u = none → env' u ≠ none → u ∈ Y.dfn e)
      (h3 : ∀ y ∈ Y.ops e, env y ≠ none) (h4 : ∀ u ∈ Y.dfn e, env' u ≠ none)
  | again (w : Nat) (hw : w ∈ Y.dfn e) (hk : env w ≠ none) (h3 : ∀ y ∈ Y.ops e, env y ≠ none)
      (h1 : ∀ u, env u = none ↔ env' u = none)

variable {J : Jaxpr ICell F S} {D : Nat → Fin n → ℝ}

/-- The combinatorial invariant: the slots are known; a known variable that is no slot is an argument or
comes from an equation that is finished. -/
structure Slots (Y : Layout J D) (Arg : Nat → Prop) (s : St ICell S) (sl : Fin n → Nat) : Prop where
  inj : Function.Injective sl
  known : ∀ i, s.env (sl i) ≠ none
  done : ∀ u, s.env u ≠ none → (∀ i, sl i ≠ u) → Arg u ∨ ∃ e, u ∈ Y.dfn e ∧
    (∀ y, y ∈ Y.ops e ∨ y ∈ Y.dfn e → s.env y ≠ none) ∧ e ∉ s.queue
  nodup : s.queue.Nodup

/-- The numerical invariant. -/
structure Numeric (Y : Layout J D) (d : ℝ) (s : St ICell S) (sl : Fin n → Nat) : Prop where
  span : ∀ u, s.env u ≠ none → D u ∈ Submodule.span ℝ (D '' {y | ∃ i, sl i = y ∧ Y.pos y ≤ Y.pos u})
  det : (∃ i v, s.env (sl i) = some (v, none)) ∨ ∃ (vs : Fin n → F) (ls : Fin n → ℝ),
    (∀ i, s.env (sl i) = some (vs i, some (ls i))) ∧
    d = |(Matrix.of fun i => D (sl i)).det| * Real.exp (-∑ i, ls i)

/-- A slot whose equation can never be inverted. -/
def Stuck (Y : Layout J D) (s : St ICell S) (sl : Fin n → Nat) : Prop :=
  ∃ i e, sl i ∈ Y.dfn e ∧ ∀ y ∈ Y.ops e, s.env y ≠ none

theorem progressed_none (env : Env ICell) (q : Eqn ICell F S) (new : List ICell) (x : Nat)
    (h : x ∈ progressed iOps (q.ins ++ q.outs) (q.ins.map (Propagate.read iOps env) ++ q.outs.map (Propagate.read iOps env)) new) :
    env x = none := by
  rw [mem_progressed] at h
  obtain ⟨i, a, o, nw, h1, h2, h3, h4, h5⟩ := h
  rw [← List.map_append, List.getElem?_map, h1] at h2
  simp only [Option.map_some, Option.some.injEq] at h2
  subst h2
  have h6 : (Propagate.read iOps env a).isNone = true := by
    simp only [iOps, Bool.and_eq_true] at h4; exact h4.1
  cases a with
  | lit v => simp [Atom.node] at h5
  | var y => simp only [Atom.node, Option.some.injEq] at h5; subst h5; simpa [Propagate.read] using h6
  | drop y => simp only [Atom.node, Option.some.injEq] at h5; subst h5; simpa [Propagate.read] using h6

/-- Finished equations are not queued again. -/
theorem finished_stays (Y : Layout J D) (env : Env ICell) (e : Nat) (rest q' : List Nat) (q : Eqn ICell F S)
    (hp : Pushes J e (progressed iOps (q.ins ++ q.outs)
        (q.ins.map (Propagate.read iOps env) ++ q.outs.map (Propagate.read iOps env))
        ((exec iOps env q).2.1 ++ (exec iOps env q).2.2.1)) rest q')
    (e' u : Nat) (hu : u ∈ Y.dfn e') (hk : ∀ y, y ∈ Y.ops e' ∨ y ∈ Y.dfn e' → env y ≠ none) (hr : e' ∉ rest) :
    e' ∉ q' := by
  rw [hp.mem]
  rintro (h | ⟨-, x, hx, q2, h2, h3⟩)
  · exact hr h
  · exact hk x (Y.nodes e' q2 u x hu h2 h3) (progressed_none _ _ _ _ hx)

/-! ### Determinants -/

theorem det_updateRow_span (M : Matrix (Fin n) (Fin n) ℝ) (k : Fin n) (o : Fin n → ℝ)
    (ho : o ∈ Submodule.span ℝ (M '' {i | i ≠ k})) : (M.updateRow k o).det = 0 := by
  induction ho using Submodule.span_induction with
  | mem v hv =>
    obtain ⟨i, hi, rfl⟩ := hv
    refine Matrix.det_zero_of_row_eq hi ?_
    rw [Matrix.updateRow_ne hi, Matrix.updateRow_self]
  | zero =>
    refine Matrix.det_eq_zero_of_row_eq_zero k fun j => ?_
    simp
  | add v w _ _ h1 h2 => rw [Matrix.det_updateRow_add, h1, h2, add_zero]
  | smul c v _ h1 => rw [Matrix.det_updateRow_smul, h1, mul_zero]

theorem det_replace (M : Matrix (Fin n) (Fin n) ℝ) (k : Fin n) (v : Fin n → ℝ) (α : ℝ)
    (ho : M k - α • v ∈ Submodule.span ℝ (M '' {i | i ≠ k})) : M.det = α * (M.updateRow k v).det := by
  have h1 := det_updateRow_span M k _ ho
  have h2 : M = M.updateRow k (α • v + (M k - α • v)) := by
    rw [add_sub_cancel, Matrix.updateRow_eq_self]
  conv_lhs => rw [h2]
  rw [Matrix.det_updateRow_add, h1, Matrix.det_updateRow_smul, add_zero]

/-! ### Steps -/

theorem slots_step (Y : Layout J D) (Arg : Nat → Prop) (harg : ∀ u, Arg u → ∀ e, u ∉ Y.dfn e) (d : ℝ)
    (s t : St ICell S) (sl : Fin n → Nat) (h : Slots Y Arg s sl) (hn : Numeric Y d s sl ∨ Stuck Y s sl)
    (hst : Step iOps J s t)
    (heff : ∀ e q, s.queue.head? = some e → J.eqns[e]? = some q → Effect Y e s.env (exec iOps s.env q).1) :
    ∃ sl', Slots Y Arg t sl' ∧ (Numeric Y d t sl' ∨ Stuck Y t sl') := by
  cases hst with
  | mk e rest q q' hq he hp =>
    have hnd : e ∉ rest ∧ rest.Nodup := by have := h.nodup; rw [hq] at this; exact List.nodup_cons.1 this
    have hkeep : ∀ u, s.env u ≠ none → (exec iOps s.env q).1 u ≠ none := fun u hu => LogProb.top_exec _ _ _ hu
    have hfin : ∀ e' u, u ∈ Y.dfn e' → (∀ y, y ∈ Y.ops e' ∨ y ∈ Y.dfn e' → s.env y ≠ none) → e' ∉ s.queue → e' ∉ q' := by
      intro e' u hu hk hr
      rw [hq] at hr
      exact finished_stays Y s.env e rest q' q hp e' u hu hk (fun h => hr (List.mem_cons_of_mem _ h))
    have hdone : ∀ u, s.env u ≠ none → (∀ i, sl i ≠ u) → Arg u ∨ ∃ e, u ∈ Y.dfn e ∧
        (∀ y, y ∈ Y.ops e ∨ y ∈ Y.dfn e → (exec iOps s.env q).1 y ≠ none) ∧ e ∉ q' := by
      intro u hu hi
      rcases h.done u hu hi with ha | ⟨e', h1, h2, h3⟩
      · exact .inl ha
      · exact .inr ⟨e', h1, fun y hy => hkeep y (h2 y hy), hfin e' u h1 h2 h3⟩
    have hcur : e ∉ q' := by
      rw [hp.mem]; rintro (h | ⟨h, -⟩)
      · exact hnd.1 h
      · exact h rfl
    have hnd' : q'.Nodup := hp.nodup hnd.2
    have hstuck : ∀ sl', (∀ i e', sl i ∈ Y.dfn e' → (∀ y ∈ Y.ops e', s.env y ≠ none) → sl' i = sl i) →
        Stuck Y s sl → Stuck Y ⟨(exec iOps s.env q).1, q', fun i => if i = e then some (exec iOps s.env q).2.2.2 else s.states i⟩ sl' := by
      rintro sl' hsl ⟨i, e', h1, h2⟩
      exact ⟨i, e', by rw [hsl i e' h1 h2]; exact h1, fun y hy => hkeep y (h2 y hy)⟩
    have hqh : s.queue.head? = some e := by rw [hq]; rfl
    rcases heff e q hqh he with hsame | ⟨w, x, v, v', l, l', hw, hx, hxn, hy, hwc, henv, hl⟩ | ⟨h1, h2, h3, h4⟩ | ⟨w, hw, hk, h3, h1⟩
    · -- nothing changes
      refine ⟨sl, ⟨h.inj, fun i => hkeep _ (h.known i), fun u hu hi => hdone u (by simpa [hsame] using hu) hi, hnd'⟩, ?_⟩
      rcases hn with hn | hn
      · left
        exact ⟨fun u hu => hn.span u (by simpa [hsame] using hu), by simpa [hsame] using hn.det⟩
      · exact .inr (hstuck sl (fun _ _ _ _ => rfl) hn)
    · -- inversion: the slot `w` becomes `x`
      have hwd : w ∈ Y.dfn e := by rw [hw]; simp
      have hwx : w ≠ x := by rintro rfl; rw [hwc] at hxn; simp at hxn
      have hwk : s.env w ≠ none := by rw [hwc]; simp
      obtain ⟨k, hk⟩ : ∃ k, sl k = w := by
        by_contra hno
        push Not at hno
        rcases h.done w hwk hno with ha | ⟨e', h1, h2, -⟩
        · exact harg w ha e hwd
        · obtain rfl := Y.uniq w e e' hwd h1
          exact h2 x (.inl hx) hxn
      have hxs : ∀ i, sl i ≠ x := fun i hi => h.known i (by rw [hi]; exact hxn)
      have henvx : ∀ u, u ≠ x → (exec iOps s.env q).1 u = s.env u := fun u hu => by rw [henv, Function.update_of_ne hu]
      have henvself : (exec iOps s.env q).1 x = some (v', l') := by rw [henv, Function.update_self]
      refine ⟨Function.update sl k x, ⟨?_, ?_, ?_, hnd'⟩, ?_⟩
      · intro i j hij
        by_cases hi : i = k <;> by_cases hj : j = k
        · rw [hi, hj]
        · subst hi; rw [Function.update_self, Function.update_of_ne hj] at hij; exact absurd hij.symm (hxs j)
        · subst hj; rw [Function.update_self, Function.update_of_ne hi] at hij; exact absurd hij (hxs i)
        · rw [Function.update_of_ne hi, Function.update_of_ne hj] at hij; exact h.inj hij
      · intro i
        by_cases hi : i = k
        · subst hi; simp only [Function.update_self]; rw [henvself]; simp
        · rw [Function.update_of_ne hi]; exact hkeep _ (h.known i)
      · intro u hu hi
        have hux : u ≠ x := by rintro rfl; exact hi k (by simp)
        simp only [henvx u hux] at hu
        by_cases huw : u = w
        · subst huw
          refine .inr ⟨e, hwd, ?_, hcur⟩
          rintro y (hy' | hy')
          · by_cases hyx : y = x
            · subst hyx; simp only [henvself]; simp
            · exact hkeep y (hy y hy' hyx)
          · rw [hw, List.mem_singleton] at hy'; subst hy'; exact hkeep y hwk
        · refine hdone u hu fun i hiu => ?_
          by_cases hik : i = k
          · subst hik; exact huw (hiu.symm.trans hk)
          · exact hi i (by rw [Function.update_of_ne hik]; exact hiu)
      · rcases hn with hn | hn
        · left
          -- the other operands are combinations of the other slots
          have hother : ∀ y ∈ Y.ops e, y ≠ x → D y ∈ Submodule.span ℝ
              (D '' {z | ∃ i, i ≠ k ∧ sl i = z ∧ Y.pos z ≤ Y.pos y}) := by
            intro y hy1 hy2
            refine Submodule.span_mono ?_ (hn.span y (hy y hy1 hy2))
            rintro _ ⟨z, ⟨i, rfl, hz⟩, rfl⟩
            refine ⟨sl i, ⟨i, ?_, rfl, hz⟩, rfl⟩
            rintro rfl
            rw [hk] at hz
            exact absurd (Y.lt w e y hwd hy1) (by omega)
          have hnew : ∀ u, Y.pos w ≤ Y.pos u → ∀ y ∈ Y.ops e, D y ∈ Submodule.span ℝ
              (D '' {z | ∃ i, Function.update sl k x i = z ∧ Y.pos z ≤ Y.pos u}) := by
            intro u hu y hy1
            have hlt := Y.lt w e y hwd hy1
            by_cases hyx : y = x
            · subst hyx
              exact Submodule.subset_span ⟨y, ⟨k, by simp, by omega⟩, rfl⟩
            · refine Submodule.span_mono ?_ (hother y hy1 hyx)
              rintro _ ⟨z, ⟨i, hik, rfl, hz⟩, rfl⟩
              exact ⟨sl i, ⟨i, by rw [Function.update_of_ne hik], by omega⟩, rfl⟩
          refine ⟨?_, ?_⟩
          · intro u hu
            by_cases hux : u = x
            · subst hux
              exact Submodule.subset_span ⟨u, ⟨k, by simp, le_refl _⟩, rfl⟩
            · simp only [henvx u hux] at hu
              refine (Submodule.span_le.2 ?_) (hn.span u hu)
              rintro _ ⟨z, ⟨i, rfl, hz⟩, rfl⟩
              by_cases hik : i = k
              · subst hik
                rw [hk] at hz ⊢
                refine (Submodule.span_le.2 ?_) (Y.span w e hwd)
                rintro _ ⟨y, hy1, rfl⟩
                exact hnew u hz y hy1
              · exact Submodule.subset_span ⟨sl i, ⟨i, by rw [Function.update_of_ne hik], hz⟩, rfl⟩
          · rcases hn.det with ⟨i, v0, hi⟩ | ⟨vs, ls, hls, hdet⟩
            · by_cases hik : i = k
              · subst hik
                left
                rw [hk, hwc] at hi
                simp only [Option.some.injEq, Prod.mk.injEq] at hi
                rcases hl with rfl | ⟨a, α, ha, -⟩
                · exact ⟨i, v', by simp [henvself]⟩
                · rw [hi.2] at ha; simp at ha
              · left
                exact ⟨i, v0, by rw [Function.update_of_ne hik]; simp only [henvx _ (hxs i)]; exact hi⟩
            · rcases hl with rfl | ⟨a, α, rfl, hα, rfl, hsp⟩
              · left; exact ⟨k, v', by simp [henvself]⟩
              · right
                refine ⟨Function.update vs k v', Function.update ls k (a - Real.log |α|), ?_, ?_⟩
                · intro i
                  by_cases hik : i = k
                  · subst hik; simp [henvself]
                  · rw [Function.update_of_ne hik, Function.update_of_ne hik, Function.update_of_ne hik]
                    simp only [henvx _ (hxs i)]; exact hls i
                · have ha : ls k = a := by
                    have := hls k
                    rw [hk, hwc] at this
                    simp only [Option.some.injEq, Prod.mk.injEq] at this
                    exact this.2.symm
                  have hM : (Matrix.of fun i => D (Function.update sl k x i)) =
                      (Matrix.of fun i => D (sl i)).updateRow k (D x) := by
                    ext i j
                    by_cases hik : i = k
                    · subst hik; simp [Matrix.updateRow_self]
                    · rw [Matrix.updateRow_ne hik]; simp [Function.update_of_ne hik]
                  have hrep := det_replace (Matrix.of fun i => D (sl i)) k (D x) α (by
                    have : (Matrix.of fun i => D (sl i)) k = D w := by rw [← hk]; rfl
                    rw [this]
                    refine (Submodule.span_le.2 ?_) hsp
                    rintro _ ⟨y, ⟨hy1, hy2⟩, rfl⟩
                    refine Submodule.span_mono ?_ (hother y hy1 hy2)
                    rintro _ ⟨z, ⟨i, hik, rfl, -⟩, rfl⟩
                    exact ⟨i, hik, rfl⟩)
                  rw [hdet, hM, hrep, abs_mul]
                  have hsum : ∑ i, Function.update ls k (a - Real.log |α|) i = (∑ i, ls i) - Real.log |α| := by
                    rw [Finset.sum_update_of_mem (Finset.mem_univ k), ← Finset.sum_sdiff (Finset.subset_univ {k}),
                      Finset.sum_singleton, ha]
                    ring
                  rw [hsum, neg_sub, sub_eq_add_neg, Real.exp_add, Real.exp_log (abs_pos.2 hα)]
                  ring
        · right
          refine hstuck _ (fun i e' h1 h2 => ?_) hn
          rw [Function.update_of_ne]
          rintro rfl
          rw [hk] at h1
          obtain rfl := Y.uniq w e e' hwd h1
          exact h2 x hx hxn
    · -- forward evaluation
      have hsl : ∀ i, (exec iOps s.env q).1 (sl i) = s.env (sl i) := fun i => h1 _ (h.known i)
      refine ⟨sl, ⟨h.inj, fun i => hkeep _ (h.known i), ?_, hnd'⟩, ?_⟩
      · intro u hu hi
        by_cases hu0 : s.env u = none
        · refine .inr ⟨e, h2 u hu0 hu, ?_, hcur⟩
          rintro y (hy | hy)
          · exact hkeep y (h3 y hy)
          · exact h4 y hy
        · exact hdone u hu0 hi
      · rcases hn with hn | hn
        · left
          refine ⟨?_, ?_⟩
          · intro u hu
            by_cases hu0 : s.env u = none
            · have hud := h2 u hu0 hu
              refine (Submodule.span_le.2 ?_) (Y.span u e hud)
              rintro _ ⟨y, hy, rfl⟩
              have := Y.lt u e y hud hy
              refine Submodule.span_mono ?_ (hn.span y (h3 y hy))
              rintro _ ⟨z, ⟨i, rfl, hz⟩, rfl⟩
              exact ⟨sl i, ⟨i, rfl, by omega⟩, rfl⟩
            · exact hn.span u hu0
          · simpa [hsl] using hn.det
        · exact .inr (hstuck sl (fun _ _ _ _ => rfl) hn)
    · -- an equation all of whose variables are known: its output can no longer become an input
      refine ⟨sl, ⟨h.inj, fun i => hkeep _ (h.known i), fun u hu hi => hdone u (fun hc => hu ((h1 u).1 hc)) hi, hnd'⟩, .inr ?_⟩
      obtain ⟨k, hk'⟩ : ∃ k, sl k = w := by
        by_contra hno
        push Not at hno
        rcases h.done w hk hno with ha | ⟨e', h5, h6, h7⟩
        · exact harg w ha e hw
        · obtain rfl := Y.uniq w e e' hw h5
          rw [hq] at h7; simp at h7
      exact ⟨k, e, by rw [hk']; exact hw, fun y hy => hkeep y (h3 y hy)⟩

/-- The result: if all `n` sources are known after a run that starts with the `n` outputs, the determinant of the
gradients of the outputs is the exponential of minus the sum of the ILDJs of the sources. -/
theorem slots_run (Y : Layout J D) (Arg : Nat → Prop) (harg : ∀ u, Arg u → ∀ e, u ∉ Y.dfn e)
    (s0 s : St ICell S) (out : Fin n → Nat) (hout : Function.Injective out)
    (hk0 : ∀ i, ∃ v, s0.env (out i) = some (v, some 0))
    (ha0 : ∀ u, s0.env u ≠ none → (∀ i, out i ≠ u) → Arg u) (hD0 : ∀ u, Arg u → D u = 0)
    (hq0 : s0.queue.Nodup) (hs : Steps iOps J s0 s)
    (heff : ∀ t, Steps iOps J s0 t → ∀ e q, J.eqns[e]? = some q → Effect Y e t.env (exec iOps t.env q).1)
    (src : Fin n → Nat) (hsrc : Function.Injective src) (hsd : ∀ i e, src i ∉ Y.dfn e) (hsa : ∀ i, ¬ Arg (src i))
    (hDs : ∀ i, D (src i) = Pi.single i 1)
    (vs : Fin n → F) (ls : Fin n → ℝ) (hend : ∀ i, s.env (src i) = some (vs i, some (ls i))) :
    |(Matrix.of fun i => D (out i)).det| = Real.exp (-∑ i, ls i) := by
  have key : ∃ sl, Slots Y Arg s sl ∧ (Numeric Y |(Matrix.of fun i => D (out i)).det| s sl ∨ Stuck Y s sl) := by
    clear hend
    induction hs with
    | refl =>
      refine ⟨out, ⟨hout, fun i => ?_, fun u hu hi => .inl (ha0 u hu hi), hq0⟩, .inl ⟨?_, .inr ?_⟩⟩
      · obtain ⟨v, hv⟩ := hk0 i; rw [hv]; simp
      · intro u hu
        by_cases hi : ∀ i, out i ≠ u
        · rw [hD0 u (ha0 u hu hi)]; exact Submodule.zero_mem _
        · push Not at hi
          obtain ⟨i, rfl⟩ := hi
          exact Submodule.subset_span ⟨out i, ⟨i, rfl, le_refl _⟩, rfl⟩
      · choose v hv using hk0
        exact ⟨v, fun _ => 0, hv, by simp⟩
    | tail t u hst hstep ih =>
      obtain ⟨sl, h1, h2⟩ := ih
      exact slots_step Y Arg harg _ t u sl h1 h2 hstep (fun e q _ he => heff t hst e q he)
  obtain ⟨sl, h1, h2⟩ := key
  -- every source is a slot
  have hall : ∀ i, ∃ k, sl k = src i := by
    intro i
    by_contra hno
    push Not at hno
    rcases h1.done (src i) (by rw [hend i]; simp) hno with ha | ⟨e, he, -⟩
    · exact hsa i ha
    · exact hsd i e he
  choose σ hσ using hall
  have hσi : Function.Injective σ := fun i j hij => hsrc (by rw [← hσ i, ← hσ j, hij])
  let π : Equiv.Perm (Fin n) := Equiv.ofBijective σ (Finite.injective_iff_bijective.1 hσi)
  have hslπ : ∀ k, sl k = src (π.symm k) := by
    intro k
    have : σ (π.symm k) = k := π.apply_symm_apply k
    rw [← hσ, this]
  rcases h2 with h2 | ⟨k, e, hk, -⟩
  · rcases h2.det with ⟨k, v, hk⟩ | ⟨ws, ms, hms, hd⟩
    · rw [hslπ k, hend] at hk; simp at hk
    · rw [hd]
      have hM : (Matrix.of fun i => D (sl i)) = (1 : Matrix (Fin n) (Fin n) ℝ).submatrix π.symm id := by
        ext i j
        simp [hslπ i, hDs, Matrix.one_apply, Pi.single_apply, eq_comm]
      rw [hM, Matrix.det_permute, Matrix.det_one, mul_one]
      have habs : |((Equiv.Perm.sign π.symm : ℤ) : ℝ)| = 1 := by
        rcases Int.units_eq_one_or (Equiv.Perm.sign π.symm) with h | h <;> rw [h] <;> simp
      rw [habs, one_mul]
      have hsum : ∑ i, ms i = ∑ i, ls i := by
        refine Fintype.sum_equiv π.symm _ _ fun k => ?_
        have h3 := hms k
        rw [hslπ k, hend] at h3
        simp only [Option.some.injEq, Prod.mk.injEq] at h3
        exact h3.2.symm
      rw [hsum]
  · rw [hslπ k] at hk
    exact absurd hk (hsd _ e)

end Verif.Inverse
