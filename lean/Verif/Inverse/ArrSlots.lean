import Verif.Inverse.Slots

/-! The linear algebra behind C72 for arrays: the argument of `Verif.Inverse.Slots` for nodes of any type (here: entries
of arrays), where one equation can invert many nodes at once, and a node can be learnt while others of the same variable
are not known yet. -/
namespace Verif.Inverse

variable {N : Type} {n : Nat} {D : N → Fin n → ℝ}

/-- The static structure: the equation that defines a node (none for inputs and constants) and the nodes it is computed
from, which come earlier; the gradient of a node depends on those of its operands. -/
structure Lay (D : N → Fin n → ℝ) where
  eqn : N → Option Nat
  ops : N → Set N
  pos : N → Nat
  lt : ∀ u y, y ∈ ops u → pos y < pos u
  span : ∀ u, eqn u ≠ none → D u ∈ Submodule.span ℝ (D '' ops u)

/-- What is known: the ILDJ of every known node. -/
abbrev Kn (N : Type) := N → Option F

/-- The combinatorial invariant: the slots are known; a known node that is no slot is a constant or has known
operands. -/
structure ASlots (Y : Lay D) (Arg : N → Prop) (L : Kn N) (sl : Fin n → N) : Prop where
  inj : Function.Injective sl
  known : ∀ i, L (sl i) ≠ none
  done : ∀ u, L u ≠ none → (∀ i, sl i ≠ u) → Arg u ∨ (Y.eqn u ≠ none ∧ ∀ y ∈ Y.ops u, L y ≠ none)

/-- The numerical invariant. -/
structure ANumeric (Y : Lay D) (d : ℝ) (L : Kn N) (sl : Fin n → N) : Prop where
  span : ∀ u, L u ≠ none → D u ∈ Submodule.span ℝ (D '' {y | ∃ i, sl i = y ∧ Y.pos y ≤ Y.pos u})
  det : (∃ i, L (sl i) = some none) ∨ ∃ ls : Fin n → ℝ, (∀ i, L (sl i) = some (some (ls i))) ∧
    d = |(Matrix.of fun i => D (sl i)).det| * Real.exp (-∑ i, ls i)

/-- A slot whose equation can never be inverted. -/
def AStuck (Y : Lay D) (L : Kn N) (sl : Fin n → N) : Prop :=
  ∃ i, Y.eqn (sl i) ≠ none ∧ ∀ y ∈ Y.ops (sl i), L y ≠ none

/-- What executing an equation can do to the set of known nodes: nothing is forgotten; what is learnt is computed from
known nodes, or is an operand of a known node, a different one for each. -/
structure Move (Y : Lay D) (L L' : Kn N) : Prop where
  mono : ∀ u, L u ≠ none → L' u ≠ none
  new : (∀ u, L u = none → L' u ≠ none → Y.eqn u ≠ none ∧ ∀ y ∈ Y.ops u, L' y ≠ none) ∨
    ∃ σ : N → N, (∀ x, L x = none → L' x ≠ none → Y.eqn (σ x) ≠ none ∧ L (σ x) ≠ none ∧ x ∈ Y.ops (σ x) ∧
        ∀ y ∈ Y.ops (σ x), L' y ≠ none) ∧
      ∀ x x', L x = none → L' x ≠ none → L x' = none → L' x' ≠ none → σ x = σ x' → x = x'

open Classical in
theorem aslots_move (Y : Lay D) (Arg : N → Prop) (harg : ∀ u, Arg u → Y.eqn u = none) (L L' : Kn N) (sl : Fin n → N)
    (h : ASlots Y Arg L sl) (hm : Move Y L L') :
    ∃ sl', ASlots Y Arg L' sl' ∧ (AStuck Y L sl → AStuck Y L' sl') ∧
      ∀ i, (∀ y ∈ Y.ops (sl i), L' y ≠ none) → Y.eqn (sl i) ≠ none →
        (∀ y ∈ Y.ops (sl i), L y ≠ none) → sl' i = sl i := by
  rcases hm.new with hf | ⟨σ, hσ, hinj⟩
  · refine ⟨sl, ⟨h.inj, fun i => hm.mono _ (h.known i), fun u hu hi => ?_⟩, ?_, fun _ _ _ _ => rfl⟩
    · by_cases hu0 : L u = none
      · exact .inr (hf u hu0 hu)
      · rcases h.done u hu0 hi with ha | ⟨h1, h2⟩
        · exact .inl ha
        · exact .inr ⟨h1, fun y hy => hm.mono y (h2 y hy)⟩
    · rintro ⟨i, h1, h2⟩
      exact ⟨i, h1, fun y hy => hm.mono y (h2 y hy)⟩
  · let New : N → Prop := fun x => L x = none ∧ L' x ≠ none
    have hslot : ∀ x, New x → ∃ i, sl i = σ x := by
      intro x hx
      obtain ⟨h1, h2, h3, h4⟩ := hσ x hx.1 hx.2
      by_contra hno
      push Not at hno
      rcases h.done (σ x) h2 hno with ha | ⟨-, h5⟩
      · exact h1 (harg _ ha)
      · exact h5 x h3 hx.1
    let sl' : Fin n → N := fun i => if hx : ∃ x, New x ∧ σ x = sl i then hx.choose else sl i
    have hyes : ∀ i x, New x → σ x = sl i → sl' i = x := by
      intro i x hx hxi
      have hex : ∃ x, New x ∧ σ x = sl i := ⟨x, hx, hxi⟩
      have : sl' i = hex.choose := dif_pos hex
      rw [this]
      obtain ⟨k1, k2⟩ := hex.choose_spec
      exact hinj _ _ k1.1 k1.2 hx.1 hx.2 (k2.trans hxi.symm)
    have hno : ∀ i, (¬ ∃ x, New x ∧ σ x = sl i) → sl' i = sl i := fun i hi => dif_neg hi
    have hcase : ∀ i, (∃ x, New x ∧ σ x = sl i ∧ sl' i = x) ∨ ((¬ ∃ x, New x ∧ σ x = sl i) ∧ sl' i = sl i) := by
      intro i
      by_cases hi : ∃ x, New x ∧ σ x = sl i
      · obtain ⟨x, h1, h2⟩ := hi
        exact .inl ⟨x, h1, h2, hyes i x h1 h2⟩
      · exact .inr ⟨hi, hno i hi⟩
    refine ⟨sl', ⟨?_, ?_, ?_⟩, ?_, ?_⟩
    · intro i j hij
      rcases hcase i with ⟨x, a1, a2, a3⟩ | ⟨a1, a2⟩ <;> rcases hcase j with ⟨x', b1, b2, b3⟩ | ⟨b1, b2⟩
      · rw [a3, b3] at hij; subst hij; exact h.inj (a2.symm.trans b2)
      · rw [a3, b2] at hij; subst hij; exact absurd a1.1 (h.known j)
      · rw [a2, b3] at hij; rw [← hij] at b1; exact absurd b1.1 (h.known i)
      · rw [a2, b2] at hij; exact h.inj hij
    · intro i
      rcases hcase i with ⟨x, a1, a2, a3⟩ | ⟨a1, a2⟩
      · rw [a3]; exact a1.2
      · rw [a2]; exact hm.mono _ (h.known i)
    · intro u hu hi
      by_cases hu0 : L u = none
      · obtain ⟨i, hi'⟩ := hslot u ⟨hu0, hu⟩
        exact absurd (hyes i u ⟨hu0, hu⟩ hi'.symm) (hi i)
      · by_cases hs : ∃ i, sl i = u
        · obtain ⟨i, rfl⟩ := hs
          rcases hcase i with ⟨x, a1, a2, a3⟩ | ⟨a1, a2⟩
          · obtain ⟨h1, h2, h3, h4⟩ := hσ x a1.1 a1.2
            rw [a2] at h1 h4
            exact .inr ⟨h1, h4⟩
          · exact absurd a2 (hi i)
        · push Not at hs
          rcases h.done u hu0 hs with ha | ⟨h1, h2⟩
          · exact .inl ha
          · exact .inr ⟨h1, fun y hy => hm.mono y (h2 y hy)⟩
    · rintro ⟨i, h1, h2⟩
      have : sl' i = sl i := hno i (by
        rintro ⟨x, a1, a2⟩
        have := (hσ x a1.1 a1.2).2.2.1
        rw [a2] at this
        exact h2 x this a1.1)
      exact ⟨i, by rw [this]; exact h1, fun y hy => by rw [this] at hy; exact hm.mono y (h2 y hy)⟩
    · intro i _ _ h2
      exact hno i (by
        rintro ⟨x, a1, a2⟩
        have := (hσ x a1.1 a1.2).2.2.1
        rw [a2] at this
        exact h2 x this a1.1)

open Classical in
/-- Inverting one node: the slot `w` becomes its operand `x`. -/
theorem aslots_back1 (Y : Lay D) (Arg : N → Prop) (harg : ∀ u, Arg u → Y.eqn u = none) (d : ℝ) (L : Kn N)
    (sl : Fin n → N) (h : ASlots Y Arg L sl) (hn : ANumeric Y d L sl) (w x : N) (hw : Y.eqn w ≠ none)
    (hwk : L w ≠ none) (hx : x ∈ Y.ops w) (hxn : L x = none) (hy : ∀ y ∈ Y.ops w, y ≠ x → L y ≠ none) (l' : F)
    (hl : l' = none ∨ ∃ a α : ℝ, L w = some (some a) ∧ α ≠ 0 ∧ l' = some (a - Real.log |α|) ∧
        D w - α • D x ∈ Submodule.span ℝ (D '' {y | y ∈ Y.ops w ∧ y ≠ x})) :
    ∃ sl', ASlots Y Arg (Function.update L x (some l')) sl' ∧ ANumeric Y d (Function.update L x (some l')) sl' ∧
      ∀ u, Function.update L x (some l') u ≠ none → (∀ i, sl' i ≠ u) → (L u ≠ none ∧ ∀ i, sl i ≠ u) ∨ u = w := by
  have hwx : w ≠ x := by rintro rfl; exact hwk hxn
  obtain ⟨k, hk⟩ : ∃ k, sl k = w := by
    by_contra hno
    push Not at hno
    rcases h.done w hwk hno with ha | ⟨-, h2⟩
    · exact hw (harg w ha)
    · exact h2 x hx hxn
  have hxs : ∀ i, sl i ≠ x := fun i hi => h.known i (by rw [hi]; exact hxn)
  have hL : ∀ u, u ≠ x → Function.update L x (some l') u = L u := fun u hu => Function.update_of_ne hu _ _
  have hLx : Function.update L x (some l') x = some l' := Function.update_self _ _ _
  have hkeep : ∀ u, L u ≠ none → Function.update L x (some l') u ≠ none := by
    intro u hu
    by_cases hux : u = x
    · subst hux; rw [hLx]; simp
    · rw [hL u hux]; exact hu
  refine ⟨Function.update sl k x, ⟨?_, ?_, ?_⟩, ⟨?_, ?_⟩, ?last⟩
  case last =>
    intro u hu hi
    have hux : u ≠ x := by rintro rfl; exact hi k (by simp)
    rw [hL u hux] at hu
    by_cases huw : u = w
    · exact .inr huw
    · refine .inl ⟨hu, fun i hiu => ?_⟩
      by_cases hik : i = k
      · subst hik; exact huw (hiu.symm.trans hk)
      · exact hi i (by rw [Function.update_of_ne hik]; exact hiu)
  · intro i j hij
    by_cases hi : i = k <;> by_cases hj : j = k
    · rw [hi, hj]
    · subst hi; rw [Function.update_self, Function.update_of_ne hj] at hij; exact absurd hij.symm (hxs j)
    · subst hj; rw [Function.update_self, Function.update_of_ne hi] at hij; exact absurd hij (hxs i)
    · rw [Function.update_of_ne hi, Function.update_of_ne hj] at hij; exact h.inj hij
  · intro i
    by_cases hi : i = k
    · subst hi; rw [Function.update_self, hLx]; simp
    · rw [Function.update_of_ne hi]; exact hkeep _ (h.known i)
  · intro u hu hi
    have hux : u ≠ x := by rintro rfl; exact hi k (by simp)
    rw [hL u hux] at hu
    by_cases huw : u = w
    · subst huw
      refine .inr ⟨hw, fun y hy' => ?_⟩
      by_cases hyx : y = x
      · subst hyx; rw [hLx]; simp
      · exact hkeep y (hy y hy' hyx)
    · have hns : ∀ i, sl i ≠ u := by
        intro i hiu
        by_cases hik : i = k
        · subst hik; exact huw (hiu.symm.trans hk)
        · exact hi i (by rw [Function.update_of_ne hik]; exact hiu)
      rcases h.done u hu hns with ha | ⟨h1, h2⟩
      · exact .inl ha
      · exact .inr ⟨h1, fun y hy => hkeep y (h2 y hy)⟩
  all_goals
    have hother : ∀ y ∈ Y.ops w, y ≠ x → D y ∈ Submodule.span ℝ
        (D '' {z | ∃ i, i ≠ k ∧ sl i = z ∧ Y.pos z ≤ Y.pos y}) := by
      intro y hy1 hy2
      refine Submodule.span_mono ?_ (hn.span y (hy y hy1 hy2))
      rintro _ ⟨z, ⟨i, rfl, hz⟩, rfl⟩
      refine ⟨sl i, ⟨i, ?_, rfl, hz⟩, rfl⟩
      rintro rfl
      rw [hk] at hz
      exact absurd (Y.lt w y hy1) (by omega)
  · have hnew : ∀ u, Y.pos w ≤ Y.pos u → ∀ y ∈ Y.ops w, D y ∈ Submodule.span ℝ
        (D '' {z | ∃ i, Function.update sl k x i = z ∧ Y.pos z ≤ Y.pos u}) := by
      intro u hu y hy1
      have hlt := Y.lt w y hy1
      by_cases hyx : y = x
      · subst hyx
        exact Submodule.subset_span ⟨y, ⟨k, by simp, by omega⟩, rfl⟩
      · refine Submodule.span_mono ?_ (hother y hy1 hyx)
        rintro _ ⟨z, ⟨i, hik, rfl, hz⟩, rfl⟩
        exact ⟨sl i, ⟨i, by rw [Function.update_of_ne hik], by omega⟩, rfl⟩
    intro u hu
    by_cases hux : u = x
    · subst hux
      exact Submodule.subset_span ⟨u, ⟨k, by simp, le_refl _⟩, rfl⟩
    · rw [hL u hux] at hu
      refine (Submodule.span_le.2 ?_) (hn.span u hu)
      rintro _ ⟨z, ⟨i, rfl, hz⟩, rfl⟩
      by_cases hik : i = k
      · subst hik
        rw [hk] at hz ⊢
        refine (Submodule.span_le.2 ?_) (Y.span w hw)
        rintro _ ⟨y, hy1, rfl⟩
        exact hnew u hz y hy1
      · exact Submodule.subset_span ⟨sl i, ⟨i, by rw [Function.update_of_ne hik], hz⟩, rfl⟩
  · rcases hn.det with ⟨i, hi⟩ | ⟨ls, hls, hdet⟩
    · by_cases hik : i = k
      · subst hik
        left
        rw [hk] at hi
        rcases hl with rfl | ⟨a, α, ha, -⟩
        · exact ⟨i, by simp⟩
        · rw [hi] at ha; simp at ha
      · left
        exact ⟨i, by rw [Function.update_of_ne hik, hL _ (hxs i)]; exact hi⟩
    · rcases hl with rfl | ⟨a, α, hwa, hα, rfl, hsp⟩
      · left; exact ⟨k, by simp⟩
      · right
        refine ⟨Function.update ls k (a - Real.log |α|), ?_, ?_⟩
        · intro i
          by_cases hik : i = k
          · subst hik; simp
          · rw [Function.update_of_ne hik, Function.update_of_ne hik, hL _ (hxs i)]; exact hls i
        · have ha : ls k = a := by
            have := hls k
            rw [hk, hwa] at this
            simpa using this.symm
          have hM : (Matrix.of fun i => D (Function.update sl k x i)) =
              (Matrix.of fun i => D (sl i)).updateRow k (D x) := by
            ext i j
            by_cases hik : i = k
            · subst hik; simp [Matrix.updateRow_self]
            · rw [Matrix.updateRow_ne hik]; simp [Function.update_of_ne hik]
          have hrep := det_replace (Matrix.of fun i => D (sl i)) k (D x) α (by
            have : (Matrix.of fun i => D (sl i)) k = D w := by rw [← hk]; rfl
            rw [this]
            refine (Submodule.span_le.2 ?_) hsp
            rintro _ ⟨y, ⟨hy1, hy2⟩, rfl⟩
            refine Submodule.span_mono ?_ (hother y hy1 hy2)
            rintro _ ⟨z, ⟨i, hik, rfl, -⟩, rfl⟩
            exact ⟨i, hik, rfl⟩)
          rw [hdet, hM, hrep, abs_mul]
          have hsum : ∑ i, Function.update ls k (a - Real.log |α|) i = (∑ i, ls i) - Real.log |α| := by
            rw [Finset.sum_update_of_mem (Finset.mem_univ k), ← Finset.sum_sdiff (Finset.subset_univ {k}),
              Finset.sum_singleton, ha]
            ring
          rw [hsum, neg_sub, sub_eq_add_neg, Real.exp_add, Real.exp_log (abs_pos.2 hα)]
          ring

/-- What inverting a node means for its ILDJ. -/
def Inverts (Y : Lay D) (L : Kn N) (w x : N) (l' : F) : Prop :=
  l' = none ∨ ∃ a α : ℝ, L w = some (some a) ∧ α ≠ 0 ∧ l' = some (a - Real.log |α|) ∧
    D w - α • D x ∈ Submodule.span ℝ (D '' {y | y ∈ Y.ops w ∧ y ≠ x})

open Classical in
/-- Inverting a list of nodes at once. -/
theorem aslots_back (Y : Lay D) (Arg : N → Prop) (harg : ∀ u, Arg u → Y.eqn u = none) (d : ℝ) (L L' : Kn N)
    (sl : Fin n → N) (h : ASlots Y Arg L sl) (hn : ANumeric Y d L sl) (ws : List N) (hws : ws.Nodup) (τ : N → N)
    (hτ : ∀ w ∈ ws, ∀ w' ∈ ws, τ w = τ w' → w = w')
    (hw : ∀ w ∈ ws, Y.eqn w ≠ none ∧ L w ≠ none ∧ τ w ∈ Y.ops w ∧ L (τ w) = none ∧
      (∀ y ∈ Y.ops w, y ≠ τ w → L y ≠ none) ∧ ∃ l', L' (τ w) = some l' ∧ Inverts Y L w (τ w) l')
    (hrest : ∀ u, (∀ w ∈ ws, τ w ≠ u) → L' u = L u) :
    ∃ sl', ASlots Y Arg L' sl' ∧ ANumeric Y d L' sl' ∧
      ∀ u, L' u ≠ none → (∀ i, sl' i ≠ u) → (L u ≠ none ∧ ∀ i, sl i ≠ u) ∨ u ∈ ws := by
  induction ws generalizing L sl with
  | nil =>
    have : L' = L := funext fun u => hrest u (by simp)
    subst this
    exact ⟨sl, h, hn, fun u h1 h2 => .inl ⟨h1, h2⟩⟩
  | cons w ws ih =>
    obtain ⟨hnd1, hnd2⟩ := List.nodup_cons.1 hws
    obtain ⟨a1, a2, a3, a4, a5, l', a6, a7⟩ := hw w (by simp)
    obtain ⟨sl1, h1, hn1, hk1⟩ := aslots_back1 Y Arg harg d L sl h hn w (τ w) a1 a2 a3 a4 a5 l' a7
    have hne : ∀ w' ∈ ws, τ w' ≠ τ w := by
      intro w' hw' he
      have := hτ w' (by simp [hw']) w (by simp) he
      subst this; exact hnd1 hw'
    have hkeep : ∀ u, L u ≠ none → Function.update L (τ w) (some l') u = L u := by
      intro u hu
      rw [Function.update_of_ne]
      rintro rfl; exact hu a4
    have hgo := ih (Function.update L (τ w) (some l')) sl1 h1 hn1 hnd2
      (fun v hv v' hv' => hτ v (by simp [hv]) v' (by simp [hv'])) ?_ ?_
    · obtain ⟨sl', g1, g2, g3⟩ := hgo
      refine ⟨sl', g1, g2, fun u hu hi => ?_⟩
      rcases g3 u hu hi with ⟨k1, k2⟩ | k
      · rcases hk1 u k1 k2 with k | rfl
        · exact .inl k
        · exact .inr (by simp)
      · exact .inr (by simp [k])
    · intro v hv
      obtain ⟨b1, b2, b3, b4, b5, m', b6, b7⟩ := hw v (by simp [hv])
      refine ⟨b1, by rw [hkeep v b2]; exact b2, b3, by rw [Function.update_of_ne (hne v hv)]; exact b4, ?_, m', b6, ?_⟩
      · intro y hy hyv; rw [hkeep y (b5 y hy hyv)]; exact b5 y hy hyv
      · unfold Inverts; rw [hkeep v b2]; exact b7
    · intro u hu
      by_cases huw : u = τ w
      · subst huw; rw [a6, Function.update_self]
      · rw [Function.update_of_ne huw]
        refine hrest u ?_
        intro v hv
        rcases List.mem_cons.1 hv with rfl | hv
        · exact fun h => huw h.symm
        · exact hu v hv

/-- Forward evaluation. -/
theorem aslots_fwd (Y : Lay D) (Arg : N → Prop) (d : ℝ) (L L' : Kn N)
    (sl : Fin n → N) (h : ASlots Y Arg L sl) (hn : ANumeric Y d L sl)
    (h1 : ∀ u, L u ≠ none → L' u = L u)
    (h2 : ∀ u, L u = none → L' u ≠ none → Y.eqn u ≠ none ∧ ∀ y ∈ Y.ops u, L y ≠ none) :
    ASlots Y Arg L' sl ∧ ANumeric Y d L' sl := by
  have hkeep : ∀ u, L u ≠ none → L' u ≠ none := fun u hu => by rw [h1 u hu]; exact hu
  refine ⟨⟨h.inj, fun i => hkeep _ (h.known i), fun u hu hi => ?_⟩, ⟨fun u hu => ?_, ?_⟩⟩
  · by_cases hu0 : L u = none
    · obtain ⟨a, b⟩ := h2 u hu0 hu
      exact .inr ⟨a, fun y hy => hkeep y (b y hy)⟩
    · rcases h.done u hu0 hi with ha | ⟨a, b⟩
      · exact .inl ha
      · exact .inr ⟨a, fun y hy => hkeep y (b y hy)⟩
  · by_cases hu0 : L u = none
    · obtain ⟨a, b⟩ := h2 u hu0 hu
      refine (Submodule.span_le.2 ?_) (Y.span u a)
      rintro _ ⟨y, hy, rfl⟩
      have := Y.lt u y hy
      refine Submodule.span_mono ?_ (hn.span y (b y hy))
      rintro _ ⟨z, ⟨i, rfl, hz⟩, rfl⟩
      exact ⟨sl i, ⟨i, rfl, by omega⟩, rfl⟩
    · exact hn.span u hu0
  · have : ∀ i, L' (sl i) = L (sl i) := fun i => h1 _ (h.known i)
    simpa only [this] using hn.det

/-- The beginning: the outputs are the slots. -/
theorem aslots_init (Y : Lay D) (Arg : N → Prop) (L : Kn N) (out : Fin n → N) (hout : Function.Injective out)
    (hk0 : ∀ i, L (out i) = some (some 0)) (ha0 : ∀ u, L u ≠ none → (∀ i, out i ≠ u) → Arg u)
    (hD0 : ∀ u, Arg u → D u = 0) :
    ASlots Y Arg L out ∧ ANumeric Y |(Matrix.of fun i => D (out i)).det| L out := by
  refine ⟨⟨hout, fun i => by rw [hk0 i]; simp, fun u hu hi => .inl (ha0 u hu hi)⟩, ⟨?_, .inr ⟨fun _ => 0, hk0, by simp⟩⟩⟩
  intro u hu
  by_cases hi : ∀ i, out i ≠ u
  · rw [hD0 u (ha0 u hu hi)]; exact Submodule.zero_mem _
  · push Not at hi
    obtain ⟨i, rfl⟩ := hi
    exact Submodule.subset_span ⟨out i, ⟨i, rfl, le_refl _⟩, rfl⟩

/-- The end: all sources are known, so they are the slots. -/
theorem aslots_final (Y : Lay D) (Arg : N → Prop) (d : ℝ) (L : Kn N) (sl : Fin n → N) (h1 : ASlots Y Arg L sl)
    (h2 : ANumeric Y d L sl ∨ AStuck Y L sl) (src : Fin n → N) (hsrc : Function.Injective src)
    (hsd : ∀ i, Y.eqn (src i) = none) (hsa : ∀ i, ¬ Arg (src i)) (hDs : ∀ i, D (src i) = Pi.single i 1)
    (ls : Fin n → ℝ) (hend : ∀ i, L (src i) = some (some (ls i))) : d = Real.exp (-∑ i, ls i) := by
  have hall : ∀ i, ∃ k, sl k = src i := by
    intro i
    by_contra hno
    push Not at hno
    rcases h1.done (src i) (by rw [hend i]; simp) hno with ha | ⟨he, -⟩
    · exact hsa i ha
    · exact he (hsd i)
  choose σ hσ using hall
  have hσi : Function.Injective σ := fun i j hij => hsrc (by rw [← hσ i, ← hσ j, hij])
  let π : Equiv.Perm (Fin n) := Equiv.ofBijective σ (Finite.injective_iff_bijective.1 hσi)
  have hslπ : ∀ k, sl k = src (π.symm k) := by
    intro k
    have : σ (π.symm k) = k := π.apply_symm_apply k
    rw [← hσ, this]
  rcases h2 with h2 | ⟨k, hk, -⟩
  · rcases h2.det with ⟨k, hk⟩ | ⟨ms, hms, hd⟩
    · rw [hslπ k, hend] at hk; simp at hk
    · rw [hd]
      have hM : (Matrix.of fun i => D (sl i)) = (1 : Matrix (Fin n) (Fin n) ℝ).submatrix π.symm id := by
        ext i j
        simp [hslπ i, hDs, Matrix.one_apply, Pi.single_apply, eq_comm]
      rw [hM, Matrix.det_permute, Matrix.det_one, mul_one]
      have habs : |((Equiv.Perm.sign π.symm : ℤ) : ℝ)| = 1 := by
        rcases Int.units_eq_one_or (Equiv.Perm.sign π.symm) with h | h <;> rw [h] <;> simp
      rw [habs, one_mul]
      have hsum : ∑ i, ms i = ∑ i, ls i := by
        refine Fintype.sum_equiv π.symm _ _ fun k => ?_
        have h3 := hms k
        rw [hslπ k, hend] at h3
        simpa using h3.symm
      rw [hsum]
  · rw [hslπ k] at hk
    exact absurd (hsd _) hk

/-! ### Effects of an equation -/

/-- What executing equation `e` can do.  `Gd` and `Gd'` say that the cells are in order before and after, `Dn` that the
equation has nothing more to do after. -/
inductive LEff (Y : Lay D) (e : Nat) (Gd Gd' Dn : Prop) (L L' : Kn N) : Prop
  | same (h : L' = L) (hg : Gd → Gd')
  | fwd (h1 : ∀ u, Y.eqn u ≠ some e → L' u = L u)
      (h2 : ∀ u, Y.eqn u = some e → (∀ y ∈ Y.ops u, L y ≠ none) ∧ L' u ≠ none) (hg : Gd → Gd') (hd : Dn)
  | back (ws : List N) (hws : ws.Nodup) (τ : N → N) (hτ : ∀ w ∈ ws, ∀ w' ∈ ws, τ w = τ w' → w = w')
      (hw : ∀ w ∈ ws, Y.eqn w = some e ∧ L w ≠ none ∧ τ w ∈ Y.ops w ∧ L' (τ w) ≠ none ∧
        ∀ y ∈ Y.ops w, y ≠ τ w → L y ≠ none)
      (hrest : ∀ u, (∀ w ∈ ws, τ w ≠ u) → (L' u = none ↔ L u = none))
      (hnum : Gd → (∀ w ∈ ws, L (τ w) = none) → Gd' ∧ Dn ∧ (∀ u, (∀ w ∈ ws, τ w ≠ u) → L' u = L u) ∧
        ∀ w ∈ ws, ∃ l', L' (τ w) = some l' ∧ Inverts Y L w (τ w) l')

theorem LEff.mono {Y : Lay D} {e : Nat} {Gd Gd' Dn : Prop} {L L' : Kn N} (h : LEff Y e Gd Gd' Dn L L') (u : N)
    (hu : L u ≠ none) : L' u ≠ none := by
  cases h with
  | same h => rw [h]; exact hu
  | fwd h1 h2 =>
    by_cases he : Y.eqn u = some e
    · exact (h2 u he).2
    · rw [h1 u he]; exact hu
  | back ws hws τ hτ hw hrest =>
    by_cases hx : ∀ w ∈ ws, τ w ≠ u
    · rw [ne_eq, hrest u hx]; exact hu
    · push Not at hx
      obtain ⟨w, hw', rfl⟩ := hx
      exact (hw w hw').2.2.2.1

open Classical in
theorem LEff.move {Y : Lay D} {e : Nat} {Gd Gd' Dn : Prop} {L L' : Kn N} (h : LEff Y e Gd Gd' Dn L L') : Move Y L L' := by
  have hm := h.mono
  refine ⟨hm, ?_⟩
  cases h with
  | same h => left; intro u h1 h2; rw [h] at h2; exact absurd h1 h2
  | fwd h1 h2 =>
    left
    intro u hu hu'
    have he : Y.eqn u = some e := by
      by_contra he
      rw [h1 u he] at hu'; exact hu' hu
    exact ⟨by rw [he]; simp, fun y hy => hm y ((h2 u he).1 y hy)⟩
  | back ws hws τ hτ hw hrest =>
    right
    have hex : ∀ x, L x = none → L' x ≠ none → ∃ w ∈ ws, τ w = x := by
      intro x h1 h2
      by_contra hno
      push Not at hno
      exact h2 ((hrest x hno).2 h1)
    refine ⟨fun x => if hx : ∃ w ∈ ws, τ w = x then hx.choose else x, ?_, ?_⟩
    · intro x h1 h2
      have hx := hex x h1 h2
      simp only [dif_pos hx]
      obtain ⟨k1, k2⟩ := hx.choose_spec
      obtain ⟨a1, a2, a3, a4, a5⟩ := hw _ k1
      refine ⟨by rw [a1]; simp, a2, by rw [k2] at a3; exact a3, fun y hy => ?_⟩
      by_cases hyx : y = x
      · rw [hyx]; exact h2
      · exact hm y (a5 y hy (by rw [k2]; exact hyx))
    · intro x x' h1 h2 h1' h2' he
      have hx := hex x h1 h2
      have hx' := hex x' h1' h2'
      simp only [dif_pos hx, dif_pos hx'] at he
      rw [← hx.choose_spec.2, ← hx'.choose_spec.2, he]

/-- One step, while nothing is stuck. -/
theorem LEff.numeric {Y : Lay D} {e : Nat} {Gd Gd' Dn : Prop} {L L' : Kn N} (h : LEff Y e Gd Gd' Dn L L')
    (Arg : N → Prop) (harg : ∀ u, Arg u → Y.eqn u = none) (d : ℝ) (sl : Fin n → N) (h1 : ASlots Y Arg L sl)
    (h2 : ANumeric Y d L sl) (hG : Gd) (hslot : ∀ u, Y.eqn u = some e → L u ≠ none → ∃ i, sl i = u)
    (hns : ¬ AStuck Y L sl) :
    Gd' ∧ ∃ sl', ASlots Y Arg L' sl' ∧ ANumeric Y d L' sl' ∧
      ∀ u, L' u ≠ none → (∀ i, sl' i ≠ u) → (L u ≠ none ∧ ∀ i, sl i ≠ u) ∨ (Y.eqn u = some e ∧ Dn) := by
  cases h with
  | same h hg =>
    subst h
    exact ⟨hg hG, sl, h1, h2, fun u hu hi => .inl ⟨hu, hi⟩⟩
  | fwd k1 k2 hg hd =>
    have hno : ∀ u, Y.eqn u = some e → L u = none := by
      intro u he
      by_contra hu
      obtain ⟨i, rfl⟩ := hslot u he hu
      exact hns ⟨i, by rw [he]; simp, (k2 _ he).1⟩
    obtain ⟨g1, g2⟩ := aslots_fwd Y Arg d L L' sl h1 h2
      (fun u hu => k1 u (fun he => hu (hno u he)))
      (fun u hu hu' => by
        have he : Y.eqn u = some e := by
          by_contra he
          rw [k1 u he] at hu'; exact hu' hu
        exact ⟨by rw [he]; simp, (k2 u he).1⟩)
    refine ⟨hg hG, sl, g1, g2, fun u hu hi => ?_⟩
    by_cases he : Y.eqn u = some e
    · exact .inr ⟨he, hd⟩
    · rw [k1 u he] at hu; exact .inl ⟨hu, hi⟩
  | back ws hws τ hτ hw hrest hnum =>
    have hno : ∀ w ∈ ws, L (τ w) = none := by
      intro w hw'
      by_contra hu
      obtain ⟨a1, a2, a3, a4, a5⟩ := hw w hw'
      obtain ⟨i, rfl⟩ := hslot w a1 a2
      refine hns ⟨i, by rw [a1]; simp, fun y hy => ?_⟩
      by_cases hyx : y = τ (sl i)
      · rw [hyx]; exact hu
      · exact a5 y hy hyx
    obtain ⟨g1, g2, g3, g4⟩ := hnum hG hno
    obtain ⟨sl', s1, s2, s3⟩ := aslots_back Y Arg harg d L L' sl h1 h2 ws hws τ hτ
      (fun w hw' => by
        obtain ⟨a1, a2, a3, a4, a5⟩ := hw w hw'
        exact ⟨by rw [a1]; simp, a2, a3, hno w hw', a5, g4 w hw'⟩) g3
    refine ⟨g1, sl', s1, s2, fun u hu hi => ?_⟩
    rcases s3 u hu hi with k | k
    · exact .inl k
    · exact .inr ⟨(hw u k).1, g2⟩

end Verif.Inverse
