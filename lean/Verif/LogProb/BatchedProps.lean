import Verif.LogProb.Batched
import Mathlib.Algebra.BigOperators.Fin
import Mathlib.Logic.Equiv.Fin.Basic
import Mathlib.Data.Fin.Tuple.Basic
import Mathlib.Data.Fintype.BigOperators
import Mathlib.Tactic.Linarith

/-! C65: `log_prob` of a random variable drawn under nested `vmap`s. -/
namespace Verif.LogProb.Batched

/-- The lanes of all levels as a function on the naturals. -/
def ext {K : Nat} {n : Nat → Nat} (a : (k : Fin K) → Fin (n k)) (k : Nat) : Nat := if h : k < K then (a ⟨k, h⟩).val else 0

/-- Mapped along axis 0 by the `m` innermost of `K` `vmap`s and by no other. -/
def InnermostFirst (K : Nat) (dims : List (Option Nat)) : Prop :=
  ∃ m, m ≤ K ∧ dims = List.replicate m (some 0) ++ List.replicate (K - m) none

theorem outerFirst_length {β : Type} (a : Nat → β) (k : Nat) : (outerFirst k a).length = k := by
  induction k with
  | zero => rfl
  | succ k ih => simp [outerFirst, ih]

theorem outerFirst_congr {β : Type} {a b : Nat → β} {k : Nat} (h : ∀ i < k, a i = b i) : outerFirst k a = outerFirst k b := by
  induction k with
  | zero => rfl
  | succ k ih => simp only [outerFirst]; rw [h k (by omega), ih (fun i hi => h i (by omega))]

theorem outerFirst_snoc {β : Type} (a : Nat → β) (m k : Nat) :
    outerFirst (m + 1) (fun i => a (k + i)) = outerFirst m (fun i => a (k + 1 + i)) ++ [a k] := by
  induction m with
  | zero => rfl
  | succ m ih =>
    rw [outerFirst, ih]
    simp only [outerFirst, List.cons_append]
    congr 2
    omega

theorem outerFirst_drop {β : Type} (a : Nat → β) (m j : Nat) : (outerFirst (m + j) a).drop j = outerFirst m a := by
  induction j with
  | zero => rfl
  | succ j ih => simpa [outerFirst] using ih

theorem outerFirst_map {β γ : Type} (f : β → γ) (a : Nat → β) (k : Nat) : (outerFirst k a).map f = outerFirst k (f ∘ a) := by
  induction k with
  | zero => rfl
  | succ k ih => simp [outerFirst, ih]

theorem place_none {β : Type} (base : List β) (j k : Nat) (a : Nat → β) : place base k (List.replicate j none) a = base := by
  induction j generalizing k with
  | zero => rfl
  | succ j ih => simp only [List.replicate_succ, place]; exact ih _

theorem place_good {β : Type} (base : List β) (m j k : Nat) (a : Nat → β) :
    place base k (List.replicate m (some 0) ++ List.replicate j none) a = outerFirst m (fun i => a (k + i)) ++ base := by
  induction m generalizing base k with
  | zero => simpa [outerFirst] using place_none base j k a
  | succ m ih =>
    simp only [List.replicate_succ, List.cons_append, place, List.insertIdx_zero]
    rw [ih, outerFirst_snoc]
    simp

theorem place_inner {β : Type} (base : List β) (m j : Nat) (a : Nat → β) :
    place base 0 (List.replicate m (some 0) ++ List.replicate j none) a = outerFirst m a ++ base := by
  rw [place_good]; simp

theorem brev_prefix (t s : List Nat) : brev (t ++ s) t = some (t ++ s) := by
  induction t with
  | nil => cases s <;> rfl
  | cons x t ih => simp [brev, bdim, ih]

theorem outerFirst_split {β : Type} (a : Nat → β) (m j : Nat) :
    outerFirst (m + j) a = (outerFirst (m + j) a).take j ++ outerFirst m a := by
  conv_lhs => rw [← List.take_append_drop j (outerFirst (m + j) a), outerFirst_drop]

theorem broadcast_suffix (n : Nat → Nat) (m j : Nat) :
    broadcast (outerFirst (m + j) n) (outerFirst m n) = some (outerFirst (m + j) n) := by
  unfold broadcast
  have h := outerFirst_split n m j
  generalize (outerFirst (m + j) n).take j = t at h
  rw [h, List.reverse_append, brev_prefix]
  simp

theorem bindex_suffix (n a : Nat → Nat) (m j : Nat) (h : ∀ i < m, a i < n i) :
    bindex (outerFirst m n) (outerFirst (m + j) a) = outerFirst m a := by
  unfold bindex
  rw [outerFirst_length, outerFirst_length, Nat.add_sub_cancel_left, outerFirst_drop]
  clear j
  induction m with
  | zero => rfl
  | succ m ih =>
    simp only [outerFirst, List.zipWith_cons_cons]
    rw [ih (fun i hi => h i (by omega))]
    congr 1
    have := h m (by omega)
    split <;> omega

variable {α R : Type}

theorem batchShape_append (s e : List Nat) : batchShape (s ++ e) e.length = s := by
  simp [batchShape]

theorem ext_lt {K : Nat} {n : Nat → Nat} (a : (k : Fin K) → Fin (n k)) (k : Nat) (h : k < K) : ext a k < n k := by
  simp only [ext, dif_pos h]; exact (a ⟨k, h⟩).isLt

/-- Summing over the indices of an array is summing over the lanes. -/
theorem sum_indices [AddCommMonoid R] (n : Nat → Nat) (K : Nat) (f : List Nat → R) :
    ((indices (outerFirst K n)).map f).sum = ∑ a : (k : Fin K) → Fin (n k), f (outerFirst K (ext a)) := by
  induction K generalizing f with
  | zero =>
    rw [Fintype.sum_unique]
    simp [outerFirst, indices]
  | succ K ih =>
    rw [← (Fin.snocEquiv (fun k : Fin (K + 1) => Fin (n k))).sum_comp, Fintype.sum_prod_type]
    simp only [outerFirst, indices, List.map_flatMap, List.map_map]
    have hsum : ∀ (g : Nat → List R) (m : Nat), ((List.range m).flatMap g).sum = ∑ i : Fin m, (g i).sum := by
      intro g m
      induction m with
      | zero => simp
      | succ m ihm => rw [List.range_succ, List.flatMap_append, List.sum_append, ihm, Fin.sum_univ_castSucc]; simp
    rw [hsum]
    refine Finset.sum_congr rfl (fun i _ => ?_)
    rw [ih (f ∘ fun x => i.val :: x)]
    refine Finset.sum_congr rfl (fun b _ => ?_)
    simp only [Function.comp]
    congr 2
    · simp only [ext, dif_pos (Nat.lt_succ_self K)]
      exact (congrArg Fin.val (Fin.snoc_last (α := fun k : Fin (K + 1) => Fin (n k)) i b)).symm
    · apply outerFirst_congr
      intro k hk
      simp only [ext, dif_pos hk, dif_pos (show k < K + 1 by omega)]
      exact (congrArg Fin.val (Fin.snoc_castSucc (α := fun k : Fin (K + 1) => Fin (n k)) i b ⟨k, hk⟩)).symm

theorem foldlM_broadcast (n : Nat → Nat) (K : Nat) (ss : List (List Nat)) (h : ∀ s ∈ ss, ∃ m, m ≤ K ∧ s = outerFirst m n) :
    ss.foldlM broadcast (outerFirst K n) = some (outerFirst K n) := by
  induction ss with
  | nil => rfl
  | cons s ss ih =>
    obtain ⟨m, hm, rfl⟩ := h s (by simp)
    obtain ⟨j, rfl⟩ := Nat.exists_eq_add_of_le hm
    rw [List.foldlM_cons, broadcast_suffix]
    exact ih (fun s hs => h s (by simp [hs]))

/-- C65, partial: the log probability of a random variable drawn under `K` nested `vmap`s of sizes `n` is the sum, over all
lanes, of the log probability of the lane's value under the lane's parameters, for every distribution (`logp`) and any
number of parameters, each of which is mapped along axis 0 by the innermost `vmap`s and not by the outer ones.  Without
this condition it is wrong: `rv_log_prob_iff`. -/
theorem rv_log_prob_partial [AddCommMonoid R] (logp : List (List Nat → α) → (List Nat → α) → R) (n : Nat → Nat) (K : Nat)
    (ps : List (Param α)) (v : Arr α) (vevent : List Nat) (hv : v.shape = outerFirst K n ++ vevent)
    (hps : ∀ p ∈ ps, InnermostFirst K p.dims ∧ p.Shaped n) :
    rvLogProb logp ps v vevent.length K =
      some (∑ a : (k : Fin K) → Fin (n k), logp (ps.map fun p => p.lane (ext a)) (fun ev => v.data (outerFirst K (ext a) ++ ev))) := by
  have hshape : ∀ p ∈ ps, ∃ m, m ≤ K ∧ batchShape p.arr.shape p.event.length = outerFirst m n ∧
      p.dims = List.replicate m (some 0) ++ List.replicate (K - m) none := by
    intro p hp
    obtain ⟨⟨m, hm, hd⟩, -, hs⟩ := hps p hp
    refine ⟨m, hm, ?_, hd⟩
    rw [hs, hd, place_inner, batchShape_append]
  unfold rvLogProb distLogProb
  rw [hv, batchShape_append, foldlM_broadcast]
  · simp only [Option.map_some, Option.bind_some, sumBatch, outerFirst_length, if_true]
    rw [sum_indices]
    congr 1
    refine Finset.sum_congr rfl (fun a _ => ?_)
    congr 1
    · refine List.map_congr_left (fun p hp => ?_)
      obtain ⟨m, hm, h1, h2⟩ := hshape p hp
      funext ev
      rw [h1, Param.lane, h2, place_inner]
      obtain ⟨j, rfl⟩ := Nat.exists_eq_add_of_le hm
      rw [bindex_suffix n (ext a) m j (fun i hi => ext_lt a i (by omega))]
    · funext ev
      have := bindex_suffix n (ext a) K 0 (fun i hi => ext_lt a i hi)
      simp only [Nat.add_zero] at this
      rw [this]
  · intro s hs
    obtain ⟨p, hp, rfl⟩ := List.mem_map.1 hs
    obtain ⟨m, hm, h1, -⟩ := hshape p hp
    exact ⟨m, hm, h1⟩

/-! ## The condition is necessary -/

theorem place_map {β γ : Type} (f : β → γ) (base : List β) (k : Nat) (dims : List (Option Nat)) (a : Nat → β) :
    (place base k dims a).map f = place (base.map f) k dims (f ∘ a) := by
  induction dims generalizing base k with
  | nil => rfl
  | cons d dims ih =>
    rcases d with _ | d
    · exact ih base (k + 1)
    · simp only [place]
      rw [ih]
      congr 1
      simp [List.map_insertIdx]

/-- The levels in the order of the physical axes of a scalar parameter. -/
def layout (dims : List (Option Nat)) : List Nat := place [] 0 dims id

theorem place_layout (dims : List (Option Nat)) (a : Nat → Nat) : place [] 0 dims a = (layout dims).map a := by
  rw [layout, place_map]; simp

theorem sublist_insertIdx {β : Type} (l : List β) (d : Nat) (x : β) : l.Sublist (l.insertIdx d x) := by
  induction l generalizing d with
  | nil => exact List.nil_sublist _
  | cons y l ih =>
    cases d with
    | zero => exact .cons _ (.refl _)
    | succ d => rw [List.insertIdx_succ_cons]; exact .cons_cons _ (ih d)

theorem sublist_place {β : Type} (base : List β) (k : Nat) (dims : List (Option Nat)) (a : Nat → β) :
    base.Sublist (place base k dims a) := by
  induction dims generalizing base k with
  | nil => exact .refl _
  | cons d dims ih =>
    rcases d with _ | d
    · exact ih base (k + 1)
    · exact .trans (sublist_insertIdx _ _ _) (ih _ (k + 1))

theorem mem_place (base : List Nat) (k : Nat) (dims : List (Option Nat)) (x : Nat) (hx : x ∈ place base k dims id) :
    x ∈ base ∨ k ≤ x := by
  induction dims generalizing base k with
  | nil => exact .inl hx
  | cons d dims ih =>
    rcases d with _ | d
    · rcases ih base (k + 1) hx with h | h
      · exact .inl h
      · exact .inr (by omega)
    · rcases ih _ (k + 1) hx with h | h
      · rcases List.eq_or_mem_of_mem_insertIdx h with h | h
        · exact .inr (by rw [h]; exact Nat.le_refl _)
        · exact .inl h
      · exact .inr (by omega)

theorem place_length_le {β : Type} (base : List β) (k : Nat) (dims : List (Option Nat)) (a : Nat → β) :
    (place base k dims a).length ≤ base.length + dims.length := by
  induction dims generalizing base k with
  | nil => simp [place]
  | cons d dims ih =>
    rcases d with _ | d
    · have := ih base (k + 1); simp only [place, List.length_cons]; omega
    · have := ih (base.insertIdx d (a k)) (k + 1)
      have h2 : (base.insertIdx d (a k)).length ≤ base.length + 1 := List.length_insertIdx_le_succ
      simp only [place, List.length_cons]; omega

theorem mem_place_lt (base : List Nat) (k : Nat) (dims : List (Option Nat)) (x : Nat) (hx : x ∈ place base k dims id) :
    x ∈ base ∨ x < k + dims.length := by
  induction dims generalizing base k with
  | nil => exact .inl hx
  | cons d dims ih =>
    simp only [List.length_cons]
    rcases d with _ | d
    · rcases ih base (k + 1) hx with h | h
      · exact .inl h
      · exact .inr (by omega)
    · rcases ih _ (k + 1) hx with h | h
      · rcases List.eq_or_mem_of_mem_insertIdx h with h | h
        · exact .inr (by rw [h]; simp)
        · exact .inl h
      · exact .inr (by omega)

theorem mem_layout_lt (dims : List (Option Nat)) (K : Nat) (hK : dims.length = K) (x : Nat) (hx : x ∈ layout dims) : x < K := by
  rcases mem_place_lt [] 0 dims x hx with h | h
  · simp at h
  · omega

theorem outerFirst_inj {β : Type} (k : Nat) (a b : Nat → β) (h : outerFirst k a = outerFirst k b) : ∀ i < k, a i = b i := by
  induction k with
  | zero => intro i hi; omega
  | succ k ih =>
    simp only [outerFirst, List.cons.injEq] at h
    intro i hi
    by_cases hik : i = k
    · rw [hik]; exact h.1
    · exact ih h.2 i (by omega)

theorem none_of_length {β : Type} (base : List β) (k : Nat) (dims : List (Option Nat)) (a : Nat → β)
    (hv : ValidDims base.length dims) (h : (place base k dims a).length = base.length) :
    dims = List.replicate dims.length none := by
  induction dims generalizing k with
  | nil => rfl
  | cons d dims ih =>
    rcases d with _ | d
    · rw [List.length_cons, List.replicate_succ, ← ih (k + 1) hv h]
    · have h1 := (sublist_place (base.insertIdx d (a k)) (k + 1) dims a).length_le
      rw [List.length_insertIdx_of_le_length hv.1] at h1
      simp only [place] at h
      omega

theorem mem_outerFirst (m x : Nat) : x ∈ outerFirst m id ↔ x < m := by
  induction m with
  | zero => simp [outerFirst]
  | succ m ih => simp only [outerFirst, id_eq, List.mem_cons, ih]; omega

theorem outerFirst_sorted (m : Nat) : (outerFirst m id).Pairwise (· > ·) := by
  induction m with
  | zero => exact .nil
  | succ m ih => exact .cons (fun x hx => (mem_outerFirst m x).1 hx) ih

theorem good_of_place (k m : Nat) (dims : List (Option Nat)) (hv : ValidDims k dims)
    (h : place (outerFirst k id) k dims id = outerFirst m id) : InnermostFirst dims.length dims := by
  induction dims generalizing k with
  | nil => exact ⟨0, Nat.le_refl _, rfl⟩
  | cons d dims ih =>
    rcases d with _ | d
    · have hk : m ≤ k := by
        rcases Nat.lt_or_ge k m with hlt | hge
        · have := (mem_outerFirst m k).2 hlt
          rw [← h] at this
          rcases mem_place _ (k + 1) dims k this with h1 | h1
          · rw [mem_outerFirst] at h1; omega
          · omega
        · exact hge
      have hl := (sublist_place (outerFirst k id) k (none :: dims) id).length_le
      rw [h, outerFirst_length, outerFirst_length] at hl
      have hkm : k = m := by omega
      subst hkm
      refine ⟨0, Nat.zero_le _, ?_⟩
      have := none_of_length (outerFirst k id) k (none :: dims) id (by rw [outerFirst_length]; exact hv)
        (by rw [h])
      simpa using this
    · have hd : d = 0 := by
        rcases Nat.eq_zero_or_pos d with h0 | hpos
        · exact h0
        · have hs := sublist_place ((outerFirst k id).insertIdx d k) (k + 1) dims id
          have hp := (outerFirst_sorted m).sublist (h ▸ hs)
          obtain ⟨k', rfl⟩ : ∃ k', k = k' + 1 := ⟨k - 1, by have := hv.1; omega⟩
          obtain ⟨d', rfl⟩ : ∃ d', d = d' + 1 := ⟨d - 1, by omega⟩
          rw [outerFirst, List.insertIdx_succ_cons] at hp
          have hmem : k' + 1 ∈ (outerFirst k' id).insertIdx d' (k' + 1) := by
            rw [List.mem_insertIdx (by rw [outerFirst_length]; have := hv.1; omega)]
            exact .inl rfl
          have := (List.pairwise_cons.1 hp).1 _ hmem
          simp at this
      subst hd
      obtain ⟨j, hj, he⟩ := ih (k + 1) hv.2 (by simpa [place, outerFirst] using h)
      refine ⟨j + 1, by simpa using hj, ?_⟩
      rw [List.replicate_succ, List.cons_append, List.length_cons, Nat.add_sub_add_right, ← he]

theorem brev_twos (k j : Nat) : brev (List.replicate (k + j) 2) (List.replicate k 2) = some (List.replicate (k + j) 2) := by
  rw [← List.replicate_append_replicate]
  exact brev_prefix _ _

theorem outerFirst_const (k c : Nat) : outerFirst k (fun _ => c) = List.replicate k c := by
  induction k with
  | zero => rfl
  | succ k ih => simp [outerFirst, ih, List.replicate_succ]

theorem exists_ne_of_ne : ∀ (l l' : List Nat), l.length = l'.length → l ≠ l' → ∃ (i : Nat) (x y : Nat), l[i]? = some x ∧ l'[i]? = some y ∧ x ≠ y
  | [], [], _, h => absurd rfl h
  | x :: l, y :: l', hl, h => by
    by_cases hxy : x = y
    · obtain ⟨i, a, b, h1, h2, h3⟩ := exists_ne_of_ne l l' (by simpa using hl) (by rintro rfl; exact h (by rw [hxy]))
      exact ⟨i + 1, a, b, by simpa using h1, by simpa using h2, h3⟩
    · exact ⟨0, x, y, rfl, rfl, hxy⟩

/-- C65: the condition of `rv_log_prob_partial` is necessary.  For a scalar parameter under `K` nested `vmap`s, the log
probability is the sum over the lanes for all sizes, distributions, parameters and values if and only if the parameter is
mapped along axis 0 by the innermost `vmap`s and not by the outer ones.  In particular a parameter mapped by the outer of
two `vmap`s only, or along another axis, gives wrong results (without an error if the sizes agree). -/
theorem rv_log_prob_iff (K : Nat) (dims : List (Option Nat)) (hlen : dims.length = K) (hv : ValidDims 0 dims) :
    InnermostFirst K dims ↔
      ∀ (n : Nat → Nat) (logp : List (List Nat → Nat) → (List Nat → Nat) → Nat) (x v : Arr Nat),
        Param.Shaped ⟨x, [], dims⟩ n → v.shape = outerFirst K n →
        rvLogProb logp [⟨x, [], dims⟩] v 0 K = some (∑ a : (k : Fin K) → Fin (n k),
          logp [Param.lane ⟨x, [], dims⟩ (ext a)] (fun ev => v.data (outerFirst K (ext a) ++ ev))) := by
  constructor
  · intro h n logp x v hx hvs
    exact rv_log_prob_partial logp n K [⟨x, [], dims⟩] v [] (by simpa using hvs) (by simpa using ⟨h, hx⟩)
  · intro h
    generalize hm : (layout dims).length = m
    have hmK : m ≤ K := by
      have := place_length_le ([] : List Nat) 0 dims id
      simp only [List.length_nil, Nat.zero_add] at this
      rw [← hm, ← hlen]; exact this
    by_cases hl : layout dims = outerFirst m id
    · rw [← hlen]; exact good_of_place 0 m dims hv hl
    · exfalso
      obtain ⟨i, l, l', h1, h2, hne⟩ := exists_ne_of_ne _ _ (by rw [hm, outerFirst_length]) hl
      let b : Nat → Nat := fun k => if k = l then 1 else 0
      have hdiff : (layout dims).map b ≠ outerFirst m b := by
        intro he
        have := congrArg (fun t : List Nat => t[i]?) he
        have e2 : outerFirst m b = (outerFirst m id).map b := by rw [outerFirst_map]; rfl
        simp only [e2, List.getElem?_map, h1, h2, Option.map_some] at this
        simp [b] at this
        exact hne this.symm
      have hlb : l < K := by
        have : l ∈ layout dims := List.mem_of_getElem? h1
        exact mem_layout_lt dims K hlen l this
      have := h (fun _ => 2) (fun ps v => (ps.map (· [])).sum * v [])
        ⟨List.replicate m 2, fun p => if p = outerFirst m b then 1 else 0⟩
        ⟨List.replicate K 2, fun p => if p = outerFirst K b then 1 else 0⟩
        ⟨hv, by rw [place_layout]; simp [hm]⟩ (outerFirst_const K 2).symm
      obtain ⟨j, rfl⟩ := Nat.exists_eq_add_of_le hmK
      have hb : broadcast (List.replicate (m + j) 2) (List.replicate m 2) = some (List.replicate (m + j) 2) := by
        have := broadcast_suffix (fun _ => 2) m j
        simpa only [outerFirst_const] using this
      have hbs : ∀ s, batchShape s 0 = s := fun s => by simp [batchShape]
      simp only [rvLogProb, distLogProb, hbs, List.length_nil, List.map_cons,
        List.map_nil, List.foldlM_cons, List.foldlM_nil, hb, Option.bind_eq_bind, Option.bind_some, Option.pure_def,
        Option.map_some, sumBatch, List.length_replicate, if_true, List.append_nil, List.sum_cons, List.sum_nil,
        Nat.add_zero, Option.some.injEq] at this
      rw [← outerFirst_const (m + j) 2, ← outerFirst_const m 2, sum_indices] at this
      have hcode : ∀ a : (k : Fin (m + j)) → Fin ((fun _ => 2) k.val), bindex (outerFirst m fun _ => 2) (outerFirst (m + j) (ext (n := fun _ => 2) a)) =
          outerFirst m (ext (n := fun _ => 2) a) := fun a => bindex_suffix (fun _ => 2) (ext (n := fun _ => 2) a) m j (fun i hi => ext_lt (n := fun _ => 2) a i (by omega))
      have hval : ∀ a : (k : Fin (m + j)) → Fin ((fun _ => 2) k.val), bindex (outerFirst (m + j) fun _ => 2) (outerFirst (m + j) (ext (n := fun _ => 2) a)) =
          outerFirst (m + j) (ext (n := fun _ => 2) a) := fun a => by
        have := bindex_suffix (fun _ => 2) (ext (n := fun _ => 2) a) (m + j) 0 (fun i hi => ext_lt (n := fun _ => 2) a i hi)
        simpa using this
      simp only [hcode, hval, Param.lane, place_layout] at this
      let a0 : (k : Fin (m + j)) → Fin ((fun _ : Nat => 2) k.val) := fun k => if k.val = l then 1 else 0
      have ha0 : ∀ k < m + j, ext (n := fun _ => 2) a0 k = b k := by
        intro k hk
        simp only [ext, dif_pos hk, a0, b]
        split <;> rfl
      have hinj : ∀ a : (k : Fin (m + j)) → Fin ((fun _ : Nat => 2) k.val), outerFirst (m + j) (ext (n := fun _ => 2) a) = outerFirst (m + j) b →
          outerFirst m (ext (n := fun _ => 2) a) = outerFirst m b ∧ (layout dims).map (ext (n := fun _ => 2) a) = (layout dims).map b := by
        intro a ha
        have hall := outerFirst_inj (m + j) (ext (n := fun _ => 2) a) b ha
        exact ⟨outerFirst_congr (fun i hi => hall i (by omega)),
          List.map_congr_left (fun x hx => hall x (mem_layout_lt dims _ hlen x hx))⟩
      have hR : (∑ a : (k : Fin (m + j)) → Fin ((fun _ : Nat => 2) k.val),
          (if (layout dims).map (ext (n := fun _ => 2) a) = outerFirst m b then 1 else 0) *
            (if outerFirst (m + j) (ext (n := fun _ => 2) a) = outerFirst (m + j) b then 1 else 0)) = 0 := by
        refine Finset.sum_eq_zero (fun a _ => ?_)
        by_cases ha : outerFirst (m + j) (ext (n := fun _ => 2) a) = outerFirst (m + j) b
        · rw [(hinj a ha).2, if_neg hdiff, Nat.zero_mul]
        · rw [if_neg ha, Nat.mul_zero]
      rw [hR, Finset.sum_eq_zero_iff] at this
      have h0 := this a0 (Finset.mem_univ _)
      rw [if_pos (outerFirst_congr (fun i hi => ha0 i (by omega))), if_pos (outerFirst_congr ha0)] at h0
      exact absurd h0 (by decide)

/-! Non-vacuity: two `vmap`s of sizes 3 (inner) and 2 (outer), a parameter mapped by the inner one, one mapped by both and
one mapped by none. -/

def sizes : Nat → Nat := fun k => if k = 0 then 3 else 2
def pInner : Param Nat := ⟨⟨[3], fun i => i.sum⟩, [], [some 0, none]⟩
def pBoth : Param Nat := ⟨⟨[2, 3], fun i => i.sum⟩, [], [some 0, some 0]⟩
def pNone : Param Nat := ⟨⟨[], fun _ => 7⟩, [], [none, none]⟩

example (logp : List (List Nat → Nat) → (List Nat → Nat) → Int) :
    rvLogProb logp [pInner, pBoth, pNone] ⟨[2, 3], fun i => i.sum⟩ 0 2 =
      some (∑ a : (k : Fin 2) → Fin (sizes k), logp ([pInner, pBoth, pNone].map fun p => p.lane (ext a))
        (fun ev => (outerFirst 2 (ext a) ++ ev).sum)) := by
  refine rv_log_prob_partial logp sizes 2 _ ⟨[2, 3], fun i => i.sum⟩ [] rfl ?_
  intro p hp
  simp only [List.mem_cons, List.not_mem_nil, or_false] at hp
  rcases hp with rfl | rfl | rfl
  · exact ⟨⟨1, by decide, rfl⟩, by simp [pInner, ValidDims], rfl⟩
  · exact ⟨⟨2, by decide, rfl⟩, by simp [pBoth, ValidDims], rfl⟩
  · exact ⟨⟨0, by decide, rfl⟩, by simp [pNone, ValidDims], rfl⟩

/-- Mapped by the outer `vmap` only: the condition fails, hence the result is wrong for some data. -/
example : ¬ InnermostFirst 2 [none, some 0] := by
  rintro ⟨m, hm, h⟩
  rcases m with _ | _ | _ | m <;> simp [List.replicate_succ] at h

/-- Different sizes: an error. -/
theorem rv_log_prob_outer_only_raises :
    rvLogProb (fun ps v => (ps.map (· [])).sum * v []) [⟨⟨[2], fun i => i.sum⟩, [], [none, some 0]⟩]
      ⟨[2, 3], fun i => i.sum⟩ 0 2 = (none : Option Nat) := by decide

/-- Equal sizes: a wrong value. -/
theorem rv_log_prob_outer_only_wrong :
    rvLogProb (fun ps v => (ps.map (· [])).sum * v []) [⟨⟨[2], fun i => i.sum⟩, [], [none, some 0]⟩]
      ⟨[2, 2], fun i => if i = [1, 0] then 1 else 0⟩ 0 2 = some (0 : Nat) ∧
    (∑ a : (k : Fin 2) → Fin ((fun _ => 2) k.val),
      (([(⟨⟨[2], fun i => i.sum⟩, [], [none, some 0]⟩ : Param Nat)].map fun p => p.lane (ext (n := fun _ => 2) a)).map (· [])).sum *
        (if outerFirst 2 (ext (n := fun _ => 2) a) = [1, 0] then 1 else 0)) = 1 := by
  constructor <;> decide

end Verif.LogProb.Batched
