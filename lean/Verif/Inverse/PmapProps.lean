import Verif.Inverse.Pmap
import Verif.Inverse.ArrRules

/-!
# C73: `inverse` of programs on arrays with calls and `pmap`, values
-/
namespace Verif.Inverse.Mapped

open Verif.Propagate

/-! ### Specification -/

/-- The array of an atom, when `val` gives the values of the variables. -/
def arrOf (shp : Nat → List Nat) (val : Nat → List Nat → ℝ) : Atom FArr → FArr
  | .lit v => v
  | .var x => ⟨shp x, fun k => some (val x k)⟩
  | .drop x => ⟨shp x, fun k => some (val x k)⟩

/-- The shape of an atom. -/
def shpOf (shp : Nat → List Nat) : Atom FArr → List Nat
  | .lit v => v.shape
  | .var x => shp x
  | .drop x => shp x

/-- The part of an array that lane `l` of a `pmap` sees: the array itself if it is not mapped, else its entries at `l`
along the mapped axis. -/
def laneArr (ax : Option Nat) (l : Nat) (a : FArr) : FArr :=
  match ax with
  | none => a
  | some d => ⟨a.shape.eraseIdx d, fun k => a.val (k.insertIdx d l)⟩

/-- Shapes agree, also inside of calls and `pmap`s; every operand and result of a `pmap` is mapped along its first
axis. -/
def wfAll (shp : Nat → List Nat) : List NEqn → Prop
  | [] => True
  | .prim op i o :: es => op.Typed (i.map (shpOf shp)) (o.map (shpOf shp)) ∧ (∀ a ∈ o, ∀ v, a ≠ .lit v) ∧ wfAll shp es
  | .call _ shp' iv ov body i o :: es => i.map (shpOf shp) = iv.map (shpOf shp') ∧ o.map (shpOf shp) = ov.map (shpOf shp') ∧
      wfAll shp' body ∧ wfAll shp es
  | .pmap _ n axes shp' iv ov body i o :: es => 0 < n ∧ axes = i.map (fun _ => some 0) ∧
      i.map (shpOf shp) = iv.map (fun a => n :: shpOf shp' a) ∧ o.map (shpOf shp) = ov.map (fun a => n :: shpOf shp' a) ∧
      wfAll shp' body ∧ wfAll shp es

/-- `val` gives the variables the values of an execution in which every operation is, entry by entry and also inside of
calls and lanes, on the branch of its registered inverse.  A callee has values of its own, and so has every lane. -/
def execAll (shp : Nat → List Nat) : List NEqn → (Nat → List Nat → ℝ) → Prop
  | [], _ => True
  | .prim op i o :: es, val => List.Forall₂ FArr.Same (op.sem (i.map (arrOf shp val))) (o.map (arrOf shp val)) ∧
      op.Ok (i.map (arrOf shp val)) ∧ execAll shp es val
  | .call _ shp' iv ov body i o :: es, val =>
      (∃ w, List.Forall₂ FArr.Same (iv.map (arrOf shp' w)) (i.map (arrOf shp val)) ∧
        List.Forall₂ FArr.Same (ov.map (arrOf shp' w)) (o.map (arrOf shp val)) ∧ execAll shp' body w) ∧ execAll shp es val
  | .pmap _ n axes shp' iv ov body i o :: es, val =>
      (∀ l < n, ∃ w, List.Forall₂ FArr.Same (iv.map (arrOf shp' w))
          (List.zipWith (fun ax a => laneArr ax l (arrOf shp val a)) axes i) ∧
        List.Forall₂ FArr.Same (ov.map (arrOf shp' w)) (o.map (fun a => laneArr (some 0) l (arrOf shp val a))) ∧
        execAll shp' body w) ∧ execAll shp es val

/-! ### Proofs -/

theorem arrOf_shape (shp : Nat → List Nat) (val : Nat → List Nat → ℝ) (a : Atom FArr) : (arrOf shp val a).shape = shpOf shp a := by
  cases a <;> rfl

/-- The rule of an equation turns true cells into true cells. -/
def RuleTellsA (shp : Nat → List Nat) (val : Nat → List Nat → ℝ) (q : Eqn ACell FArr Bool) : Prop :=
  ∀ i o, List.Forall₂ TellsA (q.ins.map (arrOf shp val)) i → List.Forall₂ TellsA (q.outs.map (arrOf shp val)) o →
    List.Forall₂ TellsA (q.ins.map (arrOf shp val)) (q.rule i o).1 ∧
      List.Forall₂ TellsA (q.outs.map (arrOf shp val)) (q.rule i o).2.1

theorem tellsA_get (shp : Nat → List Nat) (val : Nat → List Nat → ℝ) : ∀ (as : List (Atom FArr)) (cs : List ACell),
    List.Forall₂ TellsA (as.map (arrOf shp val)) cs →
    ∀ (k x : Nat) (c : ACell), as[k]? = some (Atom.var x) → cs[k]? = some c → TellsA (arrOf shp val (.var x)) c := by
  intro as
  induction as with
  | nil => intro cs _ k x c h1; simp at h1
  | cons a as ih =>
    intro cs hh k x c h1 h2
    cases hh with | cons h3 h4 =>
    cases k with
    | zero => simp at h1 h2; subst h1 h2; exact h3
    | succ k => exact ih _ h4 k x c (by simpa using h1) (by simpa using h2)

theorem tellsA_read (jn : ACell → ACell → ACell) (shp : Nat → List Nat) (val : Nat → List Nat → ℝ) (env : Env ACell)
    (henv : ∀ x, TellsA (arrOf shp val (.var x)) (env x)) (as : List (Atom FArr)) :
    List.Forall₂ TellsA (as.map (arrOf shp val)) (as.map (Propagate.read (aOps jn shp) env)) := by
  induction as with
  | nil => exact .nil
  | cons a as ih =>
    refine .cons ?_ ih
    cases a with
    | lit v => exact tellsA_new v _ (fun _ _ => rfl)
    | var x => exact henv x
    | drop x => exact henv x

theorem run_tellsA {jn : ACell → ACell → ACell} (hj : ∀ a b, Joins a b (jn a b)) (shp : Nat → List Nat)
    (J : Jaxpr ACell FArr Bool) (hc : J.constvars = []) (val : Nat → List Nat → ℝ) (hq : ∀ q ∈ J.eqns, RuleTellsA shp val q)
    (i o : List ACell) (hi : List.Forall₂ TellsA (J.invars.map (arrOf shp val)) i)
    (ho : List.Forall₂ TellsA (J.outvars.map (arrOf shp val)) o) (s : St ACell Bool) (h : CompletesA jn shp J i o s) :
    ∀ x, TellsA (arrOf shp val (.var x)) (s.env x) := by
  obtain ⟨s0, h0, hs, -⟩ := h
  refine propagate_sound (aOps jn shp) J (fun x => TellsA (arrOf shp val (.var x))) TellsA ?_ [] _ _ ?_ ?_ ?_ s0 s h0 hs
  · refine ⟨fun x a b ha hb => tellsA_join hj _ a b ha hb, fun x => tellsA_bottom _,
      fun v => tellsA_new v _ (fun _ _ => rfl), ?_⟩
    intro q hqm i o hi ho
    have conv : ∀ (R : Atom FArr → ACell → Prop), (∀ a c, R a c → TellsA (arrOf shp val a) c) →
        ∀ (as : List (Atom FArr)) (cs : List ACell), List.Forall₂ R as cs →
        List.Forall₂ TellsA (as.map (arrOf shp val)) cs := by
      intro R hR as cs hh
      induction hh with
      | nil => exact .nil
      | @cons a c as cs h1 h2 ih => exact .cons (hR _ _ h1) ih
    obtain ⟨r1, r2⟩ := hq q hqm i o (conv _ (by intro a c hac; cases a <;> exact hac) _ _ hi)
      (conv _ (by intro a c hac; cases a <;> exact hac) _ _ ho)
    exact ⟨tellsA_get shp val _ _ r1, tellsA_get shp val _ _ r2⟩
  · intro k x c h1; rw [hc] at h1; simp at h1
  · exact tellsA_get shp val _ _ hi
  · exact tellsA_get shp val _ _ ho

theorem forall₂_tells_same {xs ys : List FArr} (h : List.Forall₂ FArr.Same xs ys) {cs : List ACell}
    (hc : List.Forall₂ TellsA xs cs) : List.Forall₂ TellsA ys cs := by
  induction h generalizing cs with
  | nil => cases hc; exact .nil
  | cons h1 _ ih =>
    cases hc with
    | cons h2 h3 => exact .cons (tellsA_same h1 h2) (ih h3)

theorem forall₂_same_symm {xs ys : List FArr} (h : List.Forall₂ FArr.Same xs ys) : List.Forall₂ FArr.Same ys xs := by
  induction h with
  | nil => exact .nil
  | cons h1 _ ih => exact .cons h1.symm ih

theorem mem_foldl_setAdd (l : List (ND (F × F))) : ∀ (acc : List (ND (F × F))), ∀ m ∈ l.foldl setAdd acc, m ∈ acc ∨ m ∈ l := by
  induction l with
  | nil => intro acc m hm; exact .inl hm
  | cons n l ih =>
    intro acc m hm
    rcases ih _ m hm with h | h
    · unfold setAdd at h
      split at h
      · exact .inl h
      · rcases List.mem_append.1 h with h | h
        · exact .inl h
        · exact .inr (by rw [List.mem_singleton.1 h]; exact List.mem_cons_self)
    · exact .inr (List.mem_cons_of_mem _ h)

theorem forall₂_tail {α β : Type} {R : α → β → Prop} {l : List α} {r : List β} (h : List.Forall₂ R l r) :
    List.Forall₂ R l.tail r.tail := by
  cases h with
  | nil => exact .nil
  | cons _ h => exact h

/-- A lane sees nothing wrong about its part of an array. -/
theorem tells_lane (a : FArr) (n : Nat) (s : List Nat) (hn : 0 < n) (ha : a.shape = n :: s) (c : ACell)
    (hc : TellsA a c) (hf : Fits n (remove c)) (l : Nat) (hl : l < n) :
    TellsA (laneArr (some 0) l a) (cut l (remove c)) := by
  have hcell : ∀ m ∈ (cut l (remove c)).slices, ∃ m' ∈ c.slices, m'.shape.head? = some n ∧
      m = ⟨m'.slices.tail, m'.shape.tail, fun k => m'.val (l :: k)⟩ := by
    intro m hm
    simp only [cut, List.mem_map] at hm
    obtain ⟨m1, hm1, rfl⟩ := hm
    have h1 := hf m1 hm1
    simp only [remove] at hm1
    rcases mem_foldl_setAdd _ _ _ hm1 with h | h
    · simp at h
    · obtain ⟨m', hm', rfl⟩ := List.mem_map.1 h
      exact ⟨m', hm', h1, rfl⟩
  refine ⟨by simp [laneArr, cut, remove, hc.1, ha], ⟨?_, ?_⟩⟩
  · intro m hm
    simp only [Cell.map, List.mem_map] at hm
    obtain ⟨m1, hm1, rfl⟩ := hm
    obtain ⟨m', hm', hsh, rfl⟩ := hcell m1 hm1
    have hmem : m'.map Prod.fst ∈ (c.map Prod.fst).slices := List.mem_map.2 ⟨m', hm', rfl⟩
    have hF := hc.2.faithful _ hmem
    have hw := hc.2.within _ hmem
    have h1 := hF.valid
    have h2 := hF.shape
    have h3 := hF.val
    simp only [ND.map, Cell.map] at hw h1 h2 h3
    rw [hc.1, ha] at hw
    rcases hms : m'.slices with _ | ⟨b, bs⟩
    · rw [hms] at hw; cases hw
    rw [hms] at hw h1 h2 h3
    cases hw with | cons hb hbs =>
    have hb2 : b = (0, n) := by
      rw [h2] at hsh
      simp only [List.map_cons, List.head?_cons, Option.some.injEq] at hsh
      have := h1 b List.mem_cons_self
      ext
      · show b.1 = 0; omega
      · show b.2 = n; omega
    subst hb2
    refine ⟨fun s hs => h1 s (List.mem_cons_of_mem _ hs), by simp [ND.map, h2], ?_⟩
    intro k hk
    have hk' := h3 (l :: k) ⟨⟨Nat.zero_le _, hl⟩, hk⟩
    simp only [offset, List.zipWith_cons_cons, Nat.sub_zero] at hk'
    simpa [ND.map, laneArr, offset] using hk'
  · intro m hm
    simp only [Cell.map, List.mem_map] at hm
    obtain ⟨m1, hm1, rfl⟩ := hm
    obtain ⟨m', hm', hsh, rfl⟩ := hcell m1 hm1
    have hmem : m'.map Prod.fst ∈ (c.map Prod.fst).slices := List.mem_map.2 ⟨m', hm', rfl⟩
    have hw := hc.2.within _ hmem
    simp only [ND.map, Cell.map] at hw
    simp only [ND.map, Cell.map, cut, remove]
    exact forall₂_tail hw

/-- Lanes that say nothing wrong are put together to a cell that says nothing wrong. -/
theorem tells_stack (a : FArr) (n : Nat) (s : List Nat) (hn : 0 < n) (ha : a.shape = n :: s) (c r : ACell)
    (hc : c.aval = a.shape) (hf : Fits n r) (hr : ∀ l < n, TellsA (laneArr (some 0) l a) (cut l r)) :
    TellsA a (addSlice c r) := by
  have hcut : ∀ l, ∀ m ∈ r.slices, ND.map Prod.fst (⟨m.slices, m.shape.tail, fun k => m.val (l :: k)⟩ : ND (F × F)) ∈
      ((cut l r).map Prod.fst).slices := by
    intro l m hm
    simp only [Cell.map, cut, List.map_map, List.mem_map]
    exact ⟨m, hm, rfl⟩
  refine ⟨hc, ⟨?_, ?_⟩⟩
  · intro m hm
    simp only [Cell.map, addSlice, List.map_map, List.mem_map] at hm
    obtain ⟨m, hm, rfl⟩ := hm
    have h0 := (hr 0 hn).2.faithful _ (hcut 0 m hm)
    have hsh := hf m hm
    have e : c.aval.headD 0 = n := by rw [hc, ha]; rfl
    refine ⟨?_, ?_, ?_⟩
    · intro b hb
      simp only [Function.comp, ND.map, List.mem_cons] at hb
      rcases hb with rfl | hb
      · exact Nat.zero_le _
      · exact h0.valid b hb
    · have h2 := h0.shape
      simp only [ND.map] at h2
      simp only [Function.comp, ND.map, List.map_cons, e, Nat.sub_zero, ← h2]
      exact (List.cons_head?_tail hsh).symm
    · intro k hk
      simp only [Function.comp, ND.map, e] at hk ⊢
      rcases k with _ | ⟨l, k⟩
      · simp [inBox] at hk
      obtain ⟨hl, hk⟩ := hk
      have h3 := ((hr l hl.2).2.faithful _ (hcut l m hm)).val k hk
      simp only [ND.map, laneArr] at h3
      simpa [offset] using h3
  · intro m hm
    simp only [Cell.map, addSlice, List.map_map, List.mem_map] at hm
    obtain ⟨m, hm, rfl⟩ := hm
    have h0 := (hr 0 hn).2.within _ (hcut 0 m hm)
    have hs := (hr 0 hn).1
    simp only [ND.map, Cell.map, cut, laneArr, ha] at h0 hs
    simp only [Function.comp, ND.map, Cell.map, addSlice, hc, ha]
    refine .cons (le_refl _) ?_
    rw [hs] at h0
    simpa using h0

theorem forall₂_get' {α β : Type} {R : α → β → Prop} {l : List α} {r : List β} (h : l.length = r.length)
    (hh : ∀ (k : Nat) (a : α) (b : β), l[k]? = some a → r[k]? = some b → R a b) : List.Forall₂ R l r := by
  induction l generalizing r with
  | nil => cases r with
    | nil => exact .nil
    | cons => simp at h
  | cons a l ih => cases r with
    | nil => simp at h
    | cons b r =>
      exact .cons (hh 0 a b rfl rfl) (ih (by simpa using h) fun k a b h1 h2 => hh (k + 1) a b (by simpa using h1) (by simpa using h2))

theorem forall₂_at {α β : Type} {R : α → β → Prop} {l : List α} {r : List β} (h : List.Forall₂ R l r) {k : Nat} {a : α}
    {b : β} (h1 : l[k]? = some a) (h2 : r[k]? = some b) : R a b := by
  induction h generalizing k with
  | nil => simp at h1
  | cons hx _ ih =>
    cases k with
    | zero => simp at h1 h2; subst h1 h2; exact hx
    | succ k => exact ih (by simpa using h1) (by simpa using h2)

/-- The cells of the lanes of the operands. -/
theorem tells_lanes (n : Nat) (hn : 0 < n) (as : List FArr) (hsh : ∀ a ∈ as, ∃ s, a.shape = n :: s) (cs : List ACell)
    (h : List.Forall₂ TellsA as cs) (hf : ∀ c ∈ cs, Fits n (remove c)) (l : Nat) (hl : l < n) :
    List.Forall₂ TellsA (as.map (laneArr (some 0) l)) ((cs.map remove).map (cut l)) := by
  induction h with
  | nil => exact .nil
  | @cons a c as cs h1 _ ih =>
    obtain ⟨s, hs⟩ := hsh a List.mem_cons_self
    exact .cons (tells_lane a n s hn hs c h1 (hf c List.mem_cons_self) l hl)
      (ih (fun b hb => hsh b (List.mem_cons_of_mem _ hb)) fun b hb => hf b (List.mem_cons_of_mem _ hb))

/-- The cells of the lanes are put together. -/
theorem tells_stacks (n : Nat) (hn : 0 < n) (as : List FArr) (hsh : ∀ a ∈ as, ∃ s, a.shape = n :: s) (cs rs : List ACell)
    (h : List.Forall₂ TellsA as cs) (hf : ∀ c ∈ rs, Fits n c)
    (hr : ∀ l < n, List.Forall₂ TellsA (as.map (laneArr (some 0) l)) (rs.map (cut l))) :
    List.Forall₂ TellsA as (List.zipWith addSlice cs rs) := by
  have h1 := h.length_eq
  have h2 := (hr 0 hn).length_eq
  simp only [List.length_map] at h2
  refine forall₂_get' (by rw [List.length_zipWith]; omega) fun k a c ha hc => ?_
  rw [List.getElem?_zipWith] at hc
  rcases hck : cs[k]? with _ | c' <;> rcases hrk : rs[k]? with _ | r <;> rw [hck, hrk] at hc <;> simp at hc
  subst hc
  have hm := List.mem_of_getElem? ha
  obtain ⟨s, hs⟩ := hsh a hm
  refine tells_stack a n s hn hs c' r (forall₂_at h ha hck).1 (hf r (List.mem_of_getElem? hrk)) fun l hl => ?_
  exact forall₂_at (hr l hl) (by rw [List.getElem?_map, ha]; rfl) (by rw [List.getElem?_map, hrk]; rfl)

theorem tells_all {jn : ACell → ACell → ACell} (hj : ∀ a b, Joins a b (jn a b)) (σ : Orders) (hσ : σ.Valid jn) :
    ∀ (shp : Nat → List Nat) (es : List NEqn), wfAll shp es → ∀ val, execAll shp es val →
    ∀ q ∈ eqnsOf jn σ es, RuleTellsA shp val q
  | _, [], _, _, _, q, hq => by simp [eqnsOf] at hq
  | shp, .prim op a b :: es, h, val, hx, q, hq => by
    simp only [eqnsOf, List.mem_cons] at hq
    simp only [execAll] at hx
    simp only [wfAll] at h
    obtain ⟨x1, x2, x3⟩ := hx
    obtain ⟨h1, h2, h3⟩ := h
    rcases hq with rfl | hq
    · intro i o hi ho
      refine op.rule_tells hj _ _ ?_ x2 x1 ?_ i o hi ho
      · simp only [List.map_map]
        have e : (fun x : FArr => x.shape) ∘ arrOf shp val = shpOf shp := by
          funext c; exact arrOf_shape shp val c
        rw [e]; exact h1
      · intro z hz k _
        obtain ⟨c, hc1, rfl⟩ := List.mem_map.1 hz
        cases c with
        | lit v => exact absurd rfl (h2 _ hc1 v)
        | var x => simp [arrOf]
        | drop x => simp [arrOf]
    · exact tells_all hj σ hσ shp es h3 val x3 q hq
  | shp, .call id shp' iv ov body a b :: es, h, val, hx, q, hq => by
    simp only [eqnsOf, List.mem_cons] at hq
    simp only [wfAll] at h
    obtain ⟨h1, h2, h3, h4⟩ := h
    simp only [execAll] at hx
    obtain ⟨⟨w, w1, w2, w3⟩, hx⟩ := hx
    rcases hq with rfl | hq
    · intro i o hi ho
      simp only at hi ho ⊢
      rcases hσ.call id shp' ⟨[], iv, ov, eqnsOf jn σ body⟩ i o with ⟨s, hs, heq⟩ | ⟨-, heq⟩
      · have := run_tellsA hj shp' ⟨[], iv, ov, eqnsOf jn σ body⟩ rfl w (tells_all hj σ hσ shp' body h3 w w3) i o
          (forall₂_tells_same (forall₂_same_symm w1) hi) (forall₂_tells_same (forall₂_same_symm w2) ho) s hs
        simp only [heq]
        exact ⟨forall₂_tells_same w1 (tellsA_read jn shp' w s.env this iv),
          forall₂_tells_same w2 (tellsA_read jn shp' w s.env this ov)⟩
      · simp only [heq]; exact ⟨hi, ho⟩
    · exact tells_all hj σ hσ shp es h4 val hx q hq
  | shp, .pmap id n axes shp' iv ov body a b :: es, h, val, hx, q, hq => by
    simp only [eqnsOf, List.mem_cons] at hq
    simp only [wfAll] at h
    obtain ⟨hn, hax, h1, h2, h3, h4⟩ := h
    simp only [execAll] at hx
    obtain ⟨hw, hx⟩ := hx
    rcases hq with rfl | hq
    · intro i o hi ho
      simp only at hi ho ⊢
      rcases hσ.pmap id n shp' ⟨[], iv, ov, eqnsOf jn σ body⟩ i o with ⟨hf, ri, ro, hfr, hl, -, heq⟩ | ⟨-, heq⟩
      · have key : ∀ (as vs : List (Atom FArr)), as.map (shpOf shp) = vs.map (fun a => n :: shpOf shp' a) →
            ∀ x ∈ as.map (arrOf shp val), ∃ s, x.shape = n :: s := by
          intro as vs he x hx
          obtain ⟨c, hc, rfl⟩ := List.mem_map.1 hx
          have : shpOf shp c ∈ vs.map (fun a => n :: shpOf shp' a) := he ▸ List.mem_map.2 ⟨c, hc, rfl⟩
          obtain ⟨d, -, hd⟩ := List.mem_map.1 this
          exact ⟨_, (arrOf_shape shp val c).trans hd.symm⟩
        have hsa := key a iv h1
        have hsb := key b ov h2
        have hzip : ∀ l, List.zipWith (fun ax c => laneArr ax l (arrOf shp val c)) axes a =
            (a.map (arrOf shp val)).map (laneArr (some 0) l) := by
          intro l
          rw [hax]
          clear * -
          induction a with
          | nil => rfl
          | cons c a ih => simp only [List.map_cons, List.zipWith_cons_cons, ih]
        have hrun : ∀ l < n, List.Forall₂ TellsA ((a.map (arrOf shp val)).map (laneArr (some 0) l)) (ri.map (cut l)) ∧
            List.Forall₂ TellsA ((b.map (arrOf shp val)).map (laneArr (some 0) l)) (ro.map (cut l)) := by
          intro l hln
          obtain ⟨w, w1, w2, w3⟩ := hw l hln
          obtain ⟨s, hs, e1, e2⟩ := hl l hln
          rw [hzip] at w1
          have w2' : List.Forall₂ FArr.Same (ov.map (arrOf shp' w)) ((b.map (arrOf shp val)).map (laneArr (some 0) l)) := by
            rw [List.map_map]; exact w2
          have t1 := tells_lanes n hn _ hsa i hi (fun c hc => hf c (List.mem_append_left _ hc)) l hln
          have t2 := tells_lanes n hn _ hsb o ho (fun c hc => hf c (List.mem_append_right _ hc)) l hln
          have := run_tellsA hj shp' ⟨[], iv, ov, eqnsOf jn σ body⟩ rfl w (tells_all hj σ hσ shp' body h3 w w3) _ _
            (forall₂_tells_same (forall₂_same_symm w1) t1) (forall₂_tells_same (forall₂_same_symm w2') t2) s hs
          rw [e1, e2]
          exact ⟨forall₂_tells_same w1 (tellsA_read jn shp' w s.env this iv),
            forall₂_tells_same w2' (tellsA_read jn shp' w s.env this ov)⟩
        simp only [heq]
        exact ⟨tells_stacks n hn _ hsa i ri hi (fun c hc => hfr c (List.mem_append_left _ hc)) fun l hl => (hrun l hl).1,
          tells_stacks n hn _ hsb o ro ho (fun c hc => hfr c (List.mem_append_right _ hc)) fun l hl => (hrun l hl).2⟩
      · simp only [heq]; exact ⟨hi, ho⟩
    · exact tells_all hj σ hσ shp es h4 val hx q hq

/-- **C73, values.**  Any program on arrays with calls and `pmap`s to any depth, every operand of a `pmap` being mapped
along its first axis: if `val` is an execution of it with every entry, also in callees and lanes, on the branch the
registered inverse chooses, then every run of `inverse` on the outputs of that execution, in any order of propagation
outside and inside of calls and lanes, either fails or returns exactly the inputs. -/
theorem C73_values_partial {jn : ACell → ACell → ACell} (hj : ∀ a b, Joins a b (jn a b)) (σ : Orders) (hσ : σ.Valid jn)
    (P : NProg) (val : Nat → List Nat → ℝ) (hP : wfAll P.shp P.eqns) (hex : execAll P.shp P.eqns val)
    (res : List (List Nat → F × F)) (h : NRun jn σ P (P.outvars.map (arrOf P.shp val)) (some res)) :
    List.Forall₂ (fun x v => ∀ k, inBox (fullBox (P.shp x)) k → (v k).1 = some (val x k)) P.invars res := by
  obtain ⟨s, hs, hres⟩ := h
  have ht := run_tellsA hj P.shp (P.jaxpr jn σ) rfl val (tells_all hj σ hσ P.shp P.eqns hP val hex) _ _ ?_ ?_ s hs
  · clear hs
    generalize P.invars = inv at hres ⊢
    induction inv generalizing res with
    | nil => simp at hres; subst hres; exact .nil
    | cons x xs ih =>
      replace hres := hres.symm
      simp only [List.map_cons, List.mapM_cons, Option.bind_eq_bind, Option.bind_eq_some_iff, Option.pure_def,
        Option.some.injEq] at hres
      obtain ⟨v, hv1, vs, hv2, rfl⟩ := hres
      exact .cons (fun k hk => tellsA_top (ht x) hv1 k hk) (ih vs hv2.symm)
  · show List.Forall₂ TellsA ((P.invars.map Atom.var).map (arrOf P.shp val)) _
    clear * -
    induction P.invars with
    | nil => exact .nil
    | cons a as ih => exact .cons (tellsA_bottom _) ih
  · show List.Forall₂ TellsA (P.outvars.map (arrOf P.shp val)) _
    rw [List.map_map]
    clear * -
    induction P.outvars with
    | nil => exact .nil
    | cons a as ih => exact .cons (tellsA_new _ _ (fun _ _ => rfl)) ih

end Verif.Inverse.Mapped
