import Verif.Inverse.ArrLay

/-! The layout (`Lay`) of a program on arrays, and what is known in an environment. -/
namespace Verif.Inverse

open Verif.Propagate Filter Topology

variable {n : Nat} {P : AProg} {ax : Nat → Nat} {val : (Fin n → ℝ) → Nat → List Nat → ℝ} {x₀ : Fin n → ℝ}

open Classical in
/-- The equation that defines an entry. -/
noncomputable def eqnOf (P : AProg) (u : Nat × List Nat) : Option Nat :=
  if h : ∃ (e : Nat) (q : AOp × List (Atom FArr) × List (Atom FArr)), P.eqns[e]? = some q ∧ Atom.var u.1 ∈ q.2.2 ∧
      inBox (fullBox (P.shp u.1)) u.2 then some h.choose else none

/-- The entries an entry is computed from. -/
def opsOf (P : AProg) (u : Nat × List Nat) : Set (Nat × List Nat) :=
  {y | ∃ (e : Nat) (q : AOp × List (Atom FArr) × List (Atom FArr)), P.eqns[e]? = some q ∧ Atom.var u.1 ∈ q.2.2 ∧
    inBox (fullBox (P.shp u.1)) u.2 ∧ y ∈ opsAt P.shp q.1 q.2.1 u.2}

open Classical in
/-- The position of a variable. -/
noncomputable def posOfA (P : AProg) (x : Nat) : Nat :=
  if h : ∃ (e : Nat) (q : AOp × List (Atom FArr) × List (Atom FArr)), P.eqns[e]? = some q ∧ Atom.var x ∈ q.2.2 then
    h.choose + 1 else 0

theorem AProg.SSA.unique (h : P.SSA) {e e' : Nat} {q q'} (he : P.eqns[e]? = some q) (he' : P.eqns[e']? = some q')
    {x : Nat} (hx : Atom.var x ∈ q.2.2) (hx' : Atom.var x ∈ q'.2.2) : e = e' ∧ q = q' := by
  have key : ∀ (e e' : Nat) q q', P.eqns[e]? = some q → P.eqns[e']? = some q' → Atom.var x ∈ q.2.2 →
      Atom.var x ∈ q'.2.2 → ¬ e' < e := by
    intro e e' q q' he he' hu hu' hlt
    obtain ⟨⟨ws, hws, -, h1⟩, -⟩ := h e q he
    have : x ∈ ws := by
      rw [hws] at hu
      obtain ⟨y, hy, hyw⟩ := List.mem_map.1 hu
      obtain rfl := Atom.var.inj hyw; exact hy
    exact (h1 x this).2 e' q' hlt he' hu'
  have h1 := key e e' q q' he he' hx hx'
  have h2 := key e' e q' q he' he hx' hx
  have h3 : e = e' := by omega
  subst h3
  rw [he] at he'
  exact ⟨rfl, Option.some.inj he'⟩

theorem AProg.SSA.notin (h : P.SSA) {e : Nat} {q} (he : P.eqns[e]? = some q) {x : Nat} (hx : Atom.var x ∈ q.2.2) :
    x ∉ P.consts.map Prod.fst ++ P.invars := by
  obtain ⟨⟨ws, hws, -, h1⟩, -⟩ := h e q he
  rw [hws] at hx
  obtain ⟨y, hy, hyw⟩ := List.mem_map.1 hx
  obtain rfl := Atom.var.inj hyw
  exact (h1 y hy).1

theorem eqnOf_iff (h : P.SSA) {u : Nat × List Nat} {e : Nat} : eqnOf P u = some e ↔
    ∃ q, P.eqns[e]? = some q ∧ Atom.var u.1 ∈ q.2.2 ∧ inBox (fullBox (P.shp u.1)) u.2 := by
  unfold eqnOf
  constructor
  · intro h1
    split at h1
    · rename_i hex
      obtain rfl := Option.some.inj h1
      exact hex.choose_spec
    · cases h1
  · rintro ⟨q, h1, h2, h3⟩
    have hex : ∃ (e : Nat) (q : AOp × List (Atom FArr) × List (Atom FArr)), P.eqns[e]? = some q ∧ Atom.var u.1 ∈ q.2.2 ∧
      inBox (fullBox (P.shp u.1)) u.2 := ⟨e, q, h1, h2, h3⟩
    rw [dif_pos hex]
    obtain ⟨q', k1, k2, -⟩ := hex.choose_spec
    rw [(h.unique k1 h1 k2 h2).1]

theorem eqnOf_none (u : Nat × List Nat) (h : ∀ (e : Nat) q, P.eqns[e]? = some q → Atom.var u.1 ∉ q.2.2) : eqnOf P u = none := by
  unfold eqnOf
  rw [dif_neg]
  rintro ⟨e, q, h1, h2, -⟩
  exact h e q h1 h2

theorem opsOf_eq (h : P.SSA) {e : Nat} {q} (he : P.eqns[e]? = some q) {u : Nat × List Nat} (hu : Atom.var u.1 ∈ q.2.2)
    (hk : inBox (fullBox (P.shp u.1)) u.2) : opsOf P u = opsAt P.shp q.1 q.2.1 u.2 := by
  ext y
  constructor
  · rintro ⟨e', q', h1, h2, -, h3⟩
    obtain ⟨-, rfl⟩ := h.unique h1 he h2 hu
    exact h3
  · intro hy; exact ⟨e, q, he, hu, hk, hy⟩

theorem posOfA_out (h : P.SSA) {e : Nat} {q} (he : P.eqns[e]? = some q) {x : Nat} (hx : Atom.var x ∈ q.2.2) :
    posOfA P x = e + 1 := by
  have hex : ∃ (e : Nat) (q : AOp × List (Atom FArr) × List (Atom FArr)), P.eqns[e]? = some q ∧ Atom.var x ∈ q.2.2 :=
    ⟨e, q, he, hx⟩
  unfold posOfA
  rw [dif_pos hex]
  obtain ⟨q', k1, k2⟩ := hex.choose_spec
  rw [(h.unique k1 he k2 hx).1]

theorem posOfA_inp (h : P.SSA) {x : Nat} (hx : x ∈ P.consts.map Prod.fst ++ P.invars) : posOfA P x = 0 := by
  unfold posOfA
  rw [dif_neg]
  rintro ⟨e, q, h1, h2⟩
  exact h.notin h1 h2 hx

theorem posOfA_in (h : P.SSA) {e : Nat} {q} (he : P.eqns[e]? = some q) {y : Nat} (hy : Atom.var y ∈ q.2.1) :
    posOfA P y < e + 1 := by
  rcases (h e q he).2 _ hy with ⟨v, hv⟩ | ⟨y', hy', h1⟩
  · cases hv
  · obtain rfl := Atom.var.inj hy'
    rcases h1 with h1 | ⟨e', q', h2, h3, h4⟩
    · rw [posOfA_inp h h1]; omega
    · rw [posOfA_out h h3 h4]; omega

/-- Constants do not vary. -/
theorem AProg.Diff.const (H : P.Diff ax val x₀) {x : Nat} (hx : x ∈ P.consts.map Prod.fst) {k : List Nat}
    (hk : inBox (fullBox (P.shp x)) k) : DifferentiableAt ℝ (fun t => val t x k) x₀ ∧ GD val x₀ (x, k) = 0 := by
  obtain ⟨c, hc, rfl⟩ := List.mem_map.1 hx
  have hev : (fun t => val t c.1 k) =ᶠ[𝓝 x₀] fun _ => val x₀ c.1 k := by
    have h0 := H.exec.self_of_nhds.consts c hc
    filter_upwards [H.exec] with t ht
    have h1 := ht.consts c hc
    have h2 := h0.2 k (by rw [h0.1]; exact hk)
    have h3 := h1.2 k (by rw [h1.1]; exact hk)
    rw [h2] at h3
    exact (Option.some.inj h3).symm
  refine ⟨(differentiableAt_const _).congr_of_eventuallyEq hev, ?_⟩
  have : GD val x₀ (c.1, k) = grad (fun _ => val x₀ c.1 k) x₀ := grad_congr hev
  rw [this, grad_const]

theorem AProg.Diff.diff (H : P.Diff ax val x₀) (e : Nat) : ∀ q, P.eqns[e]? = some q → ∀ w, Atom.var w ∈ q.2.2 →
    ∀ k, inBox (fullBox (P.shp w)) k → DifferentiableAt ℝ (fun t => val t w k) x₀ := by
  induction e using Nat.strong_induction_on with
  | _ e ih =>
    intro q he w hw k hk
    refine (H.eqnAt he ?_ hw hk).1
    intro a ha
    rcases (H.ssa e q he).2 a ha with h | ⟨y, rfl, h⟩
    · exact .inl h
    · refine .inr ⟨y, rfl, fun k hk => ?_⟩
      rcases h with h | ⟨e', q', he', hg', hy⟩
      · rcases List.mem_append.1 h with h | h
        · exact (H.const h hk).1
        · exact H.base y h k hk
      · exact ih e' he' q' hg' y hy k hk

theorem AProg.Diff.ins (H : P.Diff ax val x₀) {e : Nat} {q} (he : P.eqns[e]? = some q) : InsOk P val x₀ q.2.1 := by
  intro a ha
  rcases (H.ssa e q he).2 a ha with h | ⟨y, rfl, h⟩
  · exact .inl h
  · refine .inr ⟨y, rfl, fun k hk => ?_⟩
    rcases h with h | ⟨e', q', he', hg', hy⟩
    · rcases List.mem_append.1 h with h | h
      · exact (H.const h hk).1
      · exact H.base y h k hk
    · exact H.diff e' q' hg' y hy k hk

/-- The layout of a program on arrays. -/
noncomputable def AProg.Diff.lay (H : P.Diff ax val x₀) : Lay (GD val x₀) where
  eqn := eqnOf P
  ops := opsOf P
  pos u := posOfA P u.1
  lt := by
    rintro u y ⟨e, q, he, hu, hk, hy⟩
    rw [posOfA_out H.ssa he hu]
    exact posOfA_in H.ssa he (opsAt_var _ _ _ _ _ hy)
  span := by
    intro u hu
    obtain ⟨e, he⟩ := Option.ne_none_iff_exists'.1 hu
    obtain ⟨q, h1, h2, h3⟩ := (eqnOf_iff H.ssa).1 he
    rw [opsOf_eq H.ssa h1 h2 h3]
    exact (H.eqnAt h1 (H.ins h1) h2 h3).2

/-! ### What is known -/

/-- The ILDJs of the known entries. -/
noncomputable def Lk (env : Env ACell) : Kn (Nat × List Nat) := fun u => (look (env u.1) u.2).map Prod.snd

theorem Lk_ne {env : Env ACell} {u : Nat × List Nat} : Lk env u ≠ none ↔ Covers (env u.1).slices u.2 := by
  rw [← look_ne_none]; unfold Lk; simp

theorem Lk_none {env : Env ACell} {u : Nat × List Nat} : Lk env u = none ↔ ¬ Covers (env u.1).slices u.2 := by
  rw [← look_none]; unfold Lk; simp

/-- All cells consist of slices along the chosen axes. -/
def Basic (P : AProg) (ax : Nat → Nat) (env : Env ACell) : Prop := ∀ x, Slabs (P.shp x) (ax x) (env x)

/-- All cells are in order. -/
def GoodEnv (P : AProg) (ax : Nat → Nat) (env : Env ACell) : Prop := ∀ x, Good (P.shp x) (ax x) (env x)

theorem covers_box {A : List Nat} {d : Nat} (hA : Axis A d) {c : ACell} (hc : Slabs A d c) {k : List Nat}
    (h : Covers c.slices k) : inBox (fullBox A) k := ((covers_sh hA hc k).1 h).1

theorem Basic.box {env : Env ACell} (hA : ∀ x, Axis (P.shp x) (ax x)) (h : Basic P ax env) {u : Nat × List Nat}
    (hu : Lk env u ≠ none) : inBox (fullBox (P.shp u.1)) u.2 := covers_box (hA _) (h _) (Lk_ne.1 hu)

theorem Basic.top {env : Env ACell} (hA : ∀ x, Axis (P.shp x) (ax x)) (h : Basic P ax env) {x : Nat} {k : List Nat}
    (hx : (env x).top = true) (hk : inBox (fullBox (P.shp x)) k) : Lk env (x, k) ≠ none :=
  Lk_ne.2 (slabs_top_covers (hA x) (h x) hx hk)

theorem indices_nodup (s : List Nat) : (NN.indices s).Nodup := by
  rw [List.nodup_iff_injective_get]
  intro i j hij
  have key : ∀ i : Fin (NN.indices s).length, NN.ravel s ((NN.indices s).get i) = i := by
    intro i
    have h := (ravel_indices s i.1 (by rw [← NN.length_indices]; exact i.2)).2
    rw [List.getD_eq_getElem?_getD, List.getElem?_eq_getElem i.2] at h
    exact h
  exact Fin.ext (by rw [← key i, ← key j, hij])

/-! ### Two kinds of changes -/

variable {jn : ACell → ACell → ACell}

/-- Forward: the results of the equation become complete. -/
theorem leff_fwd (H : P.Diff ax val x₀) {e : Nat} {q} (he : P.eqns[e]? = some q) {env env' : Env ACell} (hb : Basic P ax env)
    (h1 : ∀ x, Atom.var x ∉ q.2.2 → env' x = env x)
    (h2 : ∀ x, Atom.var x ∈ q.2.2 → ∃ v, env' x = ⟨P.shp x, [ND.new (P.shp x) v]⟩)
    (h3 : ∀ w k, Atom.var w ∈ q.2.2 → inBox (fullBox (P.shp w)) k → ∀ y ∈ opsAt P.shp q.1 q.2.1 k, Lk env y ≠ none)
    {Dn : Prop} (hd : Dn) :
    LEff H.lay e (GoodEnv P ax env) (GoodEnv P ax env') Dn (Lk env) (Lk env') ∧ Basic P ax env' := by
  have hnew : ∀ x v, env' x = ⟨P.shp x, [ND.new (P.shp x) v]⟩ → Good (P.shp x) (ax x) (env' x) := by
    intro x v h; rw [h]; exact good_one (H.axis x) (new_slab (H.axis x) v)
  have hb' : Basic P ax env' := by
    intro x
    by_cases hx : Atom.var x ∈ q.2.2
    · obtain ⟨v, hv⟩ := h2 x hx; exact (hnew x v hv).slabs
    · rw [h1 x hx]; exact hb x
  refine ⟨.fwd ?_ ?_ ?_ hd, hb'⟩
  · intro u hu
    by_cases hx : Atom.var u.1 ∈ q.2.2
    · have hk : ¬ inBox (fullBox (P.shp u.1)) u.2 := fun hk => hu ((eqnOf_iff H.ssa).2 ⟨q, he, hx, hk⟩)
      have e1 : Lk env u = none := by by_contra h; exact hk (hb.box H.axis h)
      have e2 : Lk env' u = none := by by_contra h; exact hk (hb'.box H.axis h)
      rw [e1, e2]
    · unfold Lk; rw [h1 _ hx]
  · intro u hu
    obtain ⟨q', k1, k2, k3⟩ := (eqnOf_iff H.ssa).1 hu
    obtain rfl := Option.some.inj (he.symm.trans k1)
    refine ⟨fun y hy => h3 u.1 u.2 k2 k3 y ?_, ?_⟩
    · have : opsOf P u = opsAt P.shp q.1 q.2.1 u.2 := opsOf_eq H.ssa he k2 k3
      rw [← this]; exact hy
    · obtain ⟨v, hv⟩ := h2 _ k2
      unfold Lk
      rw [hv, look_new k3]; simp
  · intro hg x
    by_cases hx : Atom.var x ∈ q.2.2
    · obtain ⟨v, hv⟩ := h2 x hx; exact hnew x v hv
    · rw [h1 x hx]; exact hg x

/-- The environment after joining slices: `ps x` is the slice that is written to `x`. -/
def joinAll (jn : ACell → ACell → ACell) (P : AProg) (ps : Nat → Option (ND (F × F))) (env : Env ACell) : Env ACell :=
  fun x => match ps x with
    | none => env x
    | some p => jn (env x) ⟨P.shp x, [p]⟩

/-- Backward: the result of the equation is complete, and each of its entries gives an entry of an operand. -/
theorem leff_back (hj : ∀ a b, Joins a b (jn a b)) (H : P.Diff ax val x₀) {e : Nat} {q} (he : P.eqns[e]? = some q)
    {env : Env ACell} (hb : Basic P ax env) {z : Nat} (hz : Atom.var z ∈ q.2.2) {v : List Nat → F × F}
    (hv : topVal (env z) = some v) (ps : Nat → Option (ND (F × F)))
    (hp : ∀ x p, ps x = some p → IsSlab (P.shp x) (ax x) p) (τ : List Nat → Nat × List Nat)
    (hτ1 : ∀ k, inBox (fullBox (P.shp z)) k → ∃ p, ps (τ k).1 = some p ∧ inBox p.slices (τ k).2 ∧
      (Lk env (τ k) = none → Inverts H.lay (Lk env) (z, k) (τ k) (p.val (offset (τ k).2 p.slices)).2))
    (hτ2 : ∀ x p j, ps x = some p → inBox p.slices j → ∃ k, inBox (fullBox (P.shp z)) k ∧ τ k = (x, j))
    (hτ3 : ∀ k k', inBox (fullBox (P.shp z)) k → inBox (fullBox (P.shp z)) k' → τ k = τ k' → k = k')
    (hops : ∀ k, inBox (fullBox (P.shp z)) k → τ k ∈ opsAt P.shp q.1 q.2.1 k ∧
      ∀ y ∈ opsAt P.shp q.1 q.2.1 k, y ≠ τ k → Lk env y ≠ none)
    {Dn : Prop} (hd : GoodEnv P ax (joinAll jn P ps env) →
      (∀ x p j, ps x = some p → inBox p.slices j → Covers (joinAll jn P ps env x).slices j) → Dn) :
    LEff H.lay e (GoodEnv P ax env) (GoodEnv P ax (joinAll jn P ps env)) Dn (Lk env) (Lk (joinAll jn P ps env)) ∧
      Basic P ax (joinAll jn P ps env) := by
  have hcov : ∀ x p, ps x = some p → ∀ k, Covers (joinAll jn P ps env x).slices k ↔
      Covers (env x).slices k ∨ inBox p.slices k := by
    intro x p hx k
    have h1 := slabs_join_covers (H.axis x) (hb x) (slabs_one (hp x p hx)) (hj (env x) ⟨P.shp x, [p]⟩) k
    have h2 : joinAll jn P ps env x = jn (env x) ⟨P.shp x, [p]⟩ := by unfold joinAll; rw [hx]
    rw [h2, h1]
    refine or_congr_right ?_
    unfold Covers; simp
  have hsame : ∀ x, ps x = none → joinAll jn P ps env x = env x := by
    intro x hx; unfold joinAll; rw [hx]
  have hb' : Basic P ax (joinAll jn P ps env) := by
    intro x
    rcases hx : ps x with _ | p
    · rw [hsame x hx]; exact hb x
    · have h2 : joinAll jn P ps env x = jn (env x) ⟨P.shp x, [p]⟩ := by unfold joinAll; rw [hx]
      rw [h2]
      exact ((hj (env x) _).sh (H.axis x) (hb x) (slabs_one (hp x p hx))).1
  refine ⟨.back ((NN.indices (P.shp z)).map (fun k => (z, k))) ?_ (fun u => τ u.2) ?_ ?_ ?_ ?_, hb'⟩
  · refine List.Nodup.map (fun a b h => (Prod.mk.inj h).2) ?_
    exact indices_nodup _
  · intro w hw w' hw' ht
    obtain ⟨k, hk, rfl⟩ := List.mem_map.1 hw
    obtain ⟨k', hk', rfl⟩ := List.mem_map.1 hw'
    rw [hτ3 k k' (mem_indices_box.1 hk) (mem_indices_box.1 hk') ht]
  · intro w hw
    obtain ⟨k, hk, rfl⟩ := List.mem_map.1 hw
    rw [mem_indices_box] at hk
    have hop : H.lay.ops (z, k) = opsAt P.shp q.1 q.2.1 k := opsOf_eq H.ssa he (u := (z, k)) hz hk
    obtain ⟨o1, o2⟩ := hops k hk
    obtain ⟨p, p1, p2, -⟩ := hτ1 k hk
    refine ⟨(eqnOf_iff H.ssa).2 ⟨q, he, hz, hk⟩, hb.top H.axis (by rw [← topVal_top, hv]; rfl) hk, by rw [hop]; exact o1, ?_,
      by rw [hop]; exact o2⟩
    rw [Lk_ne, hcov _ p p1]; exact .inr p2
  · intro u hu
    rw [Lk_none, Lk_none]
    rcases hx : ps u.1 with _ | p
    · rw [hsame _ hx]
    · rw [hcov _ p hx]
      refine not_congr ⟨fun h => h.resolve_right fun hin => ?_, Or.inl⟩
      obtain ⟨k, k1, k2⟩ := hτ2 _ p _ hx hin
      exact hu (z, k) (List.mem_map.2 ⟨k, mem_indices_box.2 k1, rfl⟩) k2
  · intro hg hno
    have hdis : ∀ x p, ps x = some p → ∀ j, Covers (env x).slices j → ¬ inBox p.slices j := by
      intro x p hx j hc hin
      obtain ⟨k, k1, k2⟩ := hτ2 _ p _ hx hin
      have h1 := hno (z, k) (List.mem_map.2 ⟨k, mem_indices_box.2 k1, rfl⟩)
      simp only [k2, Lk_none] at h1
      exact h1 hc
    have hgj := fun x p (hx : ps x = some p) =>
      good_join (H.axis x) (hg x) (hp x p hx) (hdis x p hx) (hj (env x) ⟨P.shp x, [p]⟩)
    have hG' : GoodEnv P ax (joinAll jn P ps env) := by
      intro x
      rcases hx : ps x with _ | p
      · rw [hsame x hx]; exact hg x
      · have h2 : joinAll jn P ps env x = jn (env x) ⟨P.shp x, [p]⟩ := by unfold joinAll; rw [hx]
        rw [h2]; exact (hgj x p hx).1
    refine ⟨hG', hd hG' (fun x p j hx hin => (hcov x p hx j).2 (.inr hin)), ?_, ?_⟩
    · intro u hu
      rcases hx : ps u.1 with _ | p
      · unfold Lk; rw [hsame _ hx]
      · have hnb : ¬ inBox p.slices u.2 := by
          intro hin
          obtain ⟨k, k1, k2⟩ := hτ2 _ p _ hx hin
          exact hu (z, k) (List.mem_map.2 ⟨k, mem_indices_box.2 k1, rfl⟩) k2
        have h2 : joinAll jn P ps env u.1 = jn (env u.1) ⟨P.shp u.1, [p]⟩ := by unfold joinAll; rw [hx]
        unfold Lk
        rw [h2, (hgj _ p hx).2.2 _ hnb]
    · intro w hw
      obtain ⟨k, hk, rfl⟩ := List.mem_map.1 hw
      rw [mem_indices_box] at hk
      obtain ⟨p, p1, p2, p3⟩ := hτ1 k hk
      refine ⟨_, ?_, p3 (hno (z, k) hw)⟩
      have h2 : joinAll jn P ps env (τ k).1 = jn (env (τ k).1) ⟨P.shp (τ k).1, [p]⟩ := by unfold joinAll; rw [p1]
      show (look (joinAll jn P ps env (τ k).1) (τ k).2).map Prod.snd = _
      rw [h2, (hgj _ p p1).2.1 _ p2]; rfl

end Verif.Inverse
