import Verif.Inverse.ArrNodes

/-! What executing one equation of a program on arrays does to the known entries. -/
namespace Verif.Inverse

open Verif.Propagate Filter Topology

variable {n : Nat} {P : AProg} {ax : Nat → Nat} {val : (Fin n → ℝ) → Nat → List Nat → ℝ} {x₀ : Fin n → ℝ}
variable {jn : ACell → ACell → ACell}

/-! ### Writing -/

theorem writeAll_id (hj : ∀ a b, Joins a b (jn a b)) (shp : Nat → List Nat) (env : Env ACell) (as : List (Atom FArr)) :
    (writeAll (aOps jn shp) env as (as.map (Propagate.read (aOps jn shp) env))).1 = env := by
  induction as with
  | nil => rfl
  | cons a as ih =>
    simp only [List.map_cons, writeAll]
    have h1 : (Propagate.write (aOps jn shp) env a (Propagate.read (aOps jn shp) env a)).1 = env := by
      cases a with
      | lit v => rfl
      | drop x => rfl
      | var x =>
        funext y
        simp only [Propagate.write, Propagate.read]
        split
        · rename_i h; subst h; exact join_self (hj _ _)
        · rfl
    rw [h1]; exact ih

theorem writeAll_id1 (hj : ∀ a b, Joins a b (jn a b)) (shp : Nat → List Nat) (env : Env ACell) (z : Nat) (c : ACell)
    (h : c = env z) : (writeAll (aOps jn shp) env [Atom.var z] [c]).1 = env := by
  subst h; exact writeAll_id hj shp env [.var z]

/-- Writing to one variable. -/
theorem writeAll_one (P : AProg) (env : Env ACell) (x : Nat) (p : ND (F × F)) :
    (writeAll (aOps jn P.shp) env [Atom.var x] [⟨P.shp x, [p]⟩]).1 =
      joinAll jn P (fun y => if y = x then some p else none) env := by
  funext y
  simp only [writeAll, Propagate.write, joinAll, aOps]
  by_cases h : y = x
  · subst h; simp
  · simp [h]

theorem writeAll_vars (shp : Nat → List Nat) (env : Env ACell) (ws : List Nat) (cs : List ACell) (hnd : ws.Nodup) (i w : Nat)
    (c : ACell) (h1 : ws[i]? = some w) (h2 : cs[i]? = some c) :
    (writeAll (aOps jn shp) env (ws.map Atom.var) cs).1 w = jn (env w) c := by
  induction ws generalizing env cs i with
  | nil => simp at h1
  | cons y ws ih =>
    obtain ⟨hn1, hn2⟩ := List.nodup_cons.1 hnd
    rcases cs with _ | ⟨d, cs⟩
    · simp at h2
    · simp only [List.map_cons, writeAll]
      cases i with
      | zero =>
        simp at h1 h2
        subst h1 h2
        rw [writeAll_frame]
        · simp [Propagate.write, aOps]
        · intro h
          simp only [List.map_map, List.mem_map, Function.comp, Atom.node, Option.some.injEq, exists_eq_right] at h
          exact hn1 h
      | succ i =>
        have h1' : ws[i]? = some w := by simpa using h1
        rw [ih _ cs hn2 i h1' (by simpa using h2)]
        have hne : w ≠ y := by rintro rfl; exact hn1 (List.mem_of_getElem? h1')
        simp [Propagate.write, hne]

/-- Writing whole arrays. -/
theorem writeAll_full (hj : ∀ a b, Joins a b (jn a b)) (shp : Nat → List Nat) (env : Env ACell) (ws : List Nat)
    (cs : List ACell) (hnd : ws.Nodup) (hlen : cs.length = ws.length)
    (h : ∀ (i w : Nat) (c : ACell), ws[i]? = some w → cs[i]? = some c → ∃ v, c = ⟨shp w, [ND.new (shp w) v]⟩) :
    (∀ x, Atom.var x ∉ ws.map (Atom.var (L := FArr)) →
      (writeAll (aOps jn shp) env (ws.map Atom.var) cs).1 x = env x) ∧
    ∀ x, Atom.var x ∈ ws.map (Atom.var (L := FArr)) →
      ∃ v, (writeAll (aOps jn shp) env (ws.map Atom.var) cs).1 x = ⟨shp x, [ND.new (shp x) v]⟩ := by
  constructor
  · intro x hx
    apply writeAll_frame
    intro h'
    simp only [List.map_map, List.mem_map, Function.comp, Atom.node, Option.some.injEq, exists_eq_right] at h'
    exact hx (List.mem_map.2 ⟨x, h', rfl⟩)
  · intro x hx
    obtain ⟨y, hy, hyx⟩ := List.mem_map.1 hx
    obtain rfl := Atom.var.inj hyx
    obtain ⟨i, hi⟩ := List.mem_iff_getElem?.1 hy
    have hlt : i < cs.length := by rw [hlen]; exact (List.getElem?_eq_some_iff.1 hi).1
    obtain ⟨v, hv⟩ := h i y _ hi (List.getElem?_eq_getElem hlt)
    have h2 := writeAll_vars (jn := jn) shp env ws cs hnd i y _ hi (List.getElem?_eq_getElem hlt)
    have h3 := hj (env y) (cs[i])
    rw [← h2, hv] at h3
    exact ⟨v, join_full h3⟩

theorem topVal_new (s : List Nat) (v : List Nat → F) : topVal (newCell s v) = some (fun k => (v k, some 0)) := by
  simp [topVal, newCell, fullCell, ND.new]

theorem topVal_false {c : ACell} (h : topVal c = none) : c.top = false := by
  rw [← topVal_top, h]; rfl

theorem topVal_true {c : ACell} {v} (h : topVal c = some v) : c.top = true := by
  rw [← topVal_top, h]; rfl

/-! ### Equations with nothing more to do -/

/-- The equation has nothing more to do: all its arrays are complete, or, for a slice, the result is complete and the
operand is known where it is cut. -/
def DoneE (q : AOp × List (Atom FArr) × List (Atom FArr)) (env : Env ACell) : Prop :=
  match q.1 with
  | .slice st li => (∀ z, Atom.var z ∈ q.2.2 → (env z).top = true) ∧
      ∀ y, Atom.var y ∈ q.2.1 → ∀ j, inBox (sliceBox st li) j → Covers (env y).slices j
  | _ => ∀ x, Atom.var x ∈ q.2.1 ∨ Atom.var x ∈ q.2.2 → (env x).top = true

/-- The environment after executing an equation. -/
noncomputable def execA (jn : ACell → ACell → ACell) (P : AProg) (env : Env ACell)
    (q : AOp × List (Atom FArr) × List (Atom FArr)) : Env ACell :=
  (Propagate.exec (aOps jn P.shp) env (⟨q.2.1, q.2.2, q.1.rule jn⟩ : Eqn ACell FArr Bool)).1

/-- What executing an equation does. -/
def Eff (jn : ACell → ACell → ACell) (H : P.Diff ax val x₀) (e : Nat) (q : AOp × List (Atom FArr) × List (Atom FArr))
    (env : Env ACell) : Prop :=
  LEff H.lay e (GoodEnv P ax env) (GoodEnv P ax (execA jn P env q)) (DoneE q (execA jn P env q)) (Lk env)
    (Lk (execA jn P env q)) ∧ Basic P ax (execA jn P env q)

theorem eff_same (H : P.Diff ax val x₀) {e : Nat} {q} {env : Env ACell} (hb : Basic P ax env) (h : execA jn P env q = env) :
    Eff jn H e q env := by
  unfold Eff; rw [h]; exact ⟨.same rfl id, hb⟩

/-- All cells are true of the execution. -/
def TrueEnv (P : AProg) (v : Nat → List Nat → ℝ) (env : Env ACell) : Prop := ∀ x, TellsA (P.arr v (.var x)) (env x)

theorem true_read {v : Nat → List Nat → ℝ} {env : Env ACell} (h : TrueEnv P v env) (a : Atom FArr) :
    TellsA (P.arr v a) (Propagate.read (aOps jn P.shp) env a) := by
  cases a with
  | lit w => exact tellsA_new w _ (fun _ _ => rfl)
  | var x => exact h x
  | drop x => exact h x

theorem Lk_top {env : Env ACell} (hA : ∀ x, Axis (P.shp x) (ax x)) (hb : Basic P ax env) {z : Nat} {v : List Nat → F × F}
    (hv : topVal (env z) = some v) {k : List Nat} (hk : inBox (fullBox (P.shp z)) k) : Lk env (z, k) = some (v k).2 := by
  show (look (env z) k).map Prod.snd = _
  rw [look_top (hA z) (hb z) hv hk]; rfl

/-- An operand that is not complete is a variable. -/
theorem var_of_none {H : P.Diff ax val x₀} {e : Nat} {q} (he : P.eqns[e]? = some q) {a : Atom FArr} (ha : a ∈ q.2.1)
    {env : Env ACell} (h : topVal (Propagate.read (aOps jn P.shp) env a) = none) :
    ∃ x, a = .var x ∧ topVal (env x) = none := by
  rcases (H.ssa e q he).2 a ha with ⟨v, rfl⟩ | ⟨y, rfl, -⟩
  · simp [Propagate.read, aOps, topVal_new] at h
  · exact ⟨y, rfl, h⟩

/-- A variable operand that is complete. -/
theorem top_of_some {env : Env ACell} {a : Atom FArr} {v} (h : topVal (Propagate.read (aOps jn P.shp) env a) = some v) {x : Nat}
    (hx : a = .var x) : (env x).top = true := by
  subst hx; exact topVal_true h

theorem out_ne_in (H : P.Diff ax val x₀) {e : Nat} {q} (he : P.eqns[e]? = some q) {x z : Nat} (hx : Atom.var x ∈ q.2.1)
    (hz : Atom.var z ∈ q.2.2) : z ≠ x := by
  rintro rfl
  have h1 := posOfA_in H.ssa he hx
  have h2 := posOfA_out H.ssa he hz
  omega

theorem new_slab_iff {A : List Nat} {v : List Nat → F × F} {k : List Nat} : inBox (ND.new A v).slices k ↔ inBox (fullBox A) k :=
  Iff.rfl

theorem new_val {A : List Nat} {v : List Nat → F × F} {k : List Nat} (hk : inBox (fullBox A) k) :
    (ND.new A v).val (offset k (ND.new A v).slices) = v k := by
  show v (offset k (fullBox A)) = v k
  rw [offset_full hk]

/-- A complete array in order. -/
theorem full_top {env : Env ACell} (hA : ∀ x, Axis (P.shp x) (ax x)) (hg : GoodEnv P ax env) {x : Nat}
    (h : ∀ j, inBox (fullBox (P.shp x)) j → Covers (env x).slices j) : (env x).top = true := good_top (hA x) (hg x) h

theorem joinAll_other {ps : Nat → Option (ND (F × F))} {env : Env ACell} {x : Nat} (h : ps x = none) :
    joinAll jn P ps env x = env x := by unfold joinAll; rw [h]

/-- Inverting the whole result into one operand. -/
theorem eff_one (hj : ∀ a b, Joins a b (jn a b)) (H : P.Diff ax val x₀) {e : Nat} {q} (he : P.eqns[e]? = some q)
    {env : Env ACell} (hb : Basic P ax env) {x z : Nat} (hz : Atom.var z ∈ q.2.2) (hne : z ≠ x) (hxz : P.shp x = P.shp z)
    {w : List Nat → F × F} (hov : topVal (env z) = some w) {v : List Nat → F × F}
    (hexec : execA jn P env q = joinAll jn P (fun y => if y = x then some (ND.new (P.shp x) v) else none) env)
    (hinv : ∀ k, inBox (fullBox (P.shp z)) k → Lk env (x, k) = none → Inverts H.lay (Lk env) (z, k) (x, k) (v k).2)
    (hop1 : ∀ k, inBox (fullBox (P.shp z)) k → (x, k) ∈ opsAt P.shp q.1 q.2.1 k)
    (hop2 : ∀ k, inBox (fullBox (P.shp z)) k → ∀ y ∈ opsAt P.shp q.1 q.2.1 k, y ≠ (x, k) → Lk env y ≠ none)
    (hd : (execA jn P env q x).top = true → (∀ y, y ≠ x → execA jn P env q y = env y) → DoneE q (execA jn P env q)) :
    Eff jn H e q env := by
  unfold Eff
  rw [hexec] at hd ⊢
  have hps : ∀ y q, (fun y => if y = x then some (ND.new (P.shp x) v) else none) y = some q →
      y = x ∧ q = ND.new (P.shp x) v := by
    intro y q h
    simp only at h
    split at h
    · exact ⟨by assumption, (Option.some.inj h).symm⟩
    · cases h
  refine leff_back hj H he hb (z := z) hz hov _ ?_ (fun k => (x, k)) ?_ ?_ ?_ ?_ ?_
  · intro y q h
    obtain ⟨rfl, rfl⟩ := hps y q h
    exact new_slab (H.axis y) _
  · intro k hk
    have hkx : inBox (fullBox (P.shp x)) k := by rw [hxz]; exact hk
    refine ⟨_, if_pos rfl, hkx, fun hn => ?_⟩
    rw [new_val hkx]
    exact hinv k hk hn
  · intro y q j h1 h2
    obtain ⟨rfl, rfl⟩ := hps y q h1
    exact ⟨j, by rw [← hxz]; exact h2, rfl⟩
  · intro k k' _ _ h; exact (Prod.mk.inj h).2
  · intro k hk; exact ⟨hop1 k hk, hop2 k hk⟩
  · intro hg hc
    exact hd (full_top H.axis hg (fun j hj' => hc x _ j (if_pos rfl) hj'))
      (fun y hy => joinAll_other (by simp [hy]))

/-- Elementwise primitives. -/
theorem eff_un (hj : ∀ a b, Joins a b (jn a b)) (H : P.Diff ax val x₀) {e : Nat} {p : Un} {a : Atom FArr} {z : Nat}
    (he : P.eqns[e]? = some (AOp.un p, [a], [Atom.var z])) {env : Env ACell} (hb : Basic P ax env)
    (ht : TrueEnv P (val x₀) env) : Eff jn H e (AOp.un p, [a], [Atom.var z]) env := by
  have hq := List.mem_of_getElem? he
  have hi := H.ins he
  have hex : execA jn P env (AOp.un p, [a], [Atom.var z]) =
      (writeAll (aOps jn P.shp) (writeAll (aOps jn P.shp) env [a]
        (unA p [Propagate.read (aOps jn P.shp) env a] [env z]).1).1 [Atom.var z]
        (unA p [Propagate.read (aOps jn P.shp) env a] [env z]).2.1).1 := rfl
  have hzs : (env z).aval = P.shp z := (ht z).1
  have hsh : (P.arr (val x₀) a).shape = P.shp z := by
    obtain ⟨s, h1, h2⟩ := typed_un (H.typed.eqns _ hq)
    simp only [List.map_cons, List.map_nil, List.cons.injEq, and_true] at h1 h2
    rw [h1, ← h2]; rfl
  have hself : (writeAll (aOps jn P.shp) env [a] [Propagate.read (aOps jn P.shp) env a]).1 = env := writeAll_id hj _ env [a]
  rcases hiv : topVal (Propagate.read (aOps jn P.shp) env a) with _ | v <;> rcases hov : topVal (env z) with _ | w
  · refine eff_same H hb ?_
    rw [hex]; simp only [unA, hiv, hov]
    rw [hself]; exact writeAll_id hj _ env [.var z]
  · obtain ⟨x, rfl, hx⟩ := var_of_none (H := H) he (by simp) hiv
    have hxz : P.shp x = P.shp z := hsh
    have hne : z ≠ x := out_ne_in H he (by simp) (by simp)
    have hexec : execA jn P env (AOp.un p, [Atom.var x], [Atom.var z]) =
        joinAll jn P (fun y => if y = x then
          some (ND.new (P.shp x) (fun k => ((w k).1.bind p.g, p.ld (w k).2 (w k).1))) else none) env := by
      rw [hex]; simp only [unA, hiv, hov]
      rw [hzs, ← hxz]
      have h1 : fullCell (P.shp x) (P.shp x) (fun k => ((w k).1.bind p.g, p.ld (w k).2 (w k).1)) =
        ⟨P.shp x, [ND.new (P.shp x) (fun k => ((w k).1.bind p.g, p.ld (w k).2 (w k).1))]⟩ := rfl
      rw [h1, writeAll_one]
      refine writeAll_id1 hj _ _ z _ ?_
      rw [joinAll_other]; simp [hne]
    refine eff_one hj H he hb (by simp) hne hxz hov hexec ?_ ?_ ?_ ?_
    · intro k hk _
      obtain ⟨-, -, -, f', g2, g3⟩ := H.un hq hi hk
      have hwv : (w k).1 = some (val x₀ z k) := tellsA_top (ht z) hov k hk
      have hp := H.cut _ hq
      have hld : p.ld (w k).2 (w k).1 = addF (w k).2 (p.dlog (val x₀ z k)) := by
        rw [hwv]
        cases p <;> first | rfl | exact absurd rfl hp.1 | exact absurd rfl hp.2
      simp only [hld]
      rcases hl : (w k).2 with _ | l
      · left; rfl
      · rcases hdl : p.dlog (val x₀ z k) with _ | dl
        · left; rfl
        · obtain ⟨g4, g5⟩ := g3 dl hdl
          right
          refine ⟨l, f', by rw [Lk_top H.axis hb hov hk, hl], g4, ?_, ?_⟩
          · rw [g5]; simp [addF, sub_eq_add_neg]
          · rw [g2]; simp [DK]
    · intro k hk; exact ⟨by simp, rfl⟩
    · rintro k hk ⟨y1, y2⟩ ⟨h1, h2⟩ h3
      simp only [List.mem_singleton] at h1 h2
      obtain rfl := Atom.var.inj h1
      subst h2
      exact absurd rfl h3
    · intro hx' hoth y hy
      simp only [List.mem_singleton] at hy
      rcases hy with hy | hy <;> obtain rfl := Atom.var.inj hy
      · exact hx'
      · rw [hoth y hne]; exact topVal_true hov
  · have hexec : execA jn P env (AOp.un p, [a], [Atom.var z]) =
        (writeAll (aOps jn P.shp) env ([z].map Atom.var) [newCell (P.shp z) (fun k => (v k).1.bind p.f)]).1 := by
      rw [hex]; simp only [unA, hiv, hov]
      rw [hself, (true_read (jn := jn) ht a).1, hsh]; rfl
    obtain ⟨f1, f2⟩ := writeAll_full hj P.shp env [z] [newCell (P.shp z) (fun k => (v k).1.bind p.f)] (by simp) rfl (by
      intro i w c h1 h2
      rcases i with _ | i
      · simp at h1 h2; subst h1 h2; exact ⟨_, rfl⟩
      · simp at h1)
    rw [← hexec] at f1 f2
    refine leff_fwd H he hb f1 f2 ?_ ?_
    · intro w' k hw hk y hy
      simp only [List.mem_singleton] at hw
      obtain rfl := Atom.var.inj hw
      obtain ⟨h1, h2⟩ := hy
      simp only [List.mem_singleton] at h1
      obtain ⟨y1, y2⟩ := y
      simp only at h1 h2
      subst h2
      refine hb.top H.axis (top_of_some hiv h1.symm) ?_
      subst h1
      have : P.shp y1 = P.shp w' := hsh
      rw [this]; exact hk
    · intro y hy
      simp only [List.mem_singleton] at hy
      rcases hy with hy | hy
      · have hne : z ≠ y := out_ne_in H he (by simp [hy]) (by simp)
        rw [f1 y (by simp [Ne.symm hne])]
        exact top_of_some hiv hy.symm
      · obtain ⟨v', hv'⟩ := f2 y (by simp [hy])
        rw [hv']; simp [Cell.top, ND.new]
  · refine eff_same H hb ?_
    rw [hex]; simp only [unA, hiv, hov]
    rw [hself]; exact writeAll_id hj _ env [.var z]

theorem single_out (hj : ∀ a b, Joins a b (jn a b)) (env : Env ACell) (x z : Nat) (p : ND (F × F)) (hne : z ≠ x) :
    (writeAll (aOps jn P.shp) (joinAll jn P (fun y => if y = x then some p else none) env) [Atom.var z] [env z]).1 =
      joinAll jn P (fun y => if y = x then some p else none) env := by
  refine writeAll_id1 hj _ _ z _ ?_
  rw [joinAll_other]; simp [hne]

/-- The ILDJ of an operand of a binary primitive. -/
theorem inverts_bin (H : P.Diff ax val x₀) {L : Kn (Nat × List Nat)} {z x : Nat} {k : List Nat} {a : Atom FArr} {l d : F} {α β : ℝ}
    (hL : L (z, k) = some l) (hD : GD val x₀ (z, k) = α • DK (GD val x₀) k a + β • GD val x₀ (x, k))
    (hd : ∀ r, d = some r → β ≠ 0 ∧ r = - Real.log |β|)
    (ha : ∀ y, a.node = some y → (y, k) ∈ H.lay.ops (z, k) ∧ y ≠ x) :
    Inverts H.lay L (z, k) (x, k) (addF l d) := by
  rcases l with _ | l
  · left; rfl
  · rcases d with _ | d
    · left; rfl
    · obtain ⟨g4, g5⟩ := hd d rfl
      right
      refine ⟨l, β, hL, g4, ?_, ?_⟩
      · rw [g5]; simp [addF, sub_eq_add_neg]
      · rw [hD, add_sub_cancel_right]
        refine Submodule.smul_mem _ _ (DK_span _ _ _ _ fun y hy => ?_)
        obtain ⟨h1, h2⟩ := ha y hy
        exact ⟨h1, fun h => h2 (Prod.mk.inj h).1⟩

/-- Binary primitives. -/
theorem eff_bin (hj : ∀ a b, Joins a b (jn a b)) (H : P.Diff ax val x₀) {e : Nat} {p : Bin} {a b : Atom FArr} {z : Nat}
    (he : P.eqns[e]? = some (AOp.bin p, [a, b], [Atom.var z])) {env : Env ACell} (hb : Basic P ax env)
    (ht : TrueEnv P (val x₀) env) : Eff jn H e (AOp.bin p, [a, b], [Atom.var z]) env := by
  have hq := List.mem_of_getElem? he
  have hi := H.ins he
  have hex : execA jn P env (AOp.bin p, [a, b], [Atom.var z]) =
      (writeAll (aOps jn P.shp) (writeAll (aOps jn P.shp) env [a, b]
        (binA p [Propagate.read (aOps jn P.shp) env a, Propagate.read (aOps jn P.shp) env b] [env z]).1).1 [Atom.var z]
        (binA p [Propagate.read (aOps jn P.shp) env a, Propagate.read (aOps jn P.shp) env b] [env z]).2.1).1 := rfl
  have hzs : (env z).aval = P.shp z := (ht z).1
  have hsh : (P.arr (val x₀) a).shape = P.shp z ∧ (P.arr (val x₀) b).shape = P.shp z := by
    obtain ⟨s, h1, h2⟩ := typed_bin (H.typed.eqns _ hq)
    simp only [List.map_cons, List.map_nil, List.cons.injEq, and_true] at h1 h2
    rw [h1.1, h1.2, ← h2]; exact ⟨rfl, rfl⟩
  have hself2 : (writeAll (aOps jn P.shp) env [a, b]
      [Propagate.read (aOps jn P.shp) env a, Propagate.read (aOps jn P.shp) env b]).1 = env := writeAll_id hj _ env [a, b]
  have hself : ∀ c cs d ds, (writeAll (aOps jn P.shp) env (c :: cs) (Propagate.read (aOps jn P.shp) env c :: d :: ds)).1 =
      (writeAll (aOps jn P.shp) env cs (d :: ds)).1 := by
    intro c cs d ds
    have h1 := writeAll_id hj P.shp env [c]
    simp only [List.map_cons, List.map_nil, writeAll] at h1 ⊢
    rw [h1]
  have hopE : ∀ k, inBox (fullBox (P.shp z)) k → H.lay.ops (z, k) = {y | Atom.var y.1 ∈ [a, b] ∧ y.2 = k} := fun k hk =>
    opsOf_eq H.ssa he (u := (z, k)) (by simp) hk
  have hknown : ∀ c ∈ [a, b], ∀ v, topVal (Propagate.read (aOps jn P.shp) env c) = some v → ∀ y, c = .var y →
      ∀ k, inBox (fullBox (P.shp z)) k → Lk env (y, k) ≠ none := by
    intro c hc v hv y hy k hk
    refine hb.top H.axis (top_of_some hv hy) ?_
    subst hy
    have : P.shp y = P.shp z := by
      rcases List.mem_cons.1 hc with rfl | hc
      · exact hsh.1
      · rw [List.mem_singleton] at hc; rw [← hc] at hsh; exact hsh.2
    rw [this]; exact hk
  -- the right operand, from the left one and the result
  have right : ∀ v w, topVal (Propagate.read (aOps jn P.shp) env a) = some v → topVal (env z) = some w →
      execA jn P env (AOp.bin p, [a, b], [Atom.var z]) = (writeAll (aOps jn P.shp) (writeAll (aOps jn P.shp) env [a, b]
        [Propagate.read (aOps jn P.shp) env a, fullCell (Propagate.read (aOps jn P.shp) env b).aval (env z).aval
          (fun k => (bind2 p.gl (v k).1 (w k).1, addF (w k).2 (bind2 p.ll (v k).1 (w k).1)))]).1 [Atom.var z] [env z]).1 →
      Eff jn H e (AOp.bin p, [a, b], [Atom.var z]) env := by
    intro v w hlv hov hexec
    rw [hself] at hexec
    rcases hi b (by simp) with ⟨l, rfl⟩ | ⟨x, rfl, -⟩
    · refine eff_same H hb ?_
      rw [hexec]
      exact writeAll_id hj _ env [.var z]
    · have hxz : P.shp x = P.shp z := hsh.2
      have hne : z ≠ x := out_ne_in H he (by simp) (by simp)
      have hxs : (Propagate.read (aOps jn P.shp) env (Atom.var x : Atom FArr)).aval = P.shp x := (ht x).1
      rw [hxs, hzs, ← hxz] at hexec
      have h1 : ∀ f, fullCell (P.shp x) (P.shp x) f = ⟨P.shp x, [ND.new (P.shp x) f]⟩ := fun _ => rfl
      rw [h1, writeAll_one, single_out hj _ _ _ _ hne] at hexec
      refine eff_one hj H he hb (by simp) hne hxz hov hexec ?_ ?_ ?_ ?_
      · intro k hk hn
        obtain ⟨-, -, e1, e2, -, α, β, g2, g3, -⟩ := H.bin hq hi hk
        have hwv : (w k).1 = some (val x₀ z k) := tellsA_top (ht z) hov k hk
        have hvv : (v k).1 = some (ent (val x₀) k a) := by
          rw [← e1]
          exact tellsA_top (true_read (jn := jn) ht a) hlv k (by rw [hsh.1]; exact hk)
        refine inverts_bin H (Lk_top H.axis hb hov hk) g2 ?_ ?_
        · intro r hr
          rw [hvv, hwv] at hr
          exact g3 r hr
        · intro y hy
          rcases hi a (by simp) with ⟨l, rfl⟩ | ⟨y', rfl, -⟩
          · simp [Atom.node] at hy
          · simp only [Atom.node, Option.some.injEq] at hy
            subst hy
            refine ⟨by rw [hopE k hk]; exact ⟨by simp, rfl⟩, ?_⟩
            rintro rfl
            exact hknown _ (by simp) v hlv y' rfl k hk hn
      · intro k hk; exact ⟨by simp, rfl⟩
      · rintro k hk ⟨y1, y2⟩ ⟨h1, h2⟩ h3
        simp only at h1 h2
        subst h2
        simp only [List.mem_cons, List.not_mem_nil, or_false] at h1
        rcases h1 with h1 | h1
        · exact hknown _ (by simp) v hlv y1 h1.symm y2 hk
        · obtain rfl := Atom.var.inj h1
          exact absurd rfl h3
      · intro hx' hoth y hy
        simp only [List.mem_cons, List.not_mem_nil, or_false] at hy
        by_cases hyx : y = x
        · subst hyx; exact hx'
        · rw [hoth y hyx]
          rcases hy with (hy | hy) | hy
          · exact top_of_some hlv hy.symm
          · exact absurd (Atom.var.inj hy) hyx
          · rw [Atom.var.inj hy]; exact topVal_true hov
  rcases hlv : topVal (Propagate.read (aOps jn P.shp) env a) with _ | va <;>
    rcases hrv : topVal (Propagate.read (aOps jn P.shp) env b) with _ | vb <;> rcases hov : topVal (env z) with _ | w
  case some.none.some => exact right va w hlv hov (by rw [hex]; simp only [binA, hlv, hrv, hov])
  case some.some.some => exact right va w hlv hov (by rw [hex]; simp only [binA, hlv, hrv, hov])
  case none.some.some =>
    obtain ⟨x, rfl, hx⟩ := var_of_none (H := H) he (by simp) hlv
    have hxz : P.shp x = P.shp z := hsh.1
    have hne : z ≠ x := out_ne_in H he (by simp) (by simp)
    have hxs : (Propagate.read (aOps jn P.shp) env (Atom.var x : Atom FArr)).aval = P.shp x := (ht x).1
    have hbx : ∀ y, b = .var y → y ≠ x := by
      rintro y rfl rfl
      rw [hlv] at hrv; cases hrv
    have hexec : execA jn P env (AOp.bin p, [Atom.var x, b], [Atom.var z]) = joinAll jn P (fun y => if y = x then
        some (ND.new (P.shp x) (fun k => (bind2 p.gr (vb k).1 (w k).1, addF (w k).2 (bind2 p.lr (vb k).1 (w k).1))))
        else none) env := by
      rw [hex]; simp only [binA, hlv, hrv, hov]
      rw [hxs, hzs, ← hxz]
      have h1 : ∀ f, fullCell (P.shp x) (P.shp x) f = ⟨P.shp x, [ND.new (P.shp x) f]⟩ := fun _ => rfl
      rw [h1]
      have h2 : ∀ c, (writeAll (aOps jn P.shp) env [Atom.var x, b] [c, Propagate.read (aOps jn P.shp) env b]).1 =
          (writeAll (aOps jn P.shp) env [Atom.var x] [c]).1 := by
        intro c
        simp only [writeAll]
        rcases hi b (by simp) with ⟨l, rfl⟩ | ⟨y, rfl, -⟩
        · rfl
        · have hyx := hbx y rfl
          simp only [Propagate.write, Propagate.read, hyx, if_false]
          funext u
          by_cases hu : u = y
          · subst hu
            simp only [if_true, hyx, if_false]
            exact join_self (hj _ _)
          · simp only [hu, if_false]
      rw [h2, writeAll_one, single_out hj _ _ _ _ hne]
    refine eff_one hj H he hb (by simp) hne hxz hov hexec ?_ ?_ ?_ ?_
    · intro k hk hn
      obtain ⟨-, -, e1, e2, -, α, β, g2, -, g3⟩ := H.bin hq hi hk
      have hwv : (w k).1 = some (val x₀ z k) := tellsA_top (ht z) hov k hk
      have hvv : (vb k).1 = some (ent (val x₀) k b) := by
        rw [← e2]
        exact tellsA_top (true_read (jn := jn) ht b) hrv k (by rw [hsh.2]; exact hk)
      refine inverts_bin H (a := b) (Lk_top H.axis hb hov hk) (by rw [g2, add_comm]; rfl) ?_ ?_
      · intro r hr
        rw [hvv, hwv] at hr
        exact g3 r hr
      · intro y hy
        rcases hi b (by simp) with ⟨l, rfl⟩ | ⟨y', rfl, -⟩
        · simp [Atom.node] at hy
        · simp only [Atom.node, Option.some.injEq] at hy
          subst hy
          exact ⟨by rw [hopE k hk]; exact ⟨by simp, rfl⟩, hbx y' rfl⟩
    · intro k hk; exact ⟨by simp, rfl⟩
    · rintro k hk ⟨y1, y2⟩ ⟨h1, h2⟩ h3
      simp only at h1 h2
      subst h2
      simp only [List.mem_cons, List.not_mem_nil, or_false] at h1
      rcases h1 with h1 | h1
      · obtain rfl := Atom.var.inj h1
        exact absurd rfl h3
      · exact hknown _ (by simp) vb hrv y1 h1.symm y2 hk
    · intro hx' hoth y hy
      simp only [List.mem_cons, List.not_mem_nil, or_false] at hy
      by_cases hyx : y = x
      · subst hyx; exact hx'
      · rw [hoth y hyx]
        rcases hy with (hy | hy) | hy
        · exact absurd (Atom.var.inj hy) hyx
        · exact top_of_some hrv hy.symm
        · rw [Atom.var.inj hy]; exact topVal_true hov
  case some.some.none =>
    have hexec : execA jn P env (AOp.bin p, [a, b], [Atom.var z]) =
        (writeAll (aOps jn P.shp) env ([z].map Atom.var) [newCell (P.shp z) (fun k => bind2 p.f (va k).1 (vb k).1)]).1 := by
      rw [hex]; simp only [binA, hlv, hrv, hov]
      rw [hself2, (true_read (jn := jn) ht a).1, hsh.1]; rfl
    obtain ⟨f1, f2⟩ := writeAll_full hj P.shp env [z] [newCell (P.shp z) (fun k => bind2 p.f (va k).1 (vb k).1)] (by simp) rfl (by
      intro i w c h1 h2
      rcases i with _ | i
      · simp at h1 h2; subst h1 h2; exact ⟨_, rfl⟩
      · simp at h1)
    rw [← hexec] at f1 f2
    refine leff_fwd H he hb f1 f2 ?_ ?_
    · intro w' k hw hk y hy
      simp only [List.mem_singleton] at hw
      obtain rfl := Atom.var.inj hw
      obtain ⟨h1, h2⟩ := hy
      obtain ⟨y1, y2⟩ := y
      simp only at h1 h2
      subst h2
      simp only [List.mem_cons, List.not_mem_nil, or_false] at h1
      rcases h1 with h1 | h1
      · exact hknown _ (by simp) va hlv y1 h1.symm y2 hk
      · exact hknown _ (by simp) vb hrv y1 h1.symm y2 hk
    · intro y hy
      simp only [List.mem_cons, List.not_mem_nil, or_false] at hy
      rcases hy with hy | hy
      · have hne : z ≠ y := out_ne_in H he (by simp; tauto) (by simp)
        rw [f1 y (by simp [Ne.symm hne])]
        rcases hy with hy | hy
        · exact top_of_some hlv hy.symm
        · exact top_of_some hrv hy.symm
      · obtain ⟨v', hv'⟩ := f2 y (by simp [hy])
        rw [hv']; simp [Cell.top, ND.new]
  all_goals
    refine eff_same H hb ?_
    rw [hex]; simp only [binA, hlv, hrv, hov]
    rw [hself2]; exact writeAll_id hj _ env [.var z]

end Verif.Inverse
