import Verif.Inverse.PmapUniform

/-!
# C73: runs on cells of the same structure; the lanes of a `pmap` agree
-/
namespace Verif.Inverse.Mapped

open Verif.Propagate

/-- Environments that differ only in the entries of arrays. -/
def SimEnv (e e' : Env ACell) : Prop := ∀ x, Sim (e x) (e' x)

section
variable {jn : ACell → ACell → ACell} (hu : UniformJoin jn) {shp : Nat → List Nat}
include hu

theorem writeAll_sim (as : List (Atom FArr)) {cs cs' : List ACell} (hc : List.Forall₂ Sim cs cs') {e e' : Env ACell}
    (he : SimEnv e e') : SimEnv (writeAll (aOps jn shp) e as cs).1 (writeAll (aOps jn shp) e' as cs').1 ∧
      List.Forall₂ Sim (writeAll (aOps jn shp) e as cs).2 (writeAll (aOps jn shp) e' as cs').2 := by
  induction as generalizing cs cs' e e' with
  | nil => simp only [writeAll]; exact ⟨he, .nil⟩
  | cons a as ih =>
    cases hc with
    | nil => exact ⟨he, .nil⟩
    | @cons c c' cs cs' h1 h2 =>
      simp only [writeAll]
      have hw : SimEnv (write (aOps jn shp) e a c).1 (write (aOps jn shp) e' a c').1 ∧
          Sim (write (aOps jn shp) e a c).2 (write (aOps jn shp) e' a c').2 := by
        cases a with
        | lit v => exact ⟨he, h1⟩
        | drop x => exact ⟨he, he x⟩
        | var x =>
          refine ⟨fun y => ?_, hu _ _ _ _ (he x) h1⟩
          simp only [write]
          split
          · exact hu _ _ _ _ (he x) h1
          · exact he y
      obtain ⟨r1, r2⟩ := ih h2 hw.1
      exact ⟨r1, .cons hw.2 r2⟩

omit hu in
theorem read_sim (as : List (Atom FArr)) {e e' : Env ACell} (he : SimEnv e e') :
    List.Forall₂ Sim (as.map (Propagate.read (aOps jn shp) e)) (as.map (Propagate.read (aOps jn shp) e')) := by
  induction as with
  | nil => exact .nil
  | cons a as ih =>
    refine .cons ?_ ih
    cases a with
    | lit v => rfl
    | var x => exact he x
    | drop x => exact he x

theorem init_sim (J : Jaxpr ACell FArr Bool) {i i' o o' : List ACell} (hi : List.Forall₂ Sim i i') (ho : List.Forall₂ Sim o o') :
    SimEnv (initEnv (aOps jn shp) J [] i o) (initEnv (aOps jn shp) J [] i' o') := by
  unfold initEnv
  have h0 : SimEnv (aOps jn shp).unknown (aOps jn shp).unknown := fun x => rfl
  have h1 := (writeAll_sim hu (shp := shp) J.constvars (.nil : List.Forall₂ Sim [] []) h0).1
  have h2 := (writeAll_sim hu (shp := shp) J.invars hi h1).1
  have h3 := (writeAll_sim hu (shp := shp) J.outvars ho h2).1
  refine (writeAll_sim hu (shp := shp) _ ?_ h3).1
  induction J.eqns.flatMap (fun q => q.ins ++ q.outs) with
  | nil => exact .nil
  | cons a as ih =>
    refine .cons ?_ ih
    cases a with
    | lit v => rfl
    | var x => rfl
    | drop x => rfl

/-- The rules of a jaxpr keep abstract values and do not look at entries. -/
def Good (shp : Nat → List Nat) (J : Jaxpr ACell FArr Bool) : Prop :=
  J.constvars = [] ∧ ∀ q ∈ J.eqns, RuleAval shp q ∧ UniformRule (q.ins.map (shpOf shp)) (q.outs.map (shpOf shp)) q.rule

omit hu in
theorem progressed_sim (as : List (Atom FArr)) {c c' d d' : List ACell} (hc : List.Forall₂ Sim c c')
    (hd : List.Forall₂ Sim d d') : progressed (aOps jn shp) as c d = progressed (aOps jn shp) as c' d' := by
  induction as generalizing c c' d d' with
  | nil => rfl
  | cons a as ih =>
    cases hc with
    | nil => rfl
    | cons h1 h2 =>
      cases hd with
      | nil => rfl
      | cons h3 h4 =>
        have e := Sim.lt h1 h3
        have ih := ih h2 h4
        simp only [progressed, aOps, List.zip_cons_cons, List.filter_cons, e] at ih ⊢
        split
        · simp only [List.filterMap_cons, ih]
        · exact ih

theorem steps_sim (hj : ∀ a b, Joins a b (jn a b)) (J : Jaxpr ACell FArr Bool) (hJ : Good shp J) {s0 s0' s : St ACell Bool}
    (hq : s0.queue = s0'.queue) (he : SimEnv s0.env s0'.env) (ha : ∀ x, (s0.env x).aval = shp x)
    (h : Steps (aOps jn shp) J s0 s) :
    ∃ s', Steps (aOps jn shp) J s0' s' ∧ s.queue = s'.queue ∧ SimEnv s.env s'.env ∧ ∀ x, (s.env x).aval = shp x := by
  induction h with
  | refl => exact ⟨s0', .refl _, hq, he, ha⟩
  | tail t u _ hst ih =>
    obtain ⟨t', ht', hqt, het, hat⟩ := ih
    cases hst with
    | mk e rest q q' hqe heq hp =>
      have hgood := hJ.2 q (List.mem_of_getElem? heq)
      have hi := read_sim (jn := jn) (shp := shp) q.ins het
      have ho := read_sim (jn := jn) (shp := shp) q.outs het
      have hai := read_aval jn shp t.env hat q.ins
      have hao := read_aval jn shp t.env hat q.outs
      obtain ⟨u1, u2⟩ := hgood.2 _ _ _ _ hi ho hai hao
      obtain ⟨w1, w2⟩ := writeAll_sim hu (shp := shp) q.ins u1 het
      obtain ⟨w3, w4⟩ := writeAll_sim hu (shp := shp) q.outs u2 w1
      have hpr : progressed (aOps jn shp) (q.ins ++ q.outs)
          (q.ins.map (Propagate.read (aOps jn shp) t.env) ++ q.outs.map (Propagate.read (aOps jn shp) t.env))
          ((exec (aOps jn shp) t.env q).2.1 ++ (exec (aOps jn shp) t.env q).2.2.1) =
          progressed (aOps jn shp) (q.ins ++ q.outs)
          (q.ins.map (Propagate.read (aOps jn shp) t'.env) ++ q.outs.map (Propagate.read (aOps jn shp) t'.env))
          ((exec (aOps jn shp) t'.env q).2.1 ++ (exec (aOps jn shp) t'.env q).2.2.1) :=
        progressed_sim _ (List.rel_append hi ho) (List.rel_append w2 w4)
      rw [hpr] at hp
      refine ⟨_, .tail _ _ _ ht' (.mk t' e rest q q' (hqt ▸ hqe) heq hp), rfl, w3, ?_⟩
      obtain ⟨a1, a2⟩ := hgood.1 _ _ hai hao
      intro x
      refine writeAll_desc (aOps jn shp) (fun x c => c.aval = shp x)
        (fun x a b ha hb => (joins_aval (hj a b) (ha.trans hb.symm)).trans ha) _ _ _
        (writeAll_desc (aOps jn shp) (fun x c => c.aval = shp x)
          (fun x a b ha hb => (joins_aval (hj a b) (ha.trans hb.symm)).trans ha) _ _ _ hat ?_) ?_ x
      · exact aval_get shp _ _ a1
      · exact aval_get shp _ _ a2

/-- A complete run on some cells can be repeated on cells of the same structure, with results of the same structure. -/
theorem completes_sim (hj : ∀ a b, Joins a b (jn a b)) (J : Jaxpr ACell FArr Bool) (hJ : Good shp J) {i i' o o' : List ACell}
    (hi : List.Forall₂ Sim i i') (ho : List.Forall₂ Sim o o') (hai : i.map (·.aval) = J.invars.map (shpOf shp))
    (hao : o.map (·.aval) = J.outvars.map (shpOf shp)) (s : St ACell Bool) (h : CompletesA jn shp J i o s) :
    ∃ s', CompletesA jn shp J i' o' s' ∧ SimEnv s.env s'.env := by
  obtain ⟨s0, h0, hs, hq⟩ := h
  have ha0 : ∀ x, (s0.env x).aval = shp x := by
    intro x
    refine propagate_sound (aOps jn shp) J (fun x c => c.aval = shp x) (fun v c => c.aval = v.shape) ?_ [] _ _ ?_ ?_ ?_ s0 s0 h0
      (.refl _) x
    · refine ⟨fun x a b ha hb => (joins_aval (hj a b) (ha.trans hb.symm)).trans ha, fun x => rfl, fun v => rfl, ?_⟩
      intro q hqm i o hi ho
      have conv : ∀ (R : Atom FArr → ACell → Prop), (∀ a c, R a c → c.aval = shpOf shp a) →
          ∀ (as : List (Atom FArr)) (cs : List ACell), List.Forall₂ R as cs → cs.map (·.aval) = as.map (shpOf shp) := by
        intro R hR as cs hh
        induction hh with
        | nil => rfl
        | @cons a c as cs h1 h2 ih => simp only [List.map_cons, hR _ _ h1, ih]
      obtain ⟨r1, r2⟩ := (hJ.2 q hqm).1 i o (conv _ (by intro a c hac; cases a <;> exact hac) _ _ hi)
        (conv _ (by intro a c hac; cases a <;> exact hac) _ _ ho)
      exact ⟨aval_get shp _ _ r1, aval_get shp _ _ r2⟩
    · intro k x c h1; rw [hJ.1] at h1; simp at h1
    · exact aval_get shp _ _ hai
    · exact aval_get shp _ _ hao
  obtain ⟨e0, q0, st0⟩ := h0
  have he : SimEnv s0.env (initEnv (aOps jn shp) J [] i' o') := by rw [e0]; exact init_sim hu J hi ho
  obtain ⟨s', h1, h2, h3, -⟩ := steps_sim hu hj J hJ (s0 := s0) (s0' := ⟨initEnv (aOps jn shp) J [] i' o', s0.queue,
    fun _ => none⟩) rfl he ha0 hs
  exact ⟨s', ⟨⟨initEnv (aOps jn shp) J [] i' o', s0.queue, fun _ => none⟩, ⟨rfl, q0, fun _ => rfl⟩, h1, h2 ▸ hq⟩, h3⟩

end

/-! ### Stacking lanes -/

/-- Cells of the same structure, one for each lane, are the lanes of one cell. -/
theorem stack_exists (n : Nat) (c : Nat → ACell) (h : ∀ l, Sim (c 0) (c l)) :
    ∃ r : ACell, Fits n r ∧ ∀ l, cut l r = c l := by
  let v : Nat → List Nat → F × F := fun j k => match k with
    | [] => (none, none)
    | l :: k => match (c l).slices[j]? with
      | some m => m.val k
      | none => (none, none)
  refine ⟨⟨(c 0).aval, (c 0).slices.mapIdx (fun j m => ⟨m.slices, n :: m.shape, v j⟩)⟩, ?_, ?_⟩
  · intro m hm
    obtain ⟨j, hj, rfl⟩ := List.mem_mapIdx.1 hm
    rfl
  · intro l
    have hl := h l
    have h1 := hl.aval
    have h2 : (c 0).slices.map (ND.map (fun _ => ())) = (c l).slices.map (ND.map (fun _ => ())) :=
      congrArg (fun x : Cell Unit => x.slices) (show erase (c 0) = erase (c l) from hl)
    have h3 : ((c 0).slices.mapIdx (fun j m => (⟨m.slices, n :: m.shape, v j⟩ : ND (F × F)))).map
        (fun m => (⟨m.slices, m.shape.tail, fun k => m.val (l :: k)⟩ : ND (F × F))) = (c l).slices := by
      refine List.ext_getElem? fun j => ?_
      have h4 := congrArg (fun x => x[j]?) h2
      simp only [List.getElem?_map] at h4
      simp only [List.getElem?_map, List.getElem?_mapIdx]
      rcases e0 : (c 0).slices[j]? with _ | m <;> rcases e1 : (c l).slices[j]? with _ | m' <;> rw [e0, e1] at h4 <;>
        simp at h4
      · rfl
      · simp only [ND.map, ND.mk.injEq, and_true] at h4
        simp only [Option.map_some, Option.some.injEq, List.tail_cons, v, e1, h4.1, h4.2]
    show (⟨(c 0).aval, _⟩ : ACell) = c l
    simp only [h3, h1]

theorem stack_list (n m : Nat) (c : Nat → Nat → ACell) (h : ∀ j l, Sim (c 0 j) (c l j)) :
    ∃ rs : List ACell, rs.length = m ∧ (∀ r ∈ rs, Fits n r) ∧ ∀ l, rs.map (cut l) = (List.range m).map (c l) := by
  induction m with
  | zero => exact ⟨[], rfl, by simp, by simp⟩
  | succ m ih =>
    obtain ⟨rs, hl, h1, h2⟩ := ih
    obtain ⟨r, h3, h4⟩ := stack_exists n (fun l => c l m) (fun l => h m l)
    refine ⟨rs ++ [r], by simp [hl], ?_, ?_⟩
    · intro x hx
      rcases List.mem_append.1 hx with hx | hx
      · exact h1 x hx
      · rw [List.mem_singleton.1 hx]; exact h3
    · intro l
      rw [List.map_append, h2, List.range_succ, List.map_append]
      simp [h4]

end Verif.Inverse.Mapped
