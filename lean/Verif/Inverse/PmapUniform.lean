import Verif.Inverse.PmapLanes
import Verif.Inverse.ArrExample

/-!
# C73: propagation does not look at the entries of arrays

The lanes of a `pmap` therefore have results of the same structure.
-/
namespace Verif.Inverse.Mapped

open Verif.Propagate

/-- A cell without the entries of its arrays. -/
def erase (c : ACell) : Cell Unit := c.map (fun _ => ())

/-- Two cells that differ only in the entries of their arrays. -/
def Sim (c d : ACell) : Prop := erase c = erase d

theorem Sim.refl (c : ACell) : Sim c c := rfl
theorem Sim.symm {c d : ACell} (h : Sim c d) : Sim d c := Eq.symm h
theorem Sim.trans {c d e : ACell} (h : Sim c d) (h' : Sim d e) : Sim c e := Eq.trans h h'

theorem Sim.aval {c d : ACell} (h : Sim c d) : c.aval = d.aval := congrArg (fun x : Cell Unit => x.aval) (show erase c = erase d from h)
theorem Sim.top {c d : ACell} (h : Sim c d) : c.top = d.top := by
  rw [← top_map (fun _ => ()) c, ← top_map (fun _ => ()) d]; exact congrArg Cell.top (show erase c = erase d from h)
theorem Sim.bottom {c d : ACell} (h : Sim c d) : c.bottom = d.bottom := by
  rw [← bottom_map (fun _ => ()) c, ← bottom_map (fun _ => ()) d]; exact congrArg Cell.bottom (show erase c = erase d from h)
theorem Sim.lt {c d c' d' : ACell} (h : Sim c c') (h' : Sim d d') : c.lt d = c'.lt d' := by
  rw [← lt_map (fun _ => ()) c d, ← lt_map (fun _ => ()) c' d']
  show (erase c).lt (erase d) = (erase c').lt (erase d')
  rw [h, h']

theorem Sim.isSome {c d : ACell} (h : Sim c d) : (topVal c).isSome = (topVal d).isSome := by
  rw [topVal_top, topVal_top, h.top]

theorem sim_full {s s' t t' : List Nat} (h : s = s') (h' : t = t') (v w : List Nat → F × F) :
    Sim (fullCell s t v) (fullCell s' t' w) := by
  subst h h'; rfl

theorem sim_new {s s' : List Nat} (h : s = s') (v w : List Nat → F) : Sim (newCell s v) (newCell s' w) := by
  subst h; rfl

/-- `join` does not look at entries. -/
def UniformJoin (jn : ACell → ACell → ACell) : Prop :=
  ∀ a a' b b', Sim a a' → Sim b b' → Sim (jn a b) (jn a' b')

/-- A rule does not look at entries. -/
def UniformRule (si so : List (List Nat)) (r : ARule) : Prop :=
  ∀ i i' o o', List.Forall₂ Sim i i' → List.Forall₂ Sim o o' → i.map (·.aval) = si → o.map (·.aval) = so →
    List.Forall₂ Sim (r i o).1 (r i' o').1 ∧ List.Forall₂ Sim (r i o).2.1 (r i' o').2.1

section
variable {V W : Type} (f : V → W)

theorem insertND_map (n : ND V) (l : List (ND V)) : (insertND n l).map (ND.map f) = insertND (n.map f) (l.map (ND.map f)) := by
  induction l with
  | nil => rfl
  | cons m l ih =>
    have e : lexLe (starts (n.map f).slices) (starts (m.map f).slices) = lexLe (starts n.slices) (starts m.slices) := rfl
    simp only [insertND, List.map_cons, e]
    split
    · rfl
    · simp [ih]

theorem sortND_map (l : List (ND V)) : (sortND l).map (ND.map f) = sortND (l.map (ND.map f)) := by
  induction l with
  | nil => rfl
  | cons n l ih => simp only [sortND, List.map_cons, insertND_map, ih]

theorem joinS_map (a b : Cell V) : (joinS a b).map f = joinS (a.map f) (b.map f) := by
  unfold joinS
  rw [top_map, bottom_map, eq_map, lt_map, lt_map]
  split
  · rfl
  split
  · rfl
  split
  · rfl
  split
  · rfl
  split
  · rfl
  have e : sortND (unionSlices (a.map f).slices (b.map f).slices) = (sortND (unionSlices a.slices b.slices)).map (ND.map f) := by
    rw [sortND_map, union_map]; rfl
  rw [e]
  rcases sortND (unionSlices a.slices b.slices) with _ | ⟨n, rest⟩
  · rfl
  · simp only [mergeSorted, List.map_cons, Cell.map, mergeGo_map, List.map_nil]

end

/-- The join of `Verif.Inverse.ArrExample` does not look at entries. -/
theorem joinS_uniform : UniformJoin joinS := by
  intro a a' b b' h h'
  unfold Sim erase at *
  rw [joinS_map, joinS_map, h, h']

theorem mapM_isSome {l l' : List ACell} (h : List.Forall₂ Sim l l') : (l.mapM topVal).isSome = (l'.mapM topVal).isSome := by
  induction h with
  | nil => rfl
  | @cons a b l l' h1 _ ih =>
    have h2 := h1.isSome
    simp only [List.mapM_cons]
    generalize topVal a = ta at h2 ⊢
    generalize topVal b = tb at h2 ⊢
    rcases ta with _ | v <;> rcases tb with _ | w <;> simp at h2
    · rfl
    · rcases hl : List.mapM topVal l with _ | vs <;> rcases hl' : List.mapM topVal l' with _ | ws <;> rw [hl, hl'] at ih <;>
        first | rfl | cases ih

theorem sim_zipWith {α : Type} (g : ACell → α → ACell) (hg : ∀ c c' v v', Sim c c' → Sim (g c v) (g c' v')) {l l' : List ACell}
    (h : List.Forall₂ Sim l l') (vs vs' : List α) (h1 : vs.length = l.length) (h2 : vs'.length = l'.length) :
    List.Forall₂ Sim (List.zipWith g l vs) (List.zipWith g l' vs') := by
  induction h generalizing vs vs' with
  | nil => exact .nil
  | cons h _ ih =>
    cases vs with
    | nil => simp at h1
    | cons v vs =>
      cases vs' with
      | nil => simp at h2
      | cons v' vs' => exact .cons (hg _ _ _ _ h) (ih vs vs' (by simpa using h1) (by simpa using h2))

theorem sim_join {jn : ACell → ACell → ACell} (hu : UniformJoin jn) {l l' r r' : List ACell} (h : List.Forall₂ Sim l l')
    (h' : List.Forall₂ Sim r r') : List.Forall₂ Sim (List.zipWith jn l r) (List.zipWith jn l' r') := by
  induction h generalizing r r' with
  | nil => exact .nil
  | cons h _ ih =>
    cases h' with
    | nil => exact .nil
    | cons h' h'' => exact .cons (hu _ _ _ _ h h') (ih h'')

theorem sim_split (d : Nat) {s s' : List Nat} (hs : s = s') (v v' : List Nat → F × F) (off : Nat) {cs cs' : List ACell}
    (h : List.Forall₂ Sim cs cs') : List.Forall₂ Sim (splitA d s v off cs) (splitA d s' v' off cs') := by
  subst hs
  induction h generalizing off with
  | nil => exact .nil
  | @cons c c' cs cs' h1 h2 ih =>
    cases h2 with
    | nil => simp only [splitA]; exact .cons (sim_full h1.aval rfl _ _) .nil
    | cons h3 h4 =>
      simp only [splitA]
      refine .cons (sim_full h1.aval (by rw [h1.aval]) _ _) ?_
      rw [h1.aval]
      exact ih _

theorem sim_avals {l l' : List ACell} (h : List.Forall₂ Sim l l') : l.map (·.aval) = l'.map (·.aval) := by
  induction h with
  | nil => rfl
  | cons h _ ih => simp only [List.map_cons, h.aval, ih]

theorem sim_all {l l' : List ACell} (h : List.Forall₂ Sim l l') (p : ACell → Bool) (hp : ∀ c d, Sim c d → p c = p d) :
    l.all p = l'.all p := by
  induction h with
  | nil => rfl
  | cons h _ ih => simp only [List.all_cons, hp _ _ h, ih]

theorem sim_any {l l' : List ACell} (h : List.Forall₂ Sim l l') (p : ACell → Bool) (hp : ∀ c d, Sim c d → p c = p d) :
    l.any p = l'.any p := by
  induction h with
  | nil => rfl
  | cons h _ ih => simp only [List.any_cons, hp _ _ h, ih]

/-- The rules of primitives do not look at entries. -/
theorem rule_uniform {jn : ACell → ACell → ACell} (hu : UniformJoin jn) (op : AOp) (si so : List (List Nat))
    (ht : op.Typed si so) (hh : ∀ h, op = .other h → ∀ xs : List FArr, xs.map (·.shape) = si → (h xs).map (·.shape) = so) :
    UniformRule si so (op.rule jn) := by
  intro i i' o o' hi ho hai hao
  cases op with
  | un p =>
    obtain _ | ⟨s, _ | ⟨_, _⟩⟩ := si <;> try exact absurd ht id
    obtain ⟨-, rfl⟩ := ht
    cases hi with
    | nil => simp at hai
    | @cons a a' _ _ hi h2 =>
    cases h2 with
    | cons => simp at hai
    | nil =>
    cases ho with
    | nil => simp at hao
    | @cons b b' _ _ ho h2 =>
    cases h2 with
    | cons => simp at hao
    | nil =>
    have e1 := hi.isSome
    have e2 := ho.isSome
    simp only [AOp.rule, unA]
    generalize topVal a = ta at e1 ⊢
    generalize topVal a' = ta' at e1 ⊢
    generalize topVal b = tb at e2 ⊢
    generalize topVal b' = tb' at e2 ⊢
    rcases ta with _ | v <;> rcases ta' with _ | v' <;> simp at e1 <;>
      rcases tb with _ | w <;> rcases tb' with _ | w' <;> simp at e2
    · exact ⟨.cons hi .nil, .cons ho .nil⟩
    · exact ⟨.cons (sim_full ho.aval ho.aval _ _) .nil, .cons ho .nil⟩
    · exact ⟨.cons hi .nil, .cons (sim_new hi.aval _ _) .nil⟩
    · exact ⟨.cons hi .nil, .cons ho .nil⟩
  | bin p =>
    obtain _ | ⟨s, _ | ⟨t, _ | ⟨_, _⟩⟩⟩ := si <;> try exact absurd ht id
    obtain ⟨rfl, rfl⟩ := ht
    cases hi with
    | nil => simp at hai
    | @cons a a' _ _ hi h2 =>
    cases h2 with
    | nil => simp at hai
    | @cons c c' _ _ hi' h2 =>
    cases h2 with
    | cons => simp at hai
    | nil =>
    cases ho with
    | nil => simp at hao
    | @cons b b' _ _ ho h2 =>
    cases h2 with
    | cons => simp at hao
    | nil =>
    have e1 := hi.isSome
    have e2 := ho.isSome
    have e3 := hi'.isSome
    simp only [AOp.rule, binA]
    generalize topVal a = ta at e1 ⊢
    generalize topVal a' = ta' at e1 ⊢
    generalize topVal b = tb at e2 ⊢
    generalize topVal b' = tb' at e2 ⊢
    generalize topVal c = tc at e3 ⊢
    generalize topVal c' = tc' at e3 ⊢
    rcases ta with _ | v <;> rcases ta' with _ | v' <;> simp at e1 <;>
      rcases tc with _ | u <;> rcases tc' with _ | u' <;> simp at e3 <;>
      rcases tb with _ | w <;> rcases tb' with _ | w' <;> simp at e2
    all_goals first
      | exact ⟨.cons hi (.cons hi' .nil), .cons ho .nil⟩
      | exact ⟨.cons (sim_full hi.aval ho.aval _ _) (.cons hi' .nil), .cons ho .nil⟩
      | exact ⟨.cons hi (.cons (sim_full hi'.aval ho.aval _ _) .nil), .cons ho .nil⟩
      | exact ⟨.cons hi (.cons hi' .nil), .cons (sim_new hi.aval _ _) .nil⟩
  | slice st li =>
    obtain _ | ⟨s, _ | ⟨_, _⟩⟩ := si <;> try exact absurd ht id
    obtain ⟨-, -, rfl⟩ := ht
    cases hi with
    | nil => simp at hai
    | @cons a a' _ _ hi h2 =>
    cases h2 with
    | cons => simp at hai
    | nil =>
    cases ho with
    | nil => simp at hao
    | @cons b b' _ _ ho h2 =>
    cases h2 with
    | cons => simp at hao
    | nil =>
    have e1 := hi.isSome
    have e2 := ho.isSome
    simp only [AOp.rule, sliceA]
    generalize topVal a = ta at e1 ⊢
    generalize topVal a' = ta' at e1 ⊢
    generalize topVal b = tb at e2 ⊢
    generalize topVal b' = tb' at e2 ⊢
    rcases ta with _ | v <;> rcases ta' with _ | v' <;> simp at e1 <;>
      rcases tb with _ | w <;> rcases tb' with _ | w' <;> simp at e2
    · exact ⟨.cons hi .nil, .cons ho .nil⟩
    · refine ⟨.cons ?_ .nil, .cons ho .nil⟩
      simp only [Sim, erase, Cell.map, ND.map, List.map_cons, List.map_nil, hi.aval, ho.aval]
    · exact ⟨.cons hi .nil, .cons (sim_new rfl _ _) .nil⟩
    · exact ⟨.cons hi .nil, .cons ho .nil⟩
  | cat d =>
    obtain _ | ⟨s, ss⟩ := si
    · exact absurd ht id
    obtain ⟨-, -, rfl⟩ := ht
    cases ho with
    | nil => simp at hao
    | @cons b b' _ _ ho h2 =>
    cases h2 with
    | cons => simp at hao
    | nil =>
    have e1 := mapM_isSome hi
    have e2 := ho.isSome
    simp only [AOp.rule, catA]
    generalize topVal b = tb at e2 ⊢
    generalize topVal b' = tb' at e2 ⊢
    rcases hm : List.mapM topVal i with _ | v <;> rcases hm' : List.mapM topVal i' with _ | v' <;> rw [hm, hm'] at e1 <;>
      simp at e1
    · rcases tb with _ | w <;> rcases tb' with _ | w' <;> simp at e2
      · exact ⟨hi, .cons ho .nil⟩
      · exact ⟨sim_split d ho.aval _ _ 0 hi, .cons ho .nil⟩
    · refine ⟨hi, .cons (sim_new ?_ _ _) .nil⟩
      rw [sim_avals hi]
  | reshape t =>
    obtain _ | ⟨s, _ | ⟨_, _⟩⟩ := si <;> try exact absurd ht id
    obtain ⟨-, rfl⟩ := ht
    cases hi with
    | nil => simp at hai
    | @cons a a' _ _ hi h2 =>
    cases h2 with
    | cons => simp at hai
    | nil =>
    cases ho with
    | nil => simp at hao
    | @cons b b' _ _ ho h2 =>
    cases h2 with
    | cons => simp at hao
    | nil =>
    have e1 := hi.isSome
    have e2 := ho.isSome
    simp only [AOp.rule, reshapeA]
    generalize topVal a = ta at e1 ⊢
    generalize topVal a' = ta' at e1 ⊢
    generalize topVal b = tb at e2 ⊢
    generalize topVal b' = tb' at e2 ⊢
    rcases ta with _ | v <;> rcases ta' with _ | v' <;> simp at e1 <;>
      rcases tb with _ | w <;> rcases tb' with _ | w' <;> simp at e2
    · exact ⟨.cons hi .nil, .cons ho .nil⟩
    · exact ⟨.cons (sim_new hi.aval _ _) .nil, .cons ho .nil⟩
    · exact ⟨.cons hi .nil, .cons (sim_new rfl _ _) .nil⟩
    · exact ⟨.cons hi .nil, .cons ho .nil⟩
  | tie => exact ⟨sim_join hu hi ho, sim_join hu hi ho⟩
  | sow =>
    have ht : List.Forall₂ Sim (tieA jn i o).1 (tieA jn i' o').1 ∧ List.Forall₂ Sim (tieA jn i o).2.1 (tieA jn i' o').2.1 :=
      ⟨sim_join hu hi ho, sim_join hu hi ho⟩
    have e1 := mapM_isSome hi
    have e2 : o.all (fun o => (topVal o).isNone) = o'.all (fun o => (topVal o).isNone) :=
      sim_all ho _ fun c d h => by
        have := h.isSome
        generalize topVal c = tc at this ⊢
        generalize topVal d = td at this ⊢
        rcases tc <;> rcases td <;> simp_all
    simp only [AOp.rule, sowA]
    rcases hm : List.mapM topVal i with _ | v <;> rcases hm' : List.mapM topVal i' with _ | v' <;> rw [hm, hm'] at e1 <;>
      simp at e1
    · exact ht
    · simp only [e2]
      split
      · exact ⟨hi, sim_zipWith (fun (c : ACell) (v : List Nat → F × F) => newCell c.aval (fun k => (v k).1))
          (fun c c' v v' h => sim_new h.aval _ _) hi v v' (mapM_length hm) (mapM_length hm')⟩
      · exact ht
  | other h =>
    have e1 := mapM_isSome hi
    have e2 : o.all (·.bottom) = o'.all (·.bottom) := sim_all ho _ fun c d h => h.bottom
    have e3 : o.any (·.bottom) = o'.any (·.bottom) := sim_any ho _ fun c d h => h.bottom
    simp only [AOp.rule, defA, e2, e3]
    split
    · rcases hm : List.mapM topVal i with _ | v <;> rcases hm' : List.mapM topVal i' with _ | v' <;> rw [hm, hm'] at e1 <;>
        simp at e1
      · exact ⟨hi, ho⟩
      · refine ⟨hi, ?_⟩
        have hshape : ∀ (l : List ACell) (vs : List (List Nat → F × F)), vs.length = l.length →
            (List.zipWith (fun (c : ACell) v => (⟨c.aval, fun k => (v k).1⟩ : FArr)) l vs).map (·.shape) = l.map (·.aval) := by
          intro l
          induction l with
          | nil => intro vs _; rfl
          | cons c l ih =>
            intro vs hl
            cases vs with
            | nil => simp at hl
            | cons v vs => simp [ih vs (by simpa using hl)]
        have h1 := hh h rfl _ ((hshape i v (mapM_length hm)).trans hai)
        have h2 := hh h rfl _ ((hshape i' v' (mapM_length hm')).trans ((sim_avals hi).symm.trans hai))
        rw [← h2] at h1
        simp only
        generalize h (List.zipWith (fun (c : ACell) v => (⟨c.aval, fun k => (v k).1⟩ : FArr)) i v) = A at h1
        generalize h (List.zipWith (fun (c : ACell) v => (⟨c.aval, fun k => (v k).1⟩ : FArr)) i' v') = A' at h1
        clear * - h1
        induction A generalizing A' with
        | nil => cases A' with
          | nil => exact .nil
          | cons => simp at h1
        | cons a A ih => cases A' with
          | nil => simp at h1
          | cons a' A' =>
            simp only [List.map_cons, List.cons.injEq] at h1
            exact .cons (sim_new h1.1 _ _) (ih A' h1.2)
    · split <;> exact ⟨hi, ho⟩

end Verif.Inverse.Mapped
