import Verif.Harvest.LiftProps

/-! C66, C67: when harvesting commutes with `vmap`, and cases in which it does not. -/
namespace Verif.Harvest.Lift

variable {V : Type}

/-- Every leaf has its batch axis in front. -/
def FrontLeaves (lv : List (List String × (V × Option Nat))) : Prop := ∀ l ∈ lv, l.2.2 = some 0
def FrontReaps (r : Reaps (V × Option Nat)) : Prop := ∀ e ∈ r, FrontLeaves e.2.2
def Front (env : List (V × Option Nat)) : Prop := ∀ w ∈ env, w.2 = some 0

/-- Every primitive has operands, and its batching rule leaves the batch axis in front if it finds it there (as the rules
of elementwise primitives, reductions and the like do). -/
def FrontProg : Prog V → Prop
  | .done _ => True
  | .op p ins rest => ins ≠ [] ∧ (∀ ws, ws ≠ [] → Front ws → (p.batch ws).2 = some 0) ∧ FrontProg rest
  | .sow _ _ _ _ rest => FrontProg rest
  | .nest _ _ body rest => FrontProg body ∧ FrontProg rest

theorem get_mem {W : Type} {env : List W} {x : Nat} {w : W} (h : get env x = .ok w) : w ∈ env := by
  unfold get at h
  cases hx : env[x]? with
  | none => rw [hx] at h; simp at h
  | some v => rw [hx] at h; simp at h; subst h; exact List.mem_of_getElem? hx

theorem gets_mem {W : Type} {env : List W} {xs : List Nat} {ws : List W} (h : gets env xs = .ok ws) : ∀ w ∈ ws, w ∈ env := by
  induction xs generalizing ws with
  | nil => simp [gets] at h; subst h; simp
  | cons x xs ih =>
    simp only [gets] at h
    cases h1 : get env x with
    | error e => rw [h1] at h; simp [bind, Except.bind] at h
    | ok w =>
      rw [h1] at h
      cases h2 : gets env xs with
      | error e => rw [h2] at h; simp [bind, Except.bind] at h
      | ok ws' =>
        rw [h2] at h
        simp [bind, Except.bind, pure, Except.pure] at h
        subst h
        intro v hv
        rcases List.mem_cons.1 hv with rfl | hv
        · exact get_mem h1
        · exact ih h2 v hv

theorem gets_length {W : Type} {env : List W} {xs : List Nat} {ws : List W} (h : gets env xs = .ok ws) : ws.length = xs.length := by
  induction xs generalizing ws with
  | nil => simp [gets] at h; subst h; simp
  | cons x xs ih =>
    simp only [gets] at h
    cases h1 : get env x with
    | error e => rw [h1] at h; simp [bind, Except.bind] at h
    | ok w =>
      rw [h1] at h
      cases h2 : gets env xs with
      | error e => rw [h2] at h; simp [bind, Except.bind] at h
      | ok ws' =>
        rw [h2] at h
        simp [bind, Except.bind, pure, Except.pure] at h
        subst h
        simp [ih h2]

theorem handle_front {r : Reaps (V × Option Nat)} {n : String} {mode : Mode} {lv r'} (hr : FrontReaps r) (hl : FrontLeaves lv)
    (h : handle r n mode lv = .ok r') : FrontReaps r' := by
  unfold handle at h
  cases hf : r.find? (fun e => e.1 == n) with
  | none =>
    rw [hf] at h; simp at h; subst h
    intro e he
    rcases List.mem_cons.1 he with rfl | he
    · exact hl
    · exact hr e he
  | some e =>
    rw [hf] at h
    simp only at h
    split at h
    · simp at h; subst h
      intro e he
      rcases List.mem_cons.1 he with rfl | he
      · exact hl
      · exact hr e ((List.mem_filter.1 he).1)
    · simp at h

theorem leavesOf_front {r : Reaps (V × Option Nat)} (hr : FrontReaps r) : FrontLeaves (leavesOf r) := by
  intro l hl
  obtain ⟨e, he, hl⟩ := List.mem_flatMap.1 hl
  obtain ⟨l', hl', rfl⟩ := List.mem_map.1 hl
  exact hr e he l' hl'

theorem reap_front (S : Settings) (P : Prog V) (hP : FrontProg P) (env : List (V × Option Nat)) (he : Front env)
    (r : Reaps (V × Option Nat)) (hr : FrontReaps r) (q) (h : reapBy (vmapped V) id S P env r = .ok q) :
    Front q.1 ∧ FrontReaps q.2 := by
  induction P generalizing env r q with
  | done outs =>
    simp only [reapBy] at h
    cases ho : gets env outs with
    | error e => rw [ho] at h; simp [bind, Except.bind] at h
    | ok o =>
      rw [ho] at h; simp [bind, Except.bind, pure, Except.pure] at h; subst h
      exact ⟨fun w hw => he w (gets_mem ho w hw), hr⟩
  | op p ins rest ih =>
    simp only [reapBy] at h
    cases ho : gets env ins with
    | error e => rw [ho] at h; simp [bind, Except.bind] at h
    | ok ws =>
      rw [ho] at h
      refine ih hP.2.2 _ ?_ r hr q h
      intro w hw
      rcases List.mem_append.1 hw with hw | hw
      · exact he w hw
      · rw [List.mem_singleton] at hw
        subst hw
        refine hP.2.1 ws ?_ (fun w hw => he w (gets_mem ho w hw))
        intro h0
        have := gets_length ho
        rw [h0] at this
        exact hP.1 (List.length_eq_zero_iff.1 this.symm)
  | sow tag name mode x rest ih =>
    simp only [reapBy] at h
    cases ho : get env x with
    | error e => rw [ho] at h; simp [bind, Except.bind] at h
    | ok w =>
      rw [ho] at h
      simp only [bind, Except.bind] at h
      cases hs : sowInto S r tag name mode (id w) with
      | error e => rw [hs] at h; simp at h
      | ok r' =>
        rw [hs] at h
        have hw := he w (get_mem ho)
        refine ih hP _ ?_ r' ?_ q h
        · intro u hu
          rcases List.mem_append.1 hu with hu | hu
          · exact he u hu
          · rw [List.mem_singleton] at hu; subst hu; exact hw
        · unfold sowInto at hs
          split at hs
          · simp at hs
          · cases hd : S.dispatch tag name <;> rw [hd] at hs <;> simp only at hs
            · simp at hs; subst hs; exact hr
            · simp at hs; subst hs; exact hr
            · exact handle_front hr (by intro l hl; simp at hl; subst hl; exact hw) hs
  | nest scope ins body rest ihb ihr =>
    simp only [reapBy] at h
    cases ho : gets env ins with
    | error e => rw [ho] at h; simp [bind, Except.bind] at h
    | ok ws =>
      rw [ho] at h
      simp only [bind, Except.bind] at h
      cases hb : reapBy (vmapped V) id S body ws [] with
      | error e => rw [hb] at h; simp at h
      | ok qb =>
        rw [hb] at h
        simp only at h
        obtain ⟨h1, h2⟩ := ihb hP.1 ws (fun w hw => he w (gets_mem ho w hw)) [] (by intro e he; simp at he) qb hb
        cases hn : nestInto S r qb.2 scope with
        | error e => rw [hn] at h; simp at h
        | ok r' =>
          rw [hn] at h
          refine ihr hP.2 _ ?_ r' ?_ q h
          · intro u hu
            rcases List.mem_append.1 hu with hu | hu
            · exact he u hu
            · exact h1 u hu
          · unfold nestInto at hn
            split at hn
            · simp at hn; subst hn; exact hr
            · cases hd : S.dispatch S.tag scope <;> rw [hd] at hn <;> simp only at hn
              · simp at hn; subst hn; exact hr
              · simp at hn; subst hn; exact hr
              · exact handle_front hr (leavesOf_front h2) hn

/-- C66, partial: `reap(vmap(f)) = vmap(reap(f))`.  If all inputs are mapped along axis 0 and the batching rules keep the
batch axis in front, the slice along axis 0 in lane `i` of every value reaped from `vmap(f)`, and of every output, is what
`reap(f)` gives in lane `i`; and if reaping `vmap(f)` raises, so does `reap(f)`.  Missing: other axes and inputs that are
not mapped, where it is false (`reap_vmap_unmapped`, `reap_vmap_axis`). -/
theorem reap_vmap_commutes_partial (take : Nat → Nat → V → V) (S : Settings) (P : Prog V) (hP : GoodBatch take P)
    (hF : FrontProg P) (xs : List V) (i : Nat) :
    reap S P (xs.map (take 0 i)) = (reapVmap S P (xs.map fun x => (x, some 0))).map
      (fun q => (q.1.map fun o => take 0 i o.1, q.2.mapVals (take 0 i))) := by
  have hlane : (xs.map fun x => (x, some 0)).map (lane take i) = xs.map (take 0 i) := by simp [lane, Function.comp_def]
  have h1 : reapVmap S P (xs.map fun x => (x, some 0)) =
      (reapBy (vmapped V) id S P (xs.map fun x => (x, some 0)) []).map (fun q => (q.1, q.2.mapVals Prod.fst)) :=
    reapBy_store (vmapped V) id Prod.fst S P _ []
  have e1 := reapBy_hom (vmapped V) (plain V) (lane take i) (plain V).phys S P (vmap_hom take P hP i) (xs.map fun x => (x, some 0)) []
  have e2 := reapBy_store (vmapped V) id (lane take i) S P (xs.map fun x => (x, some 0)) []
  have e3 : reapBy (vmapped V) ((plain V).phys ∘ lane take i) S P (xs.map fun x => (x, some 0)) [] =
        (reapBy (vmapped V) id S P (xs.map fun x => (x, some 0)) []).map (fun q => (q.1, q.2.mapVals (lane take i))) := e2
  rw [hlane, e3] at e1
  unfold reap
  rw [e1, h1]
  cases hq : reapBy (vmapped V) id S P (xs.map fun x => (x, some 0)) [] with
  | error e => rfl
  | ok q =>
    obtain ⟨h1, h2⟩ := reap_front S P hF (xs.map fun x => (x, some 0))
      (fun w hw => by obtain ⟨x, -, rfl⟩ := List.mem_map.1 hw; rfl) [] (by intro e he; simp at he) q hq
    simp only [Except.map]
    congr 2
    · refine List.map_congr_left (fun o ho => ?_)
      simp [lane, h1 o ho]
    · simp only [Reaps.mapVals, List.map_map]
      refine List.map_congr_left (fun e he => ?_)
      simp only [Function.comp, List.map_map]
      congr 2
      refine List.map_congr_left (fun l hl => ?_)
      have := h2 e he l hl
      simp [lane, this]

/-! ### Witnesses -/

open Verif.LogProb.Batched (Arr)

/-- Slices of arrays. -/
def takeArr (d i : Nat) (x : Arr Nat) : Arr Nat := ⟨x.shape.eraseIdx d, fun idx => x.data (idx.insertIdx d i)⟩

def all : Settings := ⟨"t", [], none, false⟩

/-- `lambda x, y: (sow(y, tag='t', name='y'), x)[1]`. -/
def sowSecond : Prog (Arr Nat) := .sow "t" "y" .strict 1 (.done [0])

/-- C66 (negation): a sown value that is not mapped is reaped from `vmap(f)` without a batch axis: it is not an array whose
slices along axis 0 are what the lanes reap. -/
theorem reap_vmap_unmapped (x : Arr Nat) : ∃ y : Arr Nat,
    reapVmap all sowSecond [(x, some 0), (y, none)] = .ok ([(x, some 0)], [("y", .strict, [([], y)])]) ∧
    (∀ i, reap all sowSecond [takeArr 0 i x, y] = .ok ([takeArr 0 i x], [("y", .strict, [([], y)])])) ∧
    ∀ i, takeArr 0 i y ≠ y := by
  refine ⟨⟨[2], fun _ => 0⟩, rfl, fun i => rfl, fun i h => ?_⟩
  have := congrArg Arr.shape h
  simp [takeArr] at this

/-- `lambda x: sow(x, tag='t', name='x')`. -/
def sowFirst : Prog (Arr Nat) := .sow "t" "x" .strict 0 (.done [1])

/-- C66 (negation): with `in_axes=1` the value reaped from `vmap(f)` has its batch axis in position 1. -/
theorem reap_vmap_axis : ∃ x : Arr Nat,
    reapVmap all sowFirst [(x, some 1)] = .ok ([(x, some 1)], [("x", .strict, [([], x)])]) ∧
    (∀ i, reap all sowFirst [takeArr 1 i x] = .ok ([takeArr 1 i x], [("x", .strict, [([], takeArr 1 i x)])])) ∧
    ∀ i, takeArr 0 i x ≠ takeArr 1 i x := by
  refine ⟨⟨[2, 3], fun _ => 0⟩, rfl, fun i => rfl, fun i h => ?_⟩
  have := congrArg Arr.shape h
  simp [takeArr] at this

/-- Multiplication of integers with its product rule. -/
def mulP : Prim Int := ⟨fun xs => xs.getD 0 0 * xs.getD 1 0, fun ws => ((ws.getD 0 (0, none)).1 * (ws.getD 1 (0, none)).1, none),
  fun xs ts => ts.getD 0 0 * xs.getD 1 0 + xs.getD 0 0 * ts.getD 1 0⟩

/-- A constant. -/
def constP (c : Int) : Prim Int := ⟨fun _ => c, fun _ => (c, none), fun _ _ => 0⟩

/-- `lambda x: sow(x, tag='t', name='y') * x`, and what it is with 3 planted. -/
def square : Prog Int := .sow "t" "y" .strict 0 (.op mulP [1, 0] (.done [2]))
def planted : Prog Int := .op (constP 3) [] (.op mulP [1, 0] (.done [2]))
def three : Plants Int := fun p => if p = ["y"] then some 3 else none

/-- C67 (negation): planting does not stop tangents.  `plant(f)({'y': 3}, x) = 3 * x` for all `x`, with derivative 3, but
planting into `jvp(f)` at 5 gives the tangent 8. -/
theorem plant_jvp_tangent_wrong :
    (∀ x, (plantBy (plain Int) all square [x] three []).map (·.1) = runBy (plain Int) planted [x]) ∧
    (runBy (jvped Int) planted [(5, 1)] = .ok [(15, 3)]) ∧
    (plantBy (jvped Int) all square [(5, 1)] three []).map (·.1) = .ok [(15, 8)] := by
  refine ⟨fun x => rfl, rfl, rfl⟩

/-- C67 (negation): `jvp(reap(f))` gives tangents of the reaped values; `reap(jvp(f))` does not, the tangents are not
sown. -/
theorem reap_jvp_no_tangents (x t : Int) : (reapJvp all square [(x, t)]).map (·.2) = .ok [("y", .strict, [([], x)])] := rfl

/-! Non-vacuity of the hypotheses, for arrays of any shape: adding one to every entry. -/

def addOne : Prim (Arr Nat) :=
  ⟨fun xs => match xs with | x :: _ => ⟨x.shape, fun i => x.data i + 1⟩ | [] => ⟨[], fun _ => 1⟩,
   fun ws => match ws with | (x, d) :: _ => (⟨x.shape, fun i => x.data i + 1⟩, d) | [] => (⟨[], fun _ => 1⟩, none),
   fun _ ts => ts.headD ⟨[], fun _ => 0⟩⟩

def demo : Prog (Arr Nat) :=
  .op addOne [0] (.nest "s" [1] (.sow "t" "a" .strict 0 (.op addOne [1] (.done [2]))) (.sow "t" "b" .clobber 2 (.done [3])))

theorem addOne_good (i : Nat) (ws : List (Arr Nat × Option Nat)) :
    lane takeArr i (addOne.batch ws) = addOne.run (ws.map (lane takeArr i)) := by
  rcases ws with _ | ⟨⟨x, d⟩, ws⟩
  · rfl
  · cases d <;> rfl

example (x : Arr Nat) (i : Nat) : reap all demo [takeArr 0 i x] = (reapVmap all demo [(x, some 0)]).map
      (fun q => (q.1.map fun o => takeArr 0 i o.1, q.2.mapVals (takeArr 0 i))) :=
  reap_vmap_commutes_partial takeArr all demo ⟨addOne_good, ⟨addOne_good, trivial⟩, trivial⟩
    ⟨by simp, front, ⟨by simp, front, trivial⟩, trivial⟩ [x] i
where
  front : ∀ ws, ws ≠ [] → Front ws → (addOne.batch ws).2 = some 0 := by
    intro ws h0 h
    rcases ws with _ | ⟨⟨x, d⟩, ws⟩
    · exact absurd rfl h0
    · exact h (x, d) (by simp)

end Verif.Harvest.Lift
