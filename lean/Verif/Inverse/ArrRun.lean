import Verif.Inverse.ArrExec2
import Verif.Inverse.Jacobian

/-! The invariant of the runs of `inverse_and_ildj` on programs on arrays. -/
namespace Verif.Inverse

open Verif.Propagate Filter Topology

variable {n : Nat} {P : AProg} {ax : Nat → Nat} {val : (Fin n → ℝ) → Nat → List Nat → ℝ} {x₀ : Fin n → ℝ}
variable {jn : ACell → ACell → ACell}

/-- The equation is a `slice`. -/
def IsSlice (q : AOp × List (Atom FArr) × List (Atom FArr)) : Prop := ∃ st li, q.1 = .slice st li

theorem doneE_nonslice {q : AOp × List (Atom FArr) × List (Atom FArr)} (h : ¬ IsSlice q) {env : Env ACell} :
    DoneE q env ↔ ∀ x, Atom.var x ∈ q.2.1 ∨ Atom.var x ∈ q.2.2 → (env x).top = true := by
  obtain ⟨op, ins, outs⟩ := q
  cases op with
  | slice st li => exact absurd ⟨st, li, rfl⟩ h
  | _ => exact Iff.rfl

theorem top_mono (hA : ∀ x, Axis (P.shp x) (ax x)) {env env' : Env ACell} (hb : Basic P ax env) (hg : GoodEnv P ax env')
    (hm : ∀ u, Lk env u ≠ none → Lk env' u ≠ none) {x : Nat} (h : (env x).top = true) : (env' x).top = true :=
  full_top hA hg fun _ hjb => Lk_ne.1 (hm (x, _) (hb.top hA h hjb))

theorem DoneE.persist (hA : ∀ x, Axis (P.shp x) (ax x)) {env env' : Env ACell} (hb : Basic P ax env)
    (hg : GoodEnv P ax env') (hm : ∀ u, Lk env u ≠ none → Lk env' u ≠ none)
    {q : AOp × List (Atom FArr) × List (Atom FArr)} (h : DoneE q env) : DoneE q env' := by
  by_cases hs : IsSlice q
  · obtain ⟨op, ins, outs⟩ := q
    obtain ⟨st, li, rfl⟩ := hs
    exact ⟨fun z hz => top_mono hA hb hg hm (h.1 z hz),
      fun y hy j hjb => Lk_ne.1 (hm (y, j) (Lk_ne.2 (h.2 y hy j hjb)))⟩
  · rw [doneE_nonslice hs] at h ⊢
    exact fun x hx => top_mono hA hb hg hm (h x hx)

/-- Known entries that are no slots: their equation has nothing more to do, and is not waiting (a `slice` may be). -/
def Calm (P : AProg) (env : Env ACell) (queue : List Nat) (sl : Fin n → Nat × List Nat) : Prop :=
  ∀ u (e : Nat) q, Lk env u ≠ none → (∀ i, sl i ≠ u) → eqnOf P u = some e → P.eqns[e]? = some q →
    DoneE q env ∧ (IsSlice q ∨ e ∉ queue)

/-- The invariant. -/
def RunInv (H : P.Diff ax val x₀) (Arg : Nat × List Nat → Prop) (d : ℝ) (env : Env ACell) (queue : List Nat) : Prop :=
  Basic P ax env ∧ ∃ sl : Fin n → Nat × List Nat, ASlots H.lay Arg (Lk env) sl ∧
    (AStuck H.lay (Lk env) sl ∨
      ANumeric H.lay d (Lk env) sl ∧ GoodEnv P ax env ∧ Calm P env queue sl ∧ queue.Nodup)

theorem progressed_top {as : List (Atom FArr)} {env : Env ACell} {new : List ACell} {x : Nat}
    (h : x ∈ progressed (aOps jn P.shp) as (as.map (Propagate.read (aOps jn P.shp) env)) new) : (env x).top = false := by
  unfold progressed at h
  obtain ⟨⟨a, c, c'⟩, h1, h2⟩ := List.mem_filterMap.1 h
  obtain ⟨h3, h4⟩ := List.mem_filter.1 h1
  have h5 : c = Propagate.read (aOps jn P.shp) env a := by
    clear h h1 h2 h4
    induction as generalizing new with
    | nil => simp at h3
    | cons b as ih =>
      rcases new with _ | ⟨m, new⟩
      · simp at h3
      · simp only [List.map_cons, List.zip_cons_cons, List.mem_cons, Prod.mk.injEq] at h3
        rcases h3 with ⟨rfl, rfl, rfl⟩ | h3
        · rfl
        · exact ih h3
  have h6 : c = env x := by
    rw [h5]
    cases a with
    | lit v => simp [Atom.node] at h2
    | var y => simp only [Atom.node, Option.some.injEq] at h2; subst h2; rfl
    | drop y => simp only [Atom.node, Option.some.injEq] at h2; subst h2; rfl
  subst h6
  have h7 : Cell.lt (env x) c' = true := h4
  by_contra h8
  rw [Bool.not_eq_false] at h8
  unfold Cell.lt at h7
  rw [h8] at h7
  simp at h7

theorem runInv_step (hj : ∀ a b, Joins a b (jn a b)) (H : P.Diff ax val x₀) (Arg : Nat × List Nat → Prop)
    (harg : ∀ u, Arg u → H.lay.eqn u = none) (d : ℝ) (s s' : St ACell Bool) (ht : TrueEnv P (val x₀) s.env)
    (h : RunInv H Arg d s.env s.queue) (hst : Step (aOps jn P.shp) (P.jaxpr jn) s s') :
    RunInv H Arg d s'.env s'.queue := by
  cases hst with
  | mk e rest q0 q' hq he hp =>
  have he' : ∃ q, P.eqns[e]? = some q ∧ q0 = ⟨q.2.1, q.2.2, q.1.rule jn⟩ := by
    simp only [AProg.jaxpr, List.getElem?_map, Option.map_eq_some_iff] at he
    obtain ⟨q, h1, h2⟩ := he
    exact ⟨q, h1, h2.symm⟩
  obtain ⟨q, hqe, rfl⟩ := he'
  obtain ⟨hb, sl, hsl, hrest⟩ := h
  obtain ⟨⟨heff, hb'⟩, hidle⟩ := exec_eff hj H hqe hb ht
  show RunInv H Arg d (execA jn P s.env q) q'
  refine ⟨hb', ?_⟩
  by_cases hstuck : AStuck H.lay (Lk s.env) sl
  · obtain ⟨sl', h1, h2, -⟩ := aslots_move H.lay Arg harg _ _ sl hsl heff.move
    exact ⟨sl', h1, .inl (h2 hstuck)⟩
  · obtain ⟨hn, hg, hcalm, hnd⟩ := hrest.resolve_left hstuck
    have hnd' : q'.Nodup := hp.nodup (by rw [hq] at hnd; exact (List.nodup_cons.1 hnd).2)
    -- equations with nothing more to do do not enter the queue
    have hqueue : ∀ (e' : Nat) q2, P.eqns[e']? = some q2 → ¬ IsSlice q2 → DoneE q2 s.env → e' ∉ s.queue → e' ∉ q' := by
      intro e' q2 h1 h2 h3 h4 h5
      rw [hp.mem] at h5
      rcases h5 with h5 | ⟨-, x, h6, q3, h7, h8⟩
      · exact h4 (by rw [hq]; exact List.mem_cons_of_mem _ h5)
      · rw [← List.map_append] at h6
        have h9 := progressed_top h6
        have h10 : q3 = ⟨q2.2.1, q2.2.2, q2.1.rule jn⟩ := by
          simp only [AProg.jaxpr, List.getElem?_map, h1, Option.map_some, Option.some.injEq] at h7
          exact h7.symm
        subst h10
        rw [doneE_nonslice h2] at h3
        have h11 : Atom.var x ∈ q2.2.1 ∨ Atom.var x ∈ q2.2.2 := by
          obtain ⟨a, ha, hax⟩ := List.mem_map.1 h8
          rcases List.mem_append.1 ha with ha | ha
          · rcases (H.ssa e' q2 h1).2 a ha with ⟨v, rfl⟩ | ⟨y, rfl, -⟩
            · simp [Atom.node] at hax
            · simp only [Atom.node, Option.some.injEq] at hax; subst hax; exact .inl ha
          · obtain ⟨ws, hws, -⟩ := H.outs h1
            have ha' : a ∈ ws.map Atom.var := by rw [← hws]; exact ha
            obtain ⟨y, -, rfl⟩ := List.mem_map.1 ha'
            simp only [Atom.node, Option.some.injEq] at hax; subst hax; exact .inr ha
        rw [h3 x h11] at h9
        cases h9
    have heq : e ∈ s.queue := by rw [hq]; simp
    by_cases hslot : ∀ u, H.lay.eqn u = some e → Lk s.env u ≠ none → ∃ i, sl i = u
    · obtain ⟨hg', sl', g1, g2, g3⟩ := heff.numeric Arg harg d sl hsl hn hg hslot hstuck
      refine ⟨sl', g1, .inr ⟨g2, hg', ?_, hnd'⟩⟩
      intro u e' q2 hu hi he2 hq2
      rcases g3 u hu hi with ⟨k1, k2⟩ | ⟨k1, k2⟩
      · obtain ⟨c1, c2⟩ := hcalm u e' q2 k1 k2 he2 hq2
        refine ⟨c1.persist H.axis hb hg' heff.mono, ?_⟩
        by_cases hs : IsSlice q2
        · exact .inl hs
        · exact .inr (hqueue e' q2 hq2 hs c1 (c2.resolve_left hs))
      · have e1 : eqnOf P u = some e := k1
        rw [e1] at he2
        obtain rfl := Option.some.inj he2
        rw [hqe] at hq2
        obtain rfl := Option.some.inj hq2
        refine ⟨k2, .inr ?_⟩
        rw [hp.mem]
        rintro (h1 | ⟨h1, -⟩)
        · rw [hq] at hnd; exact (List.nodup_cons.1 hnd).1 h1
        · exact h1 rfl
    · push Not at hslot
      obtain ⟨u, hu1, hu2, hu3⟩ := hslot
      obtain ⟨c1, c2⟩ := hcalm u e q hu2 hu3 hu1 hqe
      have hsl1 : IsSlice q := c2.resolve_right (fun h => h heq)
      have hsame := hidle hsl1 hg c1
      rw [hsame]
      refine ⟨sl, hsl, .inr ⟨hn, hg, ?_, hnd'⟩⟩
      intro u' e' q2 hu hi he2 hq2
      obtain ⟨c1, c2⟩ := hcalm u' e' q2 hu hi he2 hq2
      refine ⟨c1, ?_⟩
      by_cases hs : IsSlice q2
      · exact .inl hs
      · exact .inr (hqueue e' q2 hq2 hs c1 (c2.resolve_left hs))

/-! ### The beginning -/

theorem join_bottom {A : List Nat} {a c : ACell} (h : Joins a ⟨A, []⟩ c) : c = a := by
  cases h with
  | otherTop h => simp [Cell.top] at h
  | otherBottom => rfl
  | same => rfl
  | below => rfl
  | above h1 h2 => simp [Cell.bottom] at h2
  | merge h1 h2 => simp [Cell.bottom] at h2

theorem write_bottoms (hj : ∀ a b, Joins a b (jn a b)) (shp : Nat → List Nat) (env : Env ACell) (as : List (Atom FArr))
    (cs : List ACell) (h : ∀ (i x : Nat) (c : ACell), as[i]? = some (Atom.var x) → cs[i]? = some c → c = ⟨shp x, []⟩) :
    (writeAll (aOps jn shp) env as cs).1 = env := by
  induction as generalizing env cs with
  | nil => cases cs <;> rfl
  | cons a as ih =>
    rcases cs with _ | ⟨c, cs⟩
    · rfl
    · simp only [writeAll]
      have h1 : (Propagate.write (aOps jn shp) env a c).1 = env := by
        cases a with
        | lit v => rfl
        | drop x => rfl
        | var x =>
          have h2 := h 0 x c (by simp) (by simp)
          subst h2
          funext y
          simp only [Propagate.write]
          split
          · rename_i hy; subst hy
            exact join_bottom (hj (env y) ⟨shp y, []⟩)
          · rfl
      rw [h1]
      exact ih env cs fun i x c' h2 h3 => h (i + 1) x c' (by simpa using h2) (by simpa using h3)

theorem write_news (hj : ∀ a b, Joins a b (jn a b)) (shp : Nat → List Nat) (env : Env ACell) (ws : List Nat)
    (cs : List ACell) (hlen : cs.length = ws.length)
    (h : ∀ (i x : Nat) (c : ACell), ws[i]? = some x → cs[i]? = some c → ∃ v, c = newCell (shp x) v) :
    (∀ x ∉ ws, (writeAll (aOps jn shp) env (ws.map Atom.var) cs).1 x = env x) ∧
    ∀ x ∈ ws, ∃ v, (writeAll (aOps jn shp) env (ws.map Atom.var) cs).1 x = newCell (shp x) v := by
  induction ws generalizing env cs with
  | nil => cases cs <;> exact ⟨fun _ _ => rfl, by simp⟩
  | cons w ws ih =>
    rcases cs with _ | ⟨c, cs⟩
    · simp at hlen
    · simp only [List.map_cons, writeAll]
      obtain ⟨v, rfl⟩ := h 0 w c (by simp) (by simp)
      obtain ⟨i1, i2⟩ := ih (Propagate.write (aOps jn shp) env (Atom.var w) (newCell (shp w) v)).1 cs (by simpa using hlen)
        fun i x c' h2 h3 => h (i + 1) x c' (by simpa using h2) (by simpa using h3)
      have hw : (Propagate.write (aOps jn shp) env (Atom.var w) (newCell (shp w) v)).1 w = newCell (shp w) v := by
        simp only [Propagate.write, if_true]
        exact join_full (hj (env w) (newCell (shp w) v))
      refine ⟨?_, ?_⟩
      · intro x hx
        simp only [List.mem_cons, not_or] at hx
        rw [i1 x hx.2]
        simp [Propagate.write, hx.1]
      · intro x hx
        by_cases hx' : x ∈ ws
        · exact i2 x hx'
        · obtain rfl := (List.mem_cons.1 hx).resolve_right hx'
          rw [i1 x hx', hw]
          exact ⟨v, rfl⟩

theorem init_cells (hj : ∀ a b, Joins a b (jn a b)) (P : AProg) (v : Nat → List Nat → ℝ) (os : List Nat)
    (ho : P.outvars = os.map Atom.var) (hex : P.Executes v) (s0 : St ACell Bool)
    (h0 : Init (aOps jn P.shp) (P.jaxpr jn) (P.consts.map (fun c => newCell c.2.shape c.2.val))
      (P.invars.map (fun x => ⟨P.shp x, []⟩))
      ((P.outvars.map (P.arr v)).map (fun y => newCell y.shape y.val)) s0) (x : Nat) :
    (x ∈ os ∨ x ∈ P.consts.map Prod.fst → ∃ f, s0.env x = newCell (P.shp x) f) ∧
    (¬ (x ∈ os ∨ x ∈ P.consts.map Prod.fst) → s0.env x = ⟨P.shp x, []⟩) := by
  rw [h0.1]
  unfold initEnv
  rw [write_bottoms hj]
  · have hc : (P.jaxpr jn).constvars = (P.consts.map Prod.fst).map Atom.var := by
      simp [AProg.jaxpr, List.map_map, Function.comp_def]
    have hov : (P.jaxpr jn).outvars = os.map Atom.var := ho
    have hu : (aOps jn P.shp).unknown = fun x => ⟨P.shp x, []⟩ := rfl
    rw [hc, hov, hu]
    obtain ⟨c1, c2⟩ := write_news hj P.shp (fun x => (⟨P.shp x, []⟩ : ACell)) (P.consts.map Prod.fst)
      (P.consts.map (fun c => newCell c.2.shape c.2.val)) (by simp) (by
        intro i y c h1 h2
        rw [List.getElem?_map] at h1 h2
        rcases hk : P.consts[i]? with _ | a <;> rw [hk] at h1 h2 <;> simp at h1 h2
        subst h1 h2
        have := (hex.consts a (List.mem_of_getElem? hk)).1
        rw [this]
        exact ⟨_, rfl⟩)
    rw [write_bottoms hj P.shp _ (P.jaxpr jn).invars]
    · obtain ⟨o1, o2⟩ := write_news hj P.shp
        (writeAll (aOps jn P.shp) (fun x => (⟨P.shp x, []⟩ : ACell)) ((P.consts.map Prod.fst).map Atom.var)
          (P.consts.map (fun c => newCell c.2.shape c.2.val))).1 os
        ((P.outvars.map (P.arr v)).map (fun y => newCell y.shape y.val)) (by rw [ho]; simp) (by
          intro i y c h1 h2
          rw [ho, List.getElem?_map, List.getElem?_map, List.getElem?_map, h1] at h2
          simp only [Option.map_some, Option.some.injEq] at h2
          subst h2
          exact ⟨_, rfl⟩)
      constructor
      · intro hx
        by_cases hx' : x ∈ os
        · exact o2 x hx'
        · rw [o1 x hx']
          exact c2 x (hx.resolve_left hx')
      · intro hx
        rw [not_or] at hx
        rw [o1 x hx.1, c1 x hx.2]
    · intro i y c h1 h2
      simp only [AProg.jaxpr, List.getElem?_map] at h1 h2
      rcases hk : P.invars[i]? with _ | a <;> rw [hk] at h1 h2 <;> simp at h1 h2
      subst h1 h2; rfl
  · intro i y c h1 h2
    rw [List.getElem?_map, h1] at h2
    simp only [Option.map_some, Option.some.injEq] at h2
    rw [← h2]; rfl

end Verif.Inverse
