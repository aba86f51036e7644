import Verif.Inverse.PmapAgree

/-!
# C73: `inverse(pmap(f))` returns for every elementwise `f`; it is wrong when an operand is mapped along another axis
-/
namespace Verif.Inverse.Mapped

open Verif.Propagate

/-- A program with one equation can be propagated. -/
theorem single_exists {jn : ACell → ACell → ACell} {shp : Nat → List Nat} (q : Eqn ACell FArr Bool) (inv outv : List (Atom FArr))
    (x : Nat) (hx : Atom.var x ∈ inv) (hxq : Atom.var x ∈ q.ins) (i o : List ACell) :
    ∃ s, CompletesA jn shp ⟨[], inv, outv, [q]⟩ i o s := by
  let s0 : St ACell Bool := ⟨initEnv (aOps jn shp) ⟨[], inv, outv, [q]⟩ [] i o, [0], fun _ => none⟩
  let J : Jaxpr ACell FArr Bool := ⟨[], inv, outv, [q]⟩
  refine ⟨runR (aOps jn shp) J 1 s0, s0, ⟨rfl, ⟨by simp [s0], fun e => ?_⟩, fun _ => rfl⟩, runR_steps _ _ 1 s0, ?_⟩
  · constructor
    · intro h
      obtain rfl : e = 0 := by simpa [s0] using h
      exact ⟨x, List.mem_map.2 ⟨Atom.var x, by simp [hx], rfl⟩, q, rfl,
        List.mem_map.2 ⟨Atom.var x, List.mem_append_left _ hxq, rfl⟩⟩
    · rintro ⟨y, -, q', he, -⟩
      rcases e with _ | e
      · simp [s0]
      · simp at he
  · show pushR J 0 _ [] = []
    generalize progressed _ _ _ _ = ps
    rcases hp : pushR J 0 ps [] with _ | ⟨e, r⟩
    · rfl
    · exfalso
      have := ((pushR_pushes J 0 ps []).mem e).1 (by rw [hp]; exact List.mem_cons_self)
      rcases this with h | ⟨h, y, -, q1, he1, -⟩
      · simp at h
      · rcases e with _ | e
        · exact h rfl
        · simp [J] at he1

/-- The elementwise program `x ↦ p x` on arrays of shape `s`. -/
def elem (p : Un) (s : List Nat) : NProg := ⟨fun _ => s, [0], [.var 1], [.prim (.un p) [.var 0] [.var 1]]⟩

theorem elem_jaxpr {jn : ACell → ACell → ACell} (σ : Orders) (p : Un) (s : List Nat) : (elem p s).jaxpr jn σ =
    ⟨[], [0].map Atom.var, [1].map Atom.var, [⟨[0].map Atom.var, [1].map Atom.var, unA p⟩]⟩ := by
  simp [NProg.jaxpr, elem, eqnsOf, AOp.rule]

theorem topVal_new (s : List Nat) (v : List Nat → F) : topVal (newCell s v) = some (fun k => (v k, some 0)) := by
  simp [topVal, newCell, fullCell, ND.new]

/-- The inverse of the elementwise program. -/
theorem elem_run {jn : ACell → ACell → ACell} (hj : ∀ a b, Joins a b (jn a b)) (σ : Orders) (p : Un) (s : List Nat) (y : FArr)
    (hy : y.shape = s) (res : Option (List (List Nat → F × F))) :
    NRun jn σ (elem p s) [y] res ↔ res = some [fun k => ((y.val k).bind p.g, p.ld (some 0) (y.val k))] := by
  have hr : unA p ([0].map (fun x => (⟨(elem p s).shp x, []⟩ : ACell))) ([y].map (fun y => newCell y.shape y.val)) =
      ([fullCell s s (fun k => ((y.val k).bind p.g, p.ld (some 0) (y.val k)))], [newCell s y.val], false) := by
    have hu : topVal (⟨s, []⟩ : ACell) = none := rfl
    have ha : (newCell s y.val).aval = s := rfl
    simp [unA, topVal_new, hu, ha, hy, elem]
  have hval : ∀ t, CompletesA jn (elem p s).shp ((elem p s).jaxpr jn σ) ([0].map (fun x => ⟨(elem p s).shp x, []⟩))
      ([y].map (fun y => newCell y.shape y.val)) t →
      ([0].map t.env).mapM topVal = some [fun k => ((y.val k).bind p.g, p.ld (some 0) (y.val k))] := by
    intro t ht
    rw [elem_jaxpr] at ht
    rw [single_at hj (by simp) (by simp) (unA p) [y] (by simp [hy, elem]) (by rw [hr]; rfl) t ht, hr]
    simp [topVal, fullCell, ND.new]
  constructor
  · rintro ⟨t, ht, rfl⟩
    exact hval t ht
  · rintro rfl
    obtain ⟨t, ht⟩ := single_exists (jn := jn) (shp := (elem p s).shp) ⟨[0].map Atom.var, [1].map Atom.var, unA p⟩
      ([0].map Atom.var) ([1].map Atom.var) 0 (by simp) (by simp) ([0].map (fun x => ⟨(elem p s).shp x, []⟩))
      ([y].map (fun y => newCell y.shape y.val))
    rw [← elem_jaxpr (jn := jn) σ p s] at ht
    exact ⟨t, ht, (hval t ht).symm⟩

/-- `pmap` of the elementwise program. -/
def mapped (p : Un) (n : Nat) (s : List Nat) : NProg := pmapProg 0 n (fun _ => n :: s) [0] [1] (elem p s)

theorem mapped_of (p : Un) (hp : p ≠ .reshape) (n : Nat) (hn : 0 < n) (s : List Nat) :
    PmapOf n (fun _ => n :: s) [0] [1] (elem p s) := by
  refine ⟨hn, by simp, rfl, rfl, ?_, ?_⟩
  · simp [elem, wfAll, AOp.Typed, shpOf, hp]
  · simp [elem, othersFit]

/-- `inverse(pmap(p))` returns, on every number of lanes and on arrays of every shape; so `C73_lanes_agree` and
`C73_values_partial` are not empty. -/
theorem C73_mapped_returns {jn : ACell → ACell → ACell} (hj : ∀ a b, Joins a b (jn a b)) (hu : UniformJoin jn) (σ : Orders)
    (hσ : σ.Valid jn) (hσu : σ.Uniform) (p : Un) (hp : p ≠ .reshape) (n : Nat) (hn : 0 < n) (s : List Nat) (y : FArr)
    (hy : y.shape = n :: s) :
    (∃ v, NRun jn σ (mapped p n s) [y] (some [v])) ∧ ∀ res, NRun jn σ (mapped p n s) [y] res → ∃ v, res = some [v] ∧
      ∀ l < n, ∀ k, v (l :: k) = ((y.val (l :: k)).bind p.g, p.ld (some 0) (y.val (l :: k))) := by
  have hP := mapped_of p hp n hn s
  have hsh : ∀ l, (laneArr (some 0) l y).shape = s := by intro l; simp [laneArr, hy]
  have hall : ∀ res, NRun jn σ (mapped p n s) [y] res → ∃ v, res = some [v] ∧
      ∀ l < n, ∀ k, v (l :: k) = ((y.val (l :: k)).bind p.g, p.ld (some 0) (y.val (l :: k))) := by
    intro res h
    have hl := C73_lanes_agree hj hu σ hσ hσu 0 n _ [0] [1] (elem p s) hP (by simp) [y] (by simp [hy])
      ⟨_, (elem_run hj σ p s _ (hsh 0) _).2 rfl⟩ res h
    have h0 := (elem_run hj σ p s _ (hsh 0) _).1 (hl 0 hn)
    rcases res with _ | res
    · simp at h0
    · simp only [Option.map_some, Option.some.injEq] at h0
      rcases res with _ | ⟨v, _ | ⟨w, res⟩⟩
      · simp at h0
      · refine ⟨v, rfl, fun l hln k => ?_⟩
        have h1 := (elem_run hj σ p s _ (hsh l) _).1 (hl l hln)
        simp only [Option.map_some, Option.some.injEq, List.map_cons, List.map_nil, List.cons.injEq, and_true] at h1
        exact congrFun h1 k
      · simp at h0
  refine ⟨?_, hall⟩
  have ej : (mapped p n s).jaxpr jn σ = ⟨[], [0].map Atom.var, [1].map Atom.var,
      [⟨[0].map Atom.var, [1].map Atom.var, σ.pmap 0 n (elem p s).shp ((elem p s).jaxpr jn σ)⟩]⟩ := by
    simp [NProg.jaxpr, mapped, pmapProg, eqnsOf]
  obtain ⟨t, ht⟩ := single_exists (jn := jn) (shp := (mapped p n s).shp) ⟨[0].map Atom.var, [1].map Atom.var,
    σ.pmap 0 n (elem p s).shp ((elem p s).jaxpr jn σ)⟩
      ([0].map Atom.var) ([1].map Atom.var) 0 (by simp) (by simp) ([0].map (fun x => ⟨(mapped p n s).shp x, []⟩))
      ([y].map (fun y => newCell y.shape y.val))
  rw [← ej] at ht
  have hr : NRun jn σ (mapped p n s) [y] _ := ⟨t, ht, rfl⟩
  obtain ⟨v, hv, -⟩ := hall _ hr
  rw [hv] at hr
  exact ⟨v, hr⟩

/-- The program `pmap(neg, in_axes=1)` on arrays of shape `[2, 2]`. -/
def axisOne : NProg := ⟨fun _ => [2, 2], [0], [.var 1], [.pmap 0 2 [some 1] (fun _ => [2]) [.var 0] [.var 1]
  [.prim (.un .neg) [.var 0] [.var 1]] [.var 0] [.var 1]]⟩

/-- Its execution on the array `[[0, 1], [0, 0]]`: variable 1 is the negated transpose of variable 0. -/
def axisVal (x : Nat) (k : List Nat) : ℝ := if x = 0 then (if k = [0, 1] then 1 else 0) else (if k = [1, 0] then -1 else 0)

theorem axis_executes : execAll axisOne.shp axisOne.eqns axisVal := by
  simp only [axisOne, execAll]
  refine ⟨fun l hl => ⟨fun x k => if x = 0 then axisVal 0 (k ++ [l]) else axisVal 1 (l :: k), ?_, ?_, ?_, ?_, trivial⟩, trivial⟩
  · refine .cons ⟨rfl, fun k hk => ?_⟩ .nil
    rcases k with _ | ⟨a, _ | ⟨b, k⟩⟩
    · simp [arrOf, fullBox, inBox] at hk
    · simp [arrOf, laneArr]
    · simp [arrOf, fullBox, inBox] at hk
  · refine .cons ⟨rfl, fun k hk => ?_⟩ .nil
    simp [arrOf, laneArr]
  · refine .cons ⟨rfl, fun k hk => ?_⟩ .nil
    rcases k with _ | ⟨a, _ | ⟨b, k⟩⟩
    · simp [arrOf, fullBox, inBox, AOp.sem] at hk
    · simp only [arrOf, AOp.sem, Un.f, axisVal, Option.bind_some, if_pos rfl]
      by_cases h1 : a = 0 <;> by_cases h2 : l = 1 <;> simp [h1, h2, arrOf]
    · simp [arrOf, fullBox, inBox, AOp.sem] at hk
  · intro k _; exact ⟨_, rfl, trivial⟩

/-- **C73 fails for `in_axes` other than 0**: `inverse(pmap(neg, in_axes=1))` returns, and what it returns is not the
input. -/
theorem C73_axes_wrong {jn : ACell → ACell → ACell} (hj : ∀ a b, Joins a b (jn a b)) (hu : UniformJoin jn) (σ : Orders)
    (hσ : σ.Valid jn) (hσu : σ.Uniform) :
    execAll axisOne.shp axisOne.eqns axisVal ∧
    ∃ v, NRun jn σ axisOne (axisOne.outvars.map (arrOf axisOne.shp axisVal)) (some [v]) ∧
      axisVal 0 [0, 1] = 1 ∧ (v [0, 1]).1 = some 0 := by
  obtain ⟨⟨v, hv⟩, h⟩ := C73_mapped_returns hj hu σ hσ hσu .neg (by decide) 2 (by decide) [2]
    (arrOf axisOne.shp axisVal (.var 1)) rfl
  obtain ⟨w, hw, he⟩ := h _ hv
  simp only [Option.some.injEq, List.cons.injEq, and_true] at hw
  subst hw
  have ej : axisOne.jaxpr jn σ = (mapped .neg 2 [2]).jaxpr jn σ := by
    simp [NProg.jaxpr, mapped, pmapProg, eqnsOf, axisOne, elem]
  refine ⟨axis_executes, v, ?_, by simp [axisVal], ?_⟩
  · obtain ⟨t, ht, hres⟩ := hv
    rw [← ej] at ht
    exact ⟨t, ht, hres⟩
  rw [he 0 (by decide) [1]]
  simp [arrOf, axisVal, Un.g]

/-- The hypotheses of `C73_values_partial` and `C73_lanes_agree` are met: `pmap(exp)` on two lanes of shape `[3]`, applied to zeros. -/
example : ∃ σ : Orders, σ.Valid joinS ∧ σ.Uniform ∧ PmapOf 2 (fun _ => [2, 3]) [0] [1] (elem .exp [3]) ∧
    wfAll (mapped .exp 2 [3]).shp (mapped .exp 2 [3]).eqns ∧
    execAll (mapped .exp 2 [3]).shp (mapped .exp 2 [3]).eqns (fun x _ => if x = 0 then 0 else 1) ∧
    ∃ res, NRun joinS σ (mapped .exp 2 [3]) ((mapped .exp 2 [3]).outvars.map
      (arrOf (mapped .exp 2 [3]).shp (fun x _ => if x = 0 then 0 else 1))) (some res) := by
  obtain ⟨σ, h1, h2⟩ := uniform_order_exists joinS_joins joinS_uniform
  refine ⟨σ, h1, h2, mapped_of .exp (by decide) 2 (by decide) [3], ?_, ?_, ?_⟩
  · simp [mapped, pmapProg, wfAll, elem, AOp.Typed, shpOf]
  · simp only [mapped, pmapProg, execAll, elem]
    refine ⟨fun l hl => ⟨fun x _ => if x = 0 then 0 else 1, ?_, ?_, ?_, ?_, trivial⟩, trivial⟩
    · exact .cons ⟨rfl, fun k hk => by simp [arrOf, laneArr]⟩ .nil
    · exact .cons ⟨rfl, fun k hk => by simp [arrOf, laneArr]⟩ .nil
    · exact .cons ⟨rfl, fun k hk => by simp [arrOf, Un.f]⟩ .nil
    · intro k _; exact ⟨_, rfl, trivial⟩
  · obtain ⟨⟨v, hv⟩, -⟩ := C73_mapped_returns joinS_joins joinS_uniform σ h1 h2 .exp (by decide) 2 (by decide) [3]
      (arrOf (mapped .exp 2 [3]).shp (fun x _ => if x = 0 then 0 else 1) (.var 1)) rfl
    exact ⟨_, hv⟩

end Verif.Inverse.Mapped
