import Verif.Inverse.Effects

/-! The layout and the effects of a program in single assignment form that is differentiable. -/
namespace Verif.Inverse

open Verif.Propagate Filter Topology

/-- Single assignment form, which every jaxpr has: each equation (operands, results) defines new variables, and its
operands are literals, inputs, or results of earlier equations.  `DropVar`s are excluded. -/
def SSA (inp : List Nat) (es : List (List (Atom F) × List (Atom F))) : Prop :=
  ∀ (e : Nat) g, es[e]? = some g →
    (∃ ws : List Nat, g.2 = ws.map Atom.var ∧ ws.Nodup ∧
      ∀ w ∈ ws, w ∉ inp ∧ ∀ (e' : Nat) g', e' < e → es[e']? = some g' → Atom.var w ∉ g'.2) ∧
    ∀ a ∈ g.1, (∃ v, a = Atom.lit v) ∨ ∃ y, a = Atom.var y ∧
      (y ∈ inp ∨ ∃ (e' : Nat) (g' : List (Atom F) × List (Atom F)), e' < e ∧ es[e']? = some g' ∧ Atom.var y ∈ g'.2)

/-- The operation is differentiable at the given operands.  The registered primitives are wherever they are defined,
except `sqrt` at zero. -/
def Op.smooth : Op → List F → Prop
  | .un p, [some x] => p = .sqrt → x ≠ 0
  | .bin _, _ => True
  | .other h, args => ∃ (k m : Nat) (u₀ : Fin k → ℝ) (φ : (Fin k → ℝ) → Fin m → ℝ),
      args = List.ofFn (fun i => some (u₀ i)) ∧ DifferentiableAt ℝ φ u₀ ∧
      ∀ᶠ u in 𝓝 u₀, h (List.ofFn (fun i => some (u i))) = List.ofFn (fun i => some (φ u i))
  | _, _ => False

variable {n : Nat}

theorem atom_grad (val : (Fin n → ℝ) → Nat → ℝ) (x₀ : Fin n → ℝ) (a : Atom F)
    (ha : (∃ v, a = .lit v) ∨ ∃ y, a = .var y ∧ DifferentiableAt ℝ (fun x => val x y) x₀) :
    DifferentiableAt ℝ (fun x => (aval (val x) a).getD 0) x₀ ∧
      grad (fun x => (aval (val x) a).getD 0) x₀ = DA (fun u => grad (fun x => val x u) x₀) a := by
  rcases ha with ⟨v, rfl⟩ | ⟨y, rfl, hy⟩
  · exact ⟨differentiableAt_const (v.getD 0), grad_const (v.getD 0) x₀⟩
  · exact ⟨hy, rfl⟩

theorem aval_some (val : (Fin n → ℝ) → Nat → ℝ) (x₀ : Fin n → ℝ) (a : Atom F) (r : ℝ) (h : aval (val x₀) a = some r)
    (x : Fin n → ℝ) : aval (val x) a = some ((aval (val x) a).getD 0) := by
  cases a with
  | lit v => simp only [aval] at h ⊢; rw [h]; rfl
  | var y => rfl
  | drop y => rfl

theorem un_rel (val : (Fin n → ℝ) → Nat → ℝ) (x₀ : Fin n → ℝ) (p : Un) (hp : p ≠ .reshape ∧ p ≠ .convert) (a : Atom F) (w : Nat)
    (ha : (∃ v, a = .lit v) ∨ ∃ y, a = .var y ∧ DifferentiableAt ℝ (fun x => val x y) x₀)
    (hev : ∀ᶠ x in 𝓝 x₀, (Op.un p).eval ([a].map (aval (val x))) = [Atom.var w].map (aval (val x)))
    (hok : (Op.un p).ok ([a].map (aval (val x₀)))) (hsm : (Op.un p).smooth ([a].map (aval (val x₀)))) :
    DifferentiableAt ℝ (fun x => val x w) x₀ ∧
    ∃ f' : ℝ, grad (fun x => val x w) x₀ = f' • DA (fun u => grad (fun x => val x u) x₀) a ∧
      ∀ d, p.dlog (val x₀ w) = some d → f' ≠ 0 ∧ d = - Real.log |f'| := by
  rcases hr : aval (val x₀) a with _ | r
  · simp [Op.ok, hr] at hok
  · simp only [List.map_cons, List.map_nil, hr, Op.ok, Op.smooth] at hok hsm
    obtain ⟨h1, h2⟩ := atom_grad val x₀ a ha
    have heq : (fun x => val x w) =ᶠ[𝓝 x₀] fun x => p.fr ((aval (val x) a).getD 0) := by
      filter_upwards [hev] with x hx
      simp only [List.map_cons, List.map_nil, Op.eval, List.cons.injEq, and_true] at hx
      rw [aval_some val x₀ a r hr x] at hx
      simp only [Option.bind_some, aval] at hx
      simp only [Un.fr, aval]; rw [hx]; rfl
    have hx0 := hev.self_of_nhds
    simp only [List.map_cons, List.map_nil, Op.eval, List.cons.injEq, and_true, hr, Option.bind_some] at hx0
    replace hx0 : p.f r = some (val x₀ w) := hx0
    obtain ⟨f', hf'⟩ := p.hasDeriv r (val x₀ w) hx0 hsm
    have hr' : (aval (val x₀) a).getD 0 = r := by rw [hr]; rfl
    obtain ⟨h3, h4⟩ := grad_comp1 (h := p.fr) (h' := f') h1 (by rw [hr']; exact hf')
    refine ⟨h3.congr_of_eventuallyEq heq, f', ?_, ?_⟩
    · rw [grad_congr heq, h4, h2]
    · intro d hd
      exact p.dlog_forward hp r (val x₀ w) d f' hok hx0 hsm hd hf'

theorem bin_rel (val : (Fin n → ℝ) → Nat → ℝ) (x₀ : Fin n → ℝ) (p : Bin) (a b : Atom F) (w : Nat)
    (ha : (∃ v, a = .lit v) ∨ ∃ y, a = .var y ∧ DifferentiableAt ℝ (fun x => val x y) x₀)
    (hb : (∃ v, b = .lit v) ∨ ∃ y, b = .var y ∧ DifferentiableAt ℝ (fun x => val x y) x₀)
    (hev : ∀ᶠ x in 𝓝 x₀, (Op.bin p).eval ([a, b].map (aval (val x))) = [Atom.var w].map (aval (val x)))
    (hok : (Op.bin p).ok ([a, b].map (aval (val x₀)))) :
    DifferentiableAt ℝ (fun x => val x w) x₀ ∧ ∃ ra rb, aval (val x₀) a = some ra ∧ aval (val x₀) b = some rb ∧
    ∃ α β : ℝ, grad (fun x => val x w) x₀ = α • DA (fun u => grad (fun x => val x u) x₀) a +
        β • DA (fun u => grad (fun x => val x u) x₀) b ∧
      (∀ d, p.ll ra (val x₀ w) = some d → β ≠ 0 ∧ d = - Real.log |β|) ∧
      (∀ d, p.lr rb (val x₀ w) = some d → α ≠ 0 ∧ d = - Real.log |α|) := by
  rcases hra : aval (val x₀) a with _ | ra
  · simp [Op.ok, hra] at hok
  rcases hrb : aval (val x₀) b with _ | rb
  · simp [Op.ok, hrb] at hok
  simp only [List.map_cons, List.map_nil, hra, hrb, Op.ok] at hok
  obtain ⟨h1, h2⟩ := atom_grad val x₀ a ha
  obtain ⟨h1', h2'⟩ := atom_grad val x₀ b hb
  have heq : (fun x => val x w) =ᶠ[𝓝 x₀] fun x => p.fr ((aval (val x) a).getD 0, (aval (val x) b).getD 0) := by
    filter_upwards [hev] with x hx
    simp only [List.map_cons, List.map_nil, Op.eval, List.cons.injEq, and_true] at hx
    rw [aval_some val x₀ a ra hra x, aval_some val x₀ b rb hrb x] at hx
    simp only [bind2, Option.bind_some, aval] at hx
    simp only [Bin.fr, aval]; rw [hx]; rfl
  have hx0 := hev.self_of_nhds
  simp only [List.map_cons, List.map_nil, Op.eval, List.cons.injEq, and_true, hra, hrb, bind2, Option.bind_some] at hx0
  obtain ⟨α, β, hf, hβ, hα⟩ := p.hasDeriv ra rb (val x₀ w) hx0 hok
  have hra' : (aval (val x₀) a).getD 0 = ra := by rw [hra]; rfl
  have hrb' : (aval (val x₀) b).getD 0 = rb := by rw [hrb]; rfl
  obtain ⟨h3, h4⟩ := grad_comp2 (h := p.fr) (α := α) (β := β) h1 h1' (by rw [hra', hrb']; exact hf)
  refine ⟨h3.congr_of_eventuallyEq heq, ra, rb, rfl, rfl, α, β, ?_, hβ, hα⟩
  rw [grad_congr heq, h4, h2, h2']

theorem other_rel (val : (Fin n → ℝ) → Nat → ℝ) (x₀ : Fin n → ℝ) (h : List F → List F) (ins : List (Atom F)) (ws : List Nat)
    (hins : ∀ a ∈ ins, (∃ v, a = .lit v) ∨ ∃ y, a = .var y ∧ DifferentiableAt ℝ (fun x => val x y) x₀)
    (hev : ∀ᶠ x in 𝓝 x₀, (Op.other h).eval (ins.map (aval (val x))) = (ws.map Atom.var).map (aval (val x)))
    (hsm : (Op.other h).smooth (ins.map (aval (val x₀)))) :
    ∀ w ∈ ws, DifferentiableAt ℝ (fun x => val x w) x₀ ∧ grad (fun x => val x w) x₀ ∈
      Submodule.span ℝ ((fun u => grad (fun x => val x u) x₀) '' {y | y ∈ ins.filterMap Atom.node}) := by
  obtain ⟨k, m, u₀, φ, hargs, hφ, hh⟩ := hsm
  have hk : k = ins.length := by
    have := congrArg List.length hargs
    simpa using this.symm
  subst hk
  let u : (Fin n → ℝ) → Fin ins.length → ℝ := fun x i => (aval (val x) ins[i]).getD 0
  have hu0 : ∀ i, aval (val x₀) ins[i] = some (u₀ i) := by
    intro i
    have h1 : (ins.map (aval (val x₀)))[i.1]? = (List.ofFn fun i => some (u₀ i))[i.1]? := by rw [hargs]
    rw [List.getElem?_map, List.getElem?_ofFn, List.getElem?_eq_getElem i.2] at h1
    simpa using h1
  have hux0 : u x₀ = u₀ := by funext i; simp only [u]; rw [hu0 i]; rfl
  have hux : ∀ x, ins.map (aval (val x)) = List.ofFn (fun i => some (u x i)) := by
    intro x
    apply List.ext_getElem?
    intro j
    rw [List.getElem?_map, List.getElem?_ofFn]
    by_cases hj : j < ins.length
    · rw [List.getElem?_eq_getElem hj, dif_pos hj]
      simp only [Option.map_some, Option.some.injEq]
      exact aval_some val x₀ _ _ (hu0 ⟨j, hj⟩) x
    · rw [List.getElem?_eq_none (by omega), dif_neg hj]; rfl
  have hud : ∀ i, DifferentiableAt ℝ (fun x => u x i) x₀ ∧
      grad (fun x => u x i) x₀ = DA (fun u => grad (fun x => val x u) x₀) ins[i] :=
    fun i => atom_grad val x₀ ins[i] (hins _ (List.getElem_mem i.2))
  have hucont : ContinuousAt u x₀ := continuousAt_pi.2 fun i => (hud i).1.continuousAt
  have hev' : ∀ᶠ x in 𝓝 x₀, (ws.map Atom.var).map (aval (val x)) = List.ofFn (fun i => some (φ (u x) i)) := by
    have hh' : ∀ᶠ x in 𝓝 x₀, h (List.ofFn (fun i => some (u x i))) = List.ofFn (fun i => some (φ (u x) i)) := by
      refine hucont.eventually (p := fun v => h (List.ofFn (fun i => some (v i))) = List.ofFn (fun i => some (φ v i))) ?_
      rw [hux0]; exact hh
    filter_upwards [hev, hh'] with x h1 h2
    rw [← h1, hux x]
    exact h2
  intro w hw
  obtain ⟨j, hj⟩ := List.mem_iff_getElem?.1 hw
  have hm : ws.length = m := by
    have := congrArg List.length hev'.self_of_nhds
    simpa using this
  have hjm : j < m := by rw [← hm]; exact (List.getElem?_eq_some_iff.1 hj).1
  have heq : (fun x => val x w) =ᶠ[𝓝 x₀] fun x => φ (u x) ⟨j, hjm⟩ := by
    filter_upwards [hev'] with x hx
    have h1 : ((ws.map Atom.var).map (aval (val x)))[j]? = (List.ofFn fun i => some (φ (u x) i))[j]? := by rw [hx]
    rw [List.getElem?_map, List.getElem?_map, hj, List.getElem?_ofFn, dif_pos hjm] at h1
    simpa [aval] using h1
  have hφj : DifferentiableAt ℝ (fun v => φ v ⟨j, hjm⟩) (u x₀) := by
    rw [hux0]; exact (differentiableAt_pi.1 hφ) ⟨j, hjm⟩
  obtain ⟨h3, h4⟩ := grad_compk (u := u) (φ := fun v => φ v ⟨j, hjm⟩) (fun i => (hud i).1) hφj
  refine ⟨h3.congr_of_eventuallyEq heq, ?_⟩
  rw [grad_congr heq]
  refine (Submodule.span_le.2 ?_) h4
  rintro _ ⟨i, rfl⟩
  simp only [(hud i).2]
  rcases hins _ (List.getElem_mem i.2) with ⟨v, hv⟩ | ⟨y, hy, -⟩
  · simp only [SetLike.mem_coe, Fin.getElem_fin]
    rw [hv]; exact Submodule.zero_mem _
  · simp only [SetLike.mem_coe, Fin.getElem_fin]
    rw [hy]
    refine Submodule.subset_span ⟨y, ?_, rfl⟩
    rw [Set.mem_ofPred_eq, List.mem_filterMap]
    exact ⟨.var y, by rw [← hy]; exact List.getElem_mem i.2, rfl⟩

/-! ### Programs -/

/-- An equation: a deterministic operation, or `none` for a random variable. -/
abbrev GEq := Option Op × List (Atom F) × List (Atom F)

/-- What is assumed about a program and a family of executions of it, `val x` for `x` near `x₀`. -/
structure Smooth (inp : List Nat) (E : List GEq) (val : (Fin n → ℝ) → Nat → ℝ) (x₀ : Fin n → ℝ) : Prop where
  ssa : SSA inp (E.map (·.2))
  base : ∀ u ∈ inp, DifferentiableAt ℝ (fun x => val x u) x₀
  rvs : ∀ g ∈ E, g.1 = none → ∀ u, Atom.var u ∈ g.2.2 → DifferentiableAt ℝ (fun x => val x u) x₀
  exec : ∀ᶠ x in 𝓝 x₀, ∀ g ∈ E, ∀ op, g.1 = some op → op.eval (g.2.1.map (aval (val x))) = g.2.2.map (aval (val x))
  ok : ∀ g ∈ E, ∀ op, g.1 = some op → op.ok (g.2.1.map (aval (val x₀)))
  smooth : ∀ g ∈ E, ∀ op, g.1 = some op → op.smooth (g.2.1.map (aval (val x₀)))
  noreset : ∀ g ∈ E, g.1 ≠ some (.un .reshape) ∧ g.1 ≠ some (.un .convert)

variable {inp : List Nat} {E : List GEq} {val : (Fin n → ℝ) → Nat → ℝ} {x₀ : Fin n → ℝ}

theorem un_shape {p : Un} {args : List F} {outs : List (Atom F)} (v : Nat → ℝ) (ws : List Nat) (hws : outs = ws.map Atom.var)
    (h : (Op.un p).eval args = outs.map (aval v)) (hok : (Op.un p).ok args) : args.length = 1 ∧ ∃ w, ws = [w] := by
  obtain _ | ⟨x, _ | ⟨y, args⟩⟩ := args
  · simp [Op.ok] at hok
  · subst hws
    simp only [Op.eval] at h
    have := congrArg List.length h
    simp only [List.length_cons, List.length_nil, List.length_map] at this
    exact ⟨rfl, List.length_eq_one_iff.1 (by omega)⟩
  · cases x <;> simp [Op.ok] at hok

theorem bin_shape {p : Bin} {args : List F} {outs : List (Atom F)} (v : Nat → ℝ) (ws : List Nat) (hws : outs = ws.map Atom.var)
    (h : (Op.bin p).eval args = outs.map (aval v)) (hok : (Op.bin p).ok args) : args.length = 2 ∧ ∃ w, ws = [w] := by
  obtain _ | ⟨x, _ | ⟨y, _ | ⟨z, args⟩⟩⟩ := args
  · simp [Op.ok] at hok
  · cases x <;> simp [Op.ok] at hok
  · subst hws
    simp only [Op.eval] at h
    have := congrArg List.length h
    simp only [List.length_cons, List.length_nil, List.length_map] at this
    exact ⟨rfl, List.length_eq_one_iff.1 (by omega)⟩
  · cases x <;> cases y <;> simp [Op.ok] at hok

theorem Smooth.eqn (H : Smooth inp E val x₀) (e : Nat) (g : GEq) (he : E[e]? = some g)
    (hins : ∀ a ∈ g.2.1, (∃ v, a = .lit v) ∨ ∃ y, a = .var y ∧ DifferentiableAt ℝ (fun x => val x y) x₀)
    (hdet : g.1 ≠ none) :
    ∀ w, Atom.var w ∈ g.2.2 → DifferentiableAt ℝ (fun x => val x w) x₀ ∧ grad (fun x => val x w) x₀ ∈
      Submodule.span ℝ ((fun u => grad (fun x => val x u) x₀) '' {y | y ∈ g.2.1.filterMap Atom.node}) := by
  intro w hw
  have hg : g ∈ E := List.mem_of_getElem? he
  obtain ⟨⟨ws, hws, -, -⟩, -⟩ := H.ssa e g.2 (by rw [List.getElem?_map, he]; rfl)
  rcases hop : g.1 with _ | op
  · exact absurd hop hdet
  have hev : ∀ᶠ x in 𝓝 x₀, op.eval (g.2.1.map (aval (val x))) = g.2.2.map (aval (val x)) := by
    filter_upwards [H.exec] with x hx
    exact hx g hg op hop
  have hok := H.ok g hg op hop
  have hsm := H.smooth g hg op hop
  have hnr := H.noreset g hg
  rw [hop] at hnr
  have hDA : ∀ a ∈ g.2.1, DA (fun u => grad (fun x => val x u) x₀) a ∈
      Submodule.span ℝ ((fun u => grad (fun x => val x u) x₀) '' {y | y ∈ g.2.1.filterMap Atom.node}) := by
    intro a ha
    rcases hins a ha with ⟨v, rfl⟩ | ⟨y, rfl, -⟩
    · exact Submodule.zero_mem _
    · exact Submodule.subset_span ⟨y, List.mem_filterMap.2 ⟨_, ha, rfl⟩, rfl⟩
  cases op with
  | un p =>
    obtain ⟨h1, w', rfl⟩ := un_shape (val x₀) ws hws hev.self_of_nhds hok
    rw [List.length_map] at h1
    obtain ⟨a, ha⟩ := List.length_eq_one_iff.1 h1
    rw [hws] at hw hev
    simp only [List.map_cons, List.map_nil, List.mem_singleton] at hw
    obtain rfl := Atom.var.inj hw
    rw [ha] at hev hok hsm hins hDA ⊢
    obtain ⟨h3, f', h4, -⟩ := un_rel val x₀ p ⟨fun h => hnr.1 (by rw [h]), fun h => hnr.2 (by rw [h])⟩ a w (hins a (by simp)) hev hok hsm
    refine ⟨h3, ?_⟩
    rw [h4]; exact Submodule.smul_mem _ _ (hDA a (by simp))
  | bin p =>
    obtain ⟨h1, w', rfl⟩ := bin_shape (val x₀) ws hws hev.self_of_nhds hok
    rw [List.length_map] at h1
    obtain ⟨a, b, ha⟩ := List.length_eq_two.1 h1
    rw [hws] at hw hev
    simp only [List.map_cons, List.map_nil, List.mem_singleton] at hw
    obtain rfl := Atom.var.inj hw
    rw [ha] at hev hok hsm hins hDA ⊢
    obtain ⟨h3, ra, rb, -, -, α, β, h4, -⟩ := bin_rel val x₀ p a b w (hins a (by simp)) (hins b (by simp)) hev hok
    refine ⟨h3, ?_⟩
    rw [h4]
    exact Submodule.add_mem _ (Submodule.smul_mem _ _ (hDA a (by simp))) (Submodule.smul_mem _ _ (hDA b (by simp)))
  | other h =>
    rw [hws] at hw hev
    have hw' : w ∈ ws := by
      obtain ⟨y, hy, hyw⟩ := List.mem_map.1 hw
      obtain rfl := Atom.var.inj hyw; exact hy
    exact other_rel val x₀ h g.2.1 ws hins hev hsm w hw'

theorem Smooth.diff (H : Smooth inp E val x₀) (e : Nat) : ∀ (g : GEq), E[e]? = some g →
    ∀ w, Atom.var w ∈ g.2.2 → DifferentiableAt ℝ (fun x => val x w) x₀ := by
  induction e using Nat.strong_induction_on with
  | _ e ih =>
    intro g he w hw
    by_cases hdet : g.1 = none
    · exact H.rvs g (List.mem_of_getElem? he) hdet w hw
    refine (H.eqn e g he ?_ hdet w hw).1
    intro a ha
    obtain ⟨-, h2⟩ := H.ssa e g.2 (by rw [List.getElem?_map, he]; rfl)
    rcases h2 a ha with h | ⟨y, rfl, h⟩
    · exact .inl h
    · refine .inr ⟨y, rfl, ?_⟩
      rcases h with h | ⟨e', g', he', hg', hy⟩
      · exact H.base y h
      · rw [List.getElem?_map] at hg'
        rcases hE : E[e']? with _ | g'' <;> rw [hE] at hg' <;> simp at hg'
        subst hg'
        exact ih e' he' g'' hE y hy

theorem Smooth.ins (H : Smooth inp E val x₀) (e : Nat) (g : GEq) (he : E[e]? = some g) (a : Atom F) (ha : a ∈ g.2.1) :
    (∃ v, a = .lit v) ∨ ∃ y, a = .var y ∧ DifferentiableAt ℝ (fun x => val x y) x₀ := by
  obtain ⟨-, h2⟩ := H.ssa e g.2 (by rw [List.getElem?_map, he]; rfl)
  rcases h2 a ha with h | ⟨y, rfl, h⟩
  · exact .inl h
  · refine .inr ⟨y, rfl, ?_⟩
    rcases h with h | ⟨e', g', he', hg', hy⟩
    · exact H.base y h
    · rw [List.getElem?_map] at hg'
      rcases hE : E[e']? with _ | g'' <;> rw [hE] at hg' <;> simp at hg'
      subst hg'
      exact H.diff e' g'' hE y hy

/-- The variables that equation number `e` defines. -/
def outsOf (E : List GEq) (e : Nat) : List Nat :=
  match E[e]? with
  | some g => g.2.2.filterMap Atom.node
  | none => []

/-- Only deterministic equations define variables in the sense of `Layout`. -/
def detOuts (E : List GEq) (e : Nat) : List Nat :=
  match E[e]? with
  | some (some _, _, outs) => outs.filterMap Atom.node
  | _ => []

/-- The operands of equation number `e`. -/
def insOf (E : List GEq) (e : Nat) : List Nat :=
  match E[e]? with
  | some g => g.2.1.filterMap Atom.node
  | none => []

open Classical in
/-- The position of a variable: one more than the number of the equation that defines it. -/
noncomputable def posOf (E : List GEq) (u : Nat) : Nat :=
  if h : ∃ e, u ∈ outsOf E e then Nat.find h + 1 else 0

theorem SSA.out_unique {es : List (List (Atom F) × List (Atom F))} (h : SSA inp es) (e e' : Nat) (g g')
    (he : es[e]? = some g) (he' : es[e']? = some g') (u : Nat) (hu : Atom.var u ∈ g.2) (hu' : Atom.var u ∈ g'.2) : e = e' := by
  have key : ∀ (e e' : Nat) g g', es[e]? = some g → es[e']? = some g' → Atom.var u ∈ g.2 → Atom.var u ∈ g'.2 → ¬ e' < e := by
    intro e e' g g' he he' hu hu' hlt
    obtain ⟨⟨ws, hws, -, h1⟩, -⟩ := h e g he
    have : u ∈ ws := by
      rw [hws] at hu
      obtain ⟨y, hy, hyw⟩ := List.mem_map.1 hu
      obtain rfl := Atom.var.inj hyw; exact hy
    exact (h1 u this).2 e' g' hlt he' hu'
  have := key e e' g g' he he' hu hu'
  have := key e' e g' g he' he hu' hu
  omega

theorem mem_filterMap_node {as : List (Atom F)} {ws : List Nat} (h : as = ws.map Atom.var) (u : Nat) :
    u ∈ as.filterMap Atom.node ↔ Atom.var u ∈ as := by
  subst h
  simp [List.mem_filterMap, Atom.node]

theorem filterMap_node_vars (ws : List Nat) : ((ws.map Atom.var : List (Atom F))).filterMap Atom.node = ws := by
  induction ws with
  | nil => rfl
  | cons w ws ih => simp only [List.map_cons, List.filterMap_cons, Atom.node, ih]

theorem Smooth.outs_iff (H : Smooth inp E val x₀) (e u : Nat) :
    u ∈ outsOf E e ↔ ∃ g, E[e]? = some g ∧ Atom.var u ∈ g.2.2 := by
  unfold outsOf
  rcases he : E[e]? with _ | g
  · simp
  · obtain ⟨⟨ws, hws, -, -⟩, -⟩ := H.ssa e g.2 (by rw [List.getElem?_map, he]; rfl)
    simp only [mem_filterMap_node hws, Option.some.injEq, exists_eq_left']

theorem Smooth.posOf_out (H : Smooth inp E val x₀) (e u : Nat) (hu : u ∈ outsOf E e) : posOf E u = e + 1 := by
  have hex : ∃ e, u ∈ outsOf E e := ⟨e, hu⟩
  simp only [posOf, dif_pos hex]
  obtain ⟨g, he, hg⟩ := (H.outs_iff e u).1 hu
  obtain ⟨g', he', hg'⟩ := (H.outs_iff _ u).1 (Nat.find_spec hex)
  have := H.ssa.out_unique (Nat.find hex) e g'.2 g.2 (by rw [List.getElem?_map, he']; rfl) (by rw [List.getElem?_map, he]; rfl) u hg' hg
  omega

theorem Smooth.posOf_inp (H : Smooth inp E val x₀) (u : Nat) (hu : u ∈ inp) : posOf E u = 0 := by
  unfold posOf
  rw [dif_neg]
  rintro ⟨e, he⟩
  obtain ⟨g, he, hg⟩ := (H.outs_iff e u).1 he
  obtain ⟨⟨ws, hws, -, h1⟩, -⟩ := H.ssa e g.2 (by rw [List.getElem?_map, he]; rfl)
  rw [hws] at hg
  obtain ⟨y, hy, hyw⟩ := List.mem_map.1 hg
  obtain rfl := Atom.var.inj hyw
  exact (h1 y hy).1 hu

theorem detOuts_sub (E : List GEq) (e u : Nat) (h : u ∈ detOuts E e) : u ∈ outsOf E e ∧ ∃ g, E[e]? = some g ∧ g.1 ≠ none := by
  unfold detOuts at h
  split at h
  · rename_i op ins outs he
    exact ⟨by unfold outsOf; rw [he]; exact h, _, he, by simp⟩
  · simp at h

theorem Smooth.ins_pos (H : Smooth inp E val x₀) (e y : Nat) (hy : y ∈ insOf E e) : posOf E y < e + 1 := by
  unfold insOf at hy
  rcases he : E[e]? with _ | g <;> rw [he] at hy <;> simp only at hy
  · simp at hy
  · obtain ⟨a, ha, hay⟩ := List.mem_filterMap.1 hy
    obtain ⟨-, h2⟩ := H.ssa e g.2 (by rw [List.getElem?_map, he]; rfl)
    rcases h2 a ha with ⟨v, rfl⟩ | ⟨y', rfl, h⟩
    · simp [Atom.node] at hay
    · simp only [Atom.node, Option.some.injEq] at hay
      subst hay
      rcases h with h | ⟨e', g', he', hg', hy'⟩
      · rw [H.posOf_inp y' h]; omega
      · rw [List.getElem?_map] at hg'
        rcases hE : E[e']? with _ | g'' <;> rw [hE] at hg' <;> simp at hg'
        subst hg'
        rw [H.posOf_out e' y' ((H.outs_iff e' y').2 ⟨g'', hE, hy'⟩)]
        omega

variable {S : Type}

/-- The propagation problem `J` is that of the equations `E`. -/
def Runs (J : Jaxpr ICell F S) (E : List GEq) : Prop :=
  ∀ (e : Nat) q, J.eqns[e]? = some q → ∃ g, E[e]? = some g ∧ q.ins = g.2.1 ∧ q.outs = g.2.2 ∧
    (∀ op, g.1 = some op → ∀ i o, (q.rule i o).1 = (op.rule i o).1 ∧ (q.rule i o).2.1 = (op.rule i o).2.1) ∧
    (g.1 = none → ∀ i o, (q.rule i o).1 = i ∧ (q.rule i o).2.1 = o)

/-- The layout of a program. -/
noncomputable def Smooth.layout (H : Smooth inp E val x₀) (J : Jaxpr ICell F S) (hJ : Runs J E) :
    Layout J (fun u => grad (fun x => val x u) x₀) where
  pos := posOf E
  dfn := detOuts E
  ops := insOf E
  uniq := by
    intro u e e' h h'
    have := H.posOf_out e u (detOuts_sub E e u h).1
    have := H.posOf_out e' u (detOuts_sub E e' u h').1
    omega
  lt := by
    intro u e y h hy
    rw [H.posOf_out e u (detOuts_sub E e u h).1]
    exact H.ins_pos e y hy
  nodes := by
    intro e q u y hu hq hy
    obtain ⟨g, he, hi, ho, -, -⟩ := hJ e q hq
    rw [hi, ho, List.map_append, List.mem_append] at hy
    have hdet : detOuts E e = g.2.2.filterMap Atom.node := by
      obtain ⟨-, g', he', hg'⟩ := detOuts_sub E e u hu
      rw [he] at he'
      obtain rfl := Option.some.inj he'
      obtain ⟨op, ins, outs⟩ := g
      cases op with
      | none => exact absurd rfl hg'
      | some op => simp [detOuts, he]
    rcases hy with hy | hy
    · left
      obtain ⟨a, ha, hay⟩ := List.mem_map.1 hy
      simp only [insOf, he]
      exact List.mem_filterMap.2 ⟨a, ha, hay⟩
    · right
      obtain ⟨a, ha, hay⟩ := List.mem_map.1 hy
      rw [hdet]
      exact List.mem_filterMap.2 ⟨a, ha, hay⟩
  span := by
    intro u e hu
    obtain ⟨h1, g, he, hdet⟩ := detOuts_sub E e u hu
    obtain ⟨g', he', hu'⟩ := (H.outs_iff e u).1 h1
    rw [he] at he'
    obtain rfl := Option.some.inj he'
    have := (H.eqn e g he (fun a ha => H.ins e g he a ha) hdet u hu').2
    simpa only [insOf, he] using this

theorem Smooth.effect (H : Smooth inp E val x₀) (J : Jaxpr ICell F S) (hJ : Runs J E) (env : Env ICell)
    (ht : ∀ u, Tells (some (val x₀ u)) (env u)) (e : Nat) (q : Eqn ICell F S) (hq : J.eqns[e]? = some q) :
    Effect (H.layout J hJ) e env (Propagate.exec iOps env q).1 := by
  obtain ⟨g, he, hi, ho, hdet, hrv⟩ := hJ e q hq
  rcases hop : g.1 with _ | op
  · obtain ⟨h1, h2⟩ := hrv hop (q.ins.map (Propagate.read iOps env)) (q.outs.map (Propagate.read iOps env))
    refine .same ?_
    simp only [Propagate.exec, h1, h2]
    rw [LogProb.writeAll_self, LogProb.writeAll_self]
  · have hexec : (Propagate.exec iOps env q).1 = execEnv op env g.2.1 g.2.2 := by
      obtain ⟨h1, h2⟩ := hdet op hop (q.ins.map (Propagate.read iOps env)) (q.outs.map (Propagate.read iOps env))
      show (writeAll iOps (writeAll iOps env q.ins
        (q.rule (q.ins.map (Propagate.read iOps env)) (q.outs.map (Propagate.read iOps env))).1).1 q.outs
        (q.rule (q.ins.map (Propagate.read iOps env)) (q.outs.map (Propagate.read iOps env))).2.1).1 = _
      rw [h1, h2, hi, ho]; rfl
    rw [hexec]
    have hg : g ∈ E := List.mem_of_getElem? he
    obtain ⟨⟨ws, hws, hnd, -⟩, -⟩ := H.ssa e g.2 (by rw [List.getElem?_map, he]; rfl)
    have hdfn : (H.layout J hJ).dfn e = ws := by
      show detOuts E e = ws
      obtain ⟨o, ins, outs⟩ := g
      simp only at hop hws; subst hop hws
      simp only [detOuts, he]; exact filterMap_node_vars ws
    have hops : (H.layout J hJ).ops e = g.2.1.filterMap Atom.node := by
      show insOf E e = _
      simp only [insOf, he]
    have hev : ∀ᶠ x in 𝓝 x₀, op.eval (g.2.1.map (aval (val x))) = g.2.2.map (aval (val x)) := by
      filter_upwards [H.exec] with x hx
      exact hx g hg op hop
    have hok := H.ok g hg op hop
    have hsm := H.smooth g hg op hop
    have hnr := H.noreset g hg
    rw [hop] at hnr
    have hins := H.ins e g he
    have hlv : ∀ a ∈ g.2.1, (∃ v, a = Atom.lit v) ∨ ∃ y, a = Atom.var y := by
      intro a ha
      rcases hins a ha with h | ⟨y, hy, -⟩
      · exact .inl h
      · exact .inr ⟨y, hy⟩
    cases op with
    | un p =>
      obtain ⟨h1, w, rfl⟩ := un_shape (val x₀) ws hws hev.self_of_nhds hok
      rw [List.length_map] at h1
      obtain ⟨a, ha⟩ := List.length_eq_one_iff.1 h1
      rw [hws] at hev ⊢
      rw [ha] at hev hok hsm hins hops hlv ⊢
      have hp : p ≠ .reshape ∧ p ≠ .convert := ⟨fun h => hnr.1 (by rw [h]), fun h => hnr.2 (by rw [h])⟩
      obtain ⟨-, hrel⟩ := un_rel val x₀ p hp a w (hins a (by simp)) hev hok hsm
      exact un_effect _ e env p hp a w (val x₀) hdfn hops (hlv a (by simp)) ht hrel
    | bin p =>
      obtain ⟨h1, w, rfl⟩ := bin_shape (val x₀) ws hws hev.self_of_nhds hok
      rw [List.length_map] at h1
      obtain ⟨a, b, ha⟩ := List.length_eq_two.1 h1
      rw [hws] at hev ⊢
      rw [ha] at hev hok hsm hins hops hlv ⊢
      obtain ⟨-, ra, rb, hra, hrb, hrel⟩ := bin_rel val x₀ p a b w (hins a (by simp)) (hins b (by simp)) hev hok
      exact bin_effect _ e env p a b w (val x₀) hdfn hops (hlv a (by simp)) (hlv b (by simp)) ht ra rb hra hrb hrel
    | other h =>
      have := hev.self_of_nhds
      rw [hws] at this ⊢
      exact other_effect _ e env h g.2.1 ws hnd (val x₀) hdfn hops ht this

end Verif.Inverse
