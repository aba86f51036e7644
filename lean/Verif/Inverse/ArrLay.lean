import Verif.Inverse.ArrGood
import Verif.Inverse.ArrSlots
import Verif.Inverse.GraphGrad

/-! The entries of the arrays of a program as nodes: which equation defines an entry, from which entries it is computed,
and how its gradient depends on theirs. -/
namespace Verif.Inverse

open Verif.Propagate Filter Topology

/-! ### Specification -/

/-- Single assignment form, which every jaxpr has: each equation defines new variables, and its operands are literals,
inputs, constants, or results of earlier equations.  `DropVar`s are excluded. -/
def AProg.SSA (P : AProg) : Prop :=
  ∀ (e : Nat) q, P.eqns[e]? = some q →
    (∃ ws : List Nat, q.2.2 = ws.map Atom.var ∧ ws.Nodup ∧
      ∀ w ∈ ws, w ∉ P.consts.map Prod.fst ++ P.invars ∧
        ∀ (e' : Nat) q', e' < e → P.eqns[e']? = some q' → Atom.var w ∉ q'.2.2) ∧
    ∀ a ∈ q.2.1, (∃ v, a = Atom.lit v) ∨ ∃ y, a = Atom.var y ∧
      (y ∈ P.consts.map Prod.fst ++ P.invars ∨
        ∃ (e' : Nat) (q' : AOp × List (Atom FArr) × List (Atom FArr)), e' < e ∧ P.eqns[e']? = some q' ∧ Atom.var y ∈ q'.2.2)

/-- The operations of the ILDJ theorem: `slice` cuts its operand along the axis chosen for it and is not empty,
`concatenate` has distinct operands; `reshape` and `convert_element_type` reset the ILDJ (see C64), `tie_all` and `sow` are
left out. -/
def AOp.Cut (shp : Nat → List Nat) (ax : Nat → Nat) : AOp → List (Atom FArr) → Prop
  | .un p, _ => p ≠ .reshape ∧ p ≠ .convert
  | .bin _, _ => True
  | .slice st li, ins => ∃ y s, ins = [.var y] ∧ s.1 < s.2 ∧ sliceBox st li = slab (shp y) (ax y) s
  | .cat _, ins => ∃ xs : List Nat, ins = xs.map Atom.var ∧ xs.Nodup
  | .other _, _ => True
  | _, _ => False

/-- The operation is differentiable at the given operands.  The registered primitives are wherever they are defined,
except `sqrt` at zero.  For another primitive: every entry of a result is a differentiable function of finitely many
entries of the operands. -/
def AOp.Smooth : AOp → List FArr → Prop
  | .un p, [x] => p = .sqrt → ∀ k, inBox (fullBox x.shape) k → x.val k ≠ some 0
  | .other h, xs => ∀ (j : Nat) (k : List Nat), ∃ (m : Nat) (s : Fin m → Nat × List Nat) (u₀ : Fin m → ℝ)
      (φ : (Fin m → ℝ) → ℝ),
      (∀ i, ∃ a, xs[(s i).1]? = some a ∧ inBox (fullBox a.shape) (s i).2 ∧ a.val (s i).2 = some (u₀ i)) ∧
      DifferentiableAt ℝ φ u₀ ∧
      ∀ᶠ u in 𝓝 u₀, ∀ ys : List FArr, ys.map (·.shape) = xs.map (·.shape) →
        (∀ i, ∃ a, ys[(s i).1]? = some a ∧ a.val (s i).2 = some (u i)) →
        ∀ b, (h ys)[j]? = some b → inBox (fullBox b.shape) k → b.val k = some (φ u)
  | _, _ => True

variable {n : Nat}

/-- What is assumed about a program and a family of executions of it, `val t` for `t` near `x₀`. -/
structure AProg.Diff (P : AProg) (ax : Nat → Nat) (val : (Fin n → ℝ) → Nat → List Nat → ℝ) (x₀ : Fin n → ℝ) : Prop where
  axis : ∀ x, Axis (P.shp x) (ax x)
  ssa : P.SSA
  cut : ∀ q ∈ P.eqns, q.1.Cut P.shp ax q.2.1
  base : ∀ x ∈ P.invars, ∀ k, inBox (fullBox (P.shp x)) k → DifferentiableAt ℝ (fun t => val t x k) x₀
  exec : ∀ᶠ t in 𝓝 x₀, P.Executes (val t)
  typed : P.Typed (val x₀)
  ok : ∀ q ∈ P.eqns, q.1.Ok (q.2.1.map (P.arr (val x₀)))
  smooth : ∀ q ∈ P.eqns, q.1.Smooth (q.2.1.map (P.arr (val x₀)))

/-! ### Gradients of entries -/

theorem un_grad (p : Un) (hp : p ≠ .reshape ∧ p ≠ .convert) (f g : (Fin n → ℝ) → ℝ) (x₀ : Fin n → ℝ)
    (hf : DifferentiableAt ℝ f x₀) (hev : ∀ᶠ t in 𝓝 x₀, p.f (f t) = some (g t)) (hok : p.ok (f x₀))
    (hsm : p = .sqrt → f x₀ ≠ 0) :
    DifferentiableAt ℝ g x₀ ∧ ∃ f' : ℝ, grad g x₀ = f' • grad f x₀ ∧
      ∀ d, p.dlog (g x₀) = some d → f' ≠ 0 ∧ d = - Real.log |f'| := by
  have := un_rel (fun t u => if u = 0 then f t else g t) x₀ p hp (.var 0) 1 (.inr ⟨0, rfl, by simpa using hf⟩)
    (by filter_upwards [hev] with t ht
        simp [Op.eval, aval, ht])
    (by simpa [Op.ok, aval] using hok) (by simpa [Op.smooth, aval] using hsm)
  simpa [DA] using this

theorem bin_grad (p : Bin) (f1 f2 g : (Fin n → ℝ) → ℝ) (x₀ : Fin n → ℝ)
    (hf1 : DifferentiableAt ℝ f1 x₀) (hf2 : DifferentiableAt ℝ f2 x₀)
    (hev : ∀ᶠ t in 𝓝 x₀, p.f (f1 t) (f2 t) = some (g t)) (hok : p.ok (f1 x₀) (f2 x₀)) :
    DifferentiableAt ℝ g x₀ ∧ ∃ α β : ℝ, grad g x₀ = α • grad f1 x₀ + β • grad f2 x₀ ∧
      (∀ d, p.ll (f1 x₀) (g x₀) = some d → β ≠ 0 ∧ d = - Real.log |β|) ∧
      (∀ d, p.lr (f2 x₀) (g x₀) = some d → α ≠ 0 ∧ d = - Real.log |α|) := by
  have := bin_rel (fun t u => if u = 0 then f1 t else if u = 1 then f2 t else g t) x₀ p (.var 0) (.var 1) 2
    (.inr ⟨0, rfl, by simpa using hf1⟩) (.inr ⟨1, rfl, by simpa using hf2⟩)
    (by filter_upwards [hev] with t ht
        simp [Op.eval, aval, bind2, ht])
    (by simpa [Op.ok, aval] using hok)
  simpa [DA, aval] using this

/-- The entry of an atom. -/
noncomputable def ent (val : Nat → List Nat → ℝ) (k : List Nat) : Atom FArr → ℝ
  | .lit v => (v.val k).getD 0
  | .var x => val x k
  | .drop x => val x k

/-- The gradient of an entry of an atom. -/
def DK (D : Nat × List Nat → Fin n → ℝ) (k : List Nat) : Atom FArr → Fin n → ℝ
  | .lit _ => 0
  | .var x => D (x, k)
  | .drop x => D (x, k)

/-- The gradients of the entries. -/
noncomputable def GD (val : (Fin n → ℝ) → Nat → List Nat → ℝ) (x₀ : Fin n → ℝ) (u : Nat × List Nat) : Fin n → ℝ :=
  grad (fun t => val t u.1 u.2) x₀

theorem ent_grad (val : (Fin n → ℝ) → Nat → List Nat → ℝ) (x₀ : Fin n → ℝ) (a : Atom FArr) (k : List Nat)
    (ha : (∃ v, a = .lit v) ∨ ∃ y, a = .var y ∧ DifferentiableAt ℝ (fun t => val t y k) x₀) :
    DifferentiableAt ℝ (fun t => ent (val t) k a) x₀ ∧ grad (fun t => ent (val t) k a) x₀ = DK (GD val x₀) k a := by
  rcases ha with ⟨v, rfl⟩ | ⟨y, rfl, hy⟩
  · exact ⟨differentiableAt_const _, grad_const _ x₀⟩
  · exact ⟨hy, rfl⟩

theorem ent_arr (P : AProg) (val : (Fin n → ℝ) → Nat → List Nat → ℝ) (x₀ : Fin n → ℝ) (a : Atom FArr) (k : List Nat)
    (r : ℝ) (h : (P.arr (val x₀) a).val k = some r) (t : Fin n → ℝ) :
    (P.arr (val t) a).val k = some (ent (val t) k a) := by
  cases a with
  | lit v => simp only [AProg.arr] at h ⊢; simp only [ent]; rw [h]; rfl
  | var x => rfl
  | drop x => rfl

theorem arr_shape (P : AProg) (v w : Nat → List Nat → ℝ) (a : Atom FArr) : (P.arr v a).shape = (P.arr w a).shape := by
  cases a <;> rfl

/-- The entries that entry `k` of the result of `concatenate` is computed from: one. -/
def catAt (shp : Nat → List Nat) (d : Nat) : List (Atom FArr) → List Nat → Set (Nat × List Nat)
  | [], _ => ∅
  | .var x :: as, k => if k.getD d 0 < (shp x).getD d 0 then {(x, k)} else catAt shp d as (k.modify d (· - (shp x).getD d 0))
  | _ :: _, _ => ∅

/-- The entries that entry `k` of the results of an equation is computed from. -/
def opsAt (shp : Nat → List Nat) : AOp → List (Atom FArr) → List Nat → Set (Nat × List Nat)
  | .un _, ins, k => {y | Atom.var y.1 ∈ ins ∧ y.2 = k}
  | .bin _, ins, k => {y | Atom.var y.1 ∈ ins ∧ y.2 = k}
  | .slice st _, ins, k => {y | Atom.var y.1 ∈ ins ∧ y.2 = shift st k}
  | .cat d, ins, k => catAt shp d ins k
  | .other _, ins, _ => {y | Atom.var y.1 ∈ ins ∧ inBox (fullBox (shp y.1)) y.2}
  | _, _, _ => ∅

theorem catAt_var (shp : Nat → List Nat) (d : Nat) (ins : List (Atom FArr)) (k : List Nat) (y : Nat × List Nat)
    (h : y ∈ catAt shp d ins k) : Atom.var y.1 ∈ ins := by
  induction ins generalizing k with
  | nil => exact absurd h (Set.notMem_empty y)
  | cons a as ih =>
    cases a with
    | var x =>
      simp only [catAt] at h
      split at h
      · rw [Set.mem_singleton_iff] at h; subst h; simp
      · exact List.mem_cons_of_mem _ (ih _ h)
    | lit v => exact absurd h (Set.notMem_empty y)
    | drop x => exact absurd h (Set.notMem_empty y)

theorem opsAt_var (shp : Nat → List Nat) (op : AOp) (ins : List (Atom FArr)) (k : List Nat) (y : Nat × List Nat)
    (h : y ∈ opsAt shp op ins k) : Atom.var y.1 ∈ ins := by
  cases op with
  | un p => exact h.1
  | bin p => exact h.1
  | slice st li => exact h.1
  | cat d => exact catAt_var shp d ins k y h
  | other f => exact h.1
  | reshape t => exact absurd h (Set.notMem_empty y)
  | tie => exact absurd h (Set.notMem_empty y)
  | sow => exact absurd h (Set.notMem_empty y)

/-- Entry `k` of a concatenation of variables is an entry of one of them. -/
theorem cat_entry (P : AProg) (d : Nat) (s : List Nat) (hd : d < s.length) (xs : List Nat)
    (hx : ∀ x ∈ xs, ∃ m, P.shp x = s.set d m) (k : List Nat) (N : Nat)
    (hk : inBox (fullBox (s.set d N)) k) (hN : N ≤ (xs.map (fun x => (P.shp x).getD d 0)).sum) :
    ∃ y, catAt P.shp d (xs.map Atom.var) k = {y} ∧ inBox (fullBox (P.shp y.1)) y.2 ∧ y.1 ∈ xs ∧
      ∀ val : Nat → List Nat → ℝ, catVal d ((xs.map Atom.var).map (fun a => ((P.arr val a).shape.getD d 0, (P.arr val a).val))) k =
        some (val y.1 y.2) := by
  induction xs generalizing k N with
  | nil =>
    rw [box_set hd] at hk
    simp at hN
    omega
  | cons x xs ih =>
    obtain ⟨m, hm⟩ := hx x (by simp)
    have hmd : (P.shp x).getD d 0 = m := by rw [hm, getD_set s d m d hd, if_pos rfl]
    by_cases hlt : k.getD d 0 < m
    · refine ⟨(x, k), ?_, ?_, by simp, fun val => ?_⟩
      · simp only [List.map_cons, catAt, hmd, if_pos hlt]
      · rw [hm, box_set hd]
        rw [box_set hd] at hk
        exact ⟨hk.1, hlt, hk.2.2⟩
      · simp only [List.map_cons, catVal, AProg.arr, hmd, if_pos hlt]
    · have hk' := hk
      rw [box_set hd] at hk
      obtain ⟨h1, h2, h3⟩ := hk
      have hkl : d < k.length := by omega
      obtain ⟨y, y1, y2, y3, y4⟩ := ih (fun z hz => hx z (by simp [hz])) (k.modify d (· - m)) (N - m)
        (box_modify _ hd hk' (by omega)) (by
          simp only [List.map_cons, List.sum_cons, hmd] at hN; omega)
      refine ⟨y, ?_, y2, by simp [y3], fun val => ?_⟩
      · simp only [List.map_cons, catAt, hmd, if_neg hlt]; exact y1
      · have := y4 val
        simp only [List.map_cons, catVal, AProg.arr, hmd, if_neg hlt]
        exact this

/-! ### The gradients of the results of an equation -/

variable {P : AProg} {ax : Nat → Nat} {val : (Fin n → ℝ) → Nat → List Nat → ℝ} {x₀ : Fin n → ℝ}

theorem typed_un {p : Un} {ss o : List (List Nat)} (h : (AOp.un p).Typed ss o) : ∃ s, ss = [s] ∧ o = [s] := by
  obtain _ | ⟨s, _ | ⟨t, ss⟩⟩ := ss
  · exact absurd h id
  · exact ⟨s, rfl, h.2⟩
  · exact absurd h id

theorem typed_bin {p : Bin} {ss o : List (List Nat)} (h : (AOp.bin p).Typed ss o) : ∃ s, ss = [s, s] ∧ o = [s] := by
  obtain _ | ⟨s, _ | ⟨t, _ | ⟨u, ss⟩⟩⟩ := ss
  · exact absurd h id
  · exact absurd h id
  · obtain ⟨rfl, h2⟩ := h; exact ⟨t, rfl, h2⟩
  · exact absurd h id

/-- The results of an equation are variables. -/
theorem AProg.Diff.outs (H : P.Diff ax val x₀) {e : Nat} {q} (he : P.eqns[e]? = some q) :
    ∃ ws : List Nat, q.2.2 = ws.map Atom.var ∧ ws.Nodup := by
  obtain ⟨⟨ws, h1, h2, -⟩, -⟩ := H.ssa e q he
  exact ⟨ws, h1, h2⟩

theorem vars_one {ws : List Nat} {P : AProg} {v : Nat → List Nat → ℝ} {s : List Nat}
    (h : (ws.map Atom.var).map (fun a => (P.arr v a).shape) = [s]) : ∃ z, ws = [z] ∧ P.shp z = s := by
  obtain _ | ⟨z, _ | ⟨z', ws⟩⟩ := ws
  · simp at h
  · simp [AProg.arr] at h; exact ⟨z, rfl, h⟩
  · simp at h

theorem map_one {α β : Type} {f : α → β} {l : List α} {b : β} (h : l.map f = [b]) : ∃ a, l = [a] ∧ f a = b := by
  obtain _ | ⟨a, _ | ⟨a', l⟩⟩ := l
  · simp at h
  · simp at h; exact ⟨a, rfl, h⟩
  · simp at h

theorem map_two {α β : Type} {f : α → β} {l : List α} {b c : β} (h : l.map f = [b, c]) :
    ∃ a a', l = [a, a'] ∧ f a = b ∧ f a' = c := by
  obtain _ | ⟨a, _ | ⟨a', _ | ⟨a'', l⟩⟩⟩ := l
  · simp at h
  · simp at h
  · simp at h; exact ⟨a, a', rfl, h⟩
  · simp at h

theorem DK_span (D : Nat × List Nat → Fin n → ℝ) (k : List Nat) (a : Atom FArr) (S : Set (Nat × List Nat))
    (h : ∀ y, a.node = some y → (y, k) ∈ S) : DK D k a ∈ Submodule.span ℝ (D '' S) := by
  cases a with
  | lit v => exact Submodule.zero_mem _
  | var x => exact Submodule.subset_span ⟨_, h x rfl, rfl⟩
  | drop x => exact Submodule.subset_span ⟨_, h x rfl, rfl⟩

/-- What is known about the operands of an equation: they are literals, or variables with differentiable entries. -/
def InsOk (P : AProg) (val : (Fin n → ℝ) → Nat → List Nat → ℝ) (x₀ : Fin n → ℝ) (ins : List (Atom FArr)) : Prop :=
  ∀ a ∈ ins, (∃ v, a = .lit v) ∨ ∃ y, a = .var y ∧ ∀ k, inBox (fullBox (P.shp y)) k →
    DifferentiableAt ℝ (fun t => val t y k) x₀

theorem InsOk.at {ins : List (Atom FArr)} (h : InsOk P val x₀ ins) {a : Atom FArr} (ha : a ∈ ins) {k : List Nat}
    (hk : inBox (fullBox (P.arr (val x₀) a).shape) k) :
    (∃ v, a = .lit v) ∨ ∃ y, a = .var y ∧ DifferentiableAt ℝ (fun t => val t y k) x₀ := by
  rcases h a ha with h | ⟨y, rfl, h⟩
  · exact .inl h
  · exact .inr ⟨y, rfl, h k hk⟩

/-- An elementwise equation, at one index. -/
theorem AProg.Diff.un (H : P.Diff ax val x₀) {p : Un} {a : Atom FArr} {z : Nat} (hq : (AOp.un p, [a], [Atom.var z]) ∈ P.eqns)
    (hi : InsOk P val x₀ [a]) {k : List Nat} (hk : inBox (fullBox (P.shp z)) k) :
    (P.arr (val x₀) a).shape = P.shp z ∧ (P.arr (val x₀) a).val k = some (ent (val x₀) k a) ∧
    DifferentiableAt ℝ (fun t => val t z k) x₀ ∧ ∃ f' : ℝ, GD val x₀ (z, k) = f' • DK (GD val x₀) k a ∧
      ∀ d, p.dlog (val x₀ z k) = some d → f' ≠ 0 ∧ d = - Real.log |f'| := by
  have hsh : (P.arr (val x₀) a).shape = P.shp z := by
    obtain ⟨s, h1, h2⟩ := typed_un (H.typed.eqns _ hq)
    simp only [List.map_cons, List.map_nil, List.cons.injEq, and_true] at h1 h2
    rw [h1, ← h2]; rfl
  rw [← hsh] at hk
  obtain ⟨r, hr, hok⟩ := H.ok _ hq k hk
  have he := ent_arr P val x₀ a k r hr
  have hr' : r = ent (val x₀) k a := by
    have := he x₀; rw [hr] at this; exact Option.some.inj this
  obtain ⟨h1, h2⟩ := ent_grad val x₀ a k (hi.at (by simp) hk)
  have hev : ∀ᶠ t in 𝓝 x₀, p.f (ent (val t) k a) = some (val t z k) := by
    filter_upwards [H.exec] with t ht
    have h3 := ht.eqns _ hq
    cases h3 with | cons h4 _ =>
    have h5 := h4.2 k (by show inBox (fullBox (P.arr (val t) a).shape) k; rw [arr_shape P (val t) (val x₀)]; exact hk)
    simp only [he t, Option.bind_some] at h5
    exact h5
  have hsm : p = .sqrt → ent (val x₀) k a ≠ 0 := by
    intro h3 h4
    exact H.smooth _ hq h3 k hk (by rw [he x₀, h4])
  obtain ⟨g1, f', g2, g3⟩ := un_grad p (H.cut _ hq) _ _ x₀ h1 hev (by rw [← hr']; exact hok) hsm
  refine ⟨hsh, he x₀, g1, f', ?_, g3⟩
  rw [h2] at g2
  exact g2

/-- A binary equation, at one index. -/
theorem AProg.Diff.bin (H : P.Diff ax val x₀) {p : Bin} {a b : Atom FArr} {z : Nat}
    (hq : (AOp.bin p, [a, b], [Atom.var z]) ∈ P.eqns) (hi : InsOk P val x₀ [a, b]) {k : List Nat}
    (hk : inBox (fullBox (P.shp z)) k) :
    (P.arr (val x₀) a).shape = P.shp z ∧ (P.arr (val x₀) b).shape = P.shp z ∧
    (P.arr (val x₀) a).val k = some (ent (val x₀) k a) ∧ (P.arr (val x₀) b).val k = some (ent (val x₀) k b) ∧
    DifferentiableAt ℝ (fun t => val t z k) x₀ ∧
    ∃ α β : ℝ, GD val x₀ (z, k) = α • DK (GD val x₀) k a + β • DK (GD val x₀) k b ∧
      (∀ d, p.ll (ent (val x₀) k a) (val x₀ z k) = some d → β ≠ 0 ∧ d = - Real.log |β|) ∧
      (∀ d, p.lr (ent (val x₀) k b) (val x₀ z k) = some d → α ≠ 0 ∧ d = - Real.log |α|) := by
  have hsh : (P.arr (val x₀) a).shape = P.shp z ∧ (P.arr (val x₀) b).shape = P.shp z := by
    obtain ⟨s, h1, h2⟩ := typed_bin (H.typed.eqns _ hq)
    simp only [List.map_cons, List.map_nil, List.cons.injEq, and_true] at h1 h2
    rw [h1.1, h1.2, ← h2]; exact ⟨rfl, rfl⟩
  have hk2 := hk
  rw [← hsh.1] at hk
  rw [← hsh.2] at hk2
  obtain ⟨r, s, hr, hs, hok⟩ := H.ok _ hq k hk
  have he := ent_arr P val x₀ a k r hr
  have he' := ent_arr P val x₀ b k s hs
  have hr' : r = ent (val x₀) k a := by
    have := he x₀; rw [hr] at this; exact Option.some.inj this
  have hs' : s = ent (val x₀) k b := by
    have := he' x₀; rw [hs] at this; exact Option.some.inj this
  obtain ⟨h1, h2⟩ := ent_grad val x₀ a k (hi.at (by simp) hk)
  obtain ⟨h1', h2'⟩ := ent_grad val x₀ b k (hi.at (by simp) hk2)
  have hev : ∀ᶠ t in 𝓝 x₀, p.f (ent (val t) k a) (ent (val t) k b) = some (val t z k) := by
    filter_upwards [H.exec] with t ht
    have h3 := ht.eqns _ hq
    cases h3 with | cons h4 _ =>
    have h5 := h4.2 k (by show inBox (fullBox (P.arr (val t) a).shape) k; rw [arr_shape P (val t) (val x₀)]; exact hk)
    simp only [he t, he' t, bind2, Option.bind_some] at h5
    exact h5
  obtain ⟨g1, α, β, g2, g3, g4⟩ := bin_grad p _ _ _ x₀ h1 h1' hev (by rw [← hr', ← hs']; exact hok)
  refine ⟨hsh.1, hsh.2, he x₀, he' x₀, g1, α, β, ?_, g3, g4⟩
  rw [h2, h2'] at g2
  exact g2

/-- Two entries that are equal near `x₀` have the same gradient. -/
theorem same_grad {u y : Nat × List Nat} (hev : ∀ᶠ t in 𝓝 x₀, val t u.1 u.2 = val t y.1 y.2)
    (hy : DifferentiableAt ℝ (fun t => val t y.1 y.2) x₀) :
    DifferentiableAt ℝ (fun t => val t u.1 u.2) x₀ ∧ GD val x₀ u = GD val x₀ y :=
  ⟨hy.congr_of_eventuallyEq hev, grad_congr hev⟩

/-- A slice, at one index. -/
theorem AProg.Diff.slice (H : P.Diff ax val x₀) {st li : List Nat} {y z : Nat}
    (hq : (AOp.slice st li, [Atom.var y], [Atom.var z]) ∈ P.eqns) (hi : InsOk P val x₀ [Atom.var y]) {k : List Nat}
    (hk : inBox (fullBox (P.shp z)) k) :
    P.shp z = sliceShape st li ∧ List.Forall₂ (· ≤ ·) st li ∧ List.Forall₂ (· ≤ ·) li (P.shp y) ∧
    inBox (fullBox (P.shp y)) (shift st k) ∧
    DifferentiableAt ℝ (fun t => val t z k) x₀ ∧ GD val x₀ (z, k) = GD val x₀ (y, shift st k) := by
  obtain ⟨t1, t2, t3⟩ := H.typed.eqns _ hq
  simp only [List.map_cons, List.map_nil, List.cons.injEq, and_true] at t3
  have hsh : P.shp z = sliceShape st li := t3
  have hin : inBox (fullBox (P.shp y)) (shift st k) := slice_shift t1 t2 (by rw [← hsh]; exact hk)
  have hev : ∀ᶠ t in 𝓝 x₀, val t z k = val t y (shift st k) := by
    filter_upwards [H.exec] with t ht
    have h3 := ht.eqns _ hq
    cases h3 with | cons h4 _ =>
    have h5 := h4.2 k (by show inBox (fullBox (sliceShape st li)) k; rw [← hsh]; exact hk)
    exact (Option.some.inj h5).symm
  have hd : DifferentiableAt ℝ (fun t => val t y (shift st k)) x₀ := by
    rcases hi (.var y) (by simp) with ⟨v, h⟩ | ⟨y', h, h'⟩
    · cases h
    · obtain rfl := Atom.var.inj h; exact h' _ hin
  obtain ⟨g1, g2⟩ := same_grad (u := (z, k)) (y := (y, shift st k)) hev hd
  exact ⟨hsh, t1, t2, hin, g1, g2⟩

/-- The shapes of a concatenation. -/
theorem AProg.Diff.catShapes (H : P.Diff ax val x₀) {d : Nat} {xs : List Nat} {z : Nat}
    (hq : (AOp.cat d, xs.map Atom.var, [Atom.var z]) ∈ P.eqns) :
    ∃ s : List Nat, d < s.length ∧ (∀ x ∈ xs, ∃ m, P.shp x = s.set d m) ∧
      P.shp z = s.set d (xs.map (fun x => (P.shp x).getD d 0)).sum ∧ P.shp z = catShape d (xs.map P.shp) := by
  have ht := H.typed.eqns _ hq
  obtain _ | ⟨x, xs⟩ := xs
  · exact absurd ht id
  · obtain ⟨t1, t2, t3⟩ := ht
    simp only [List.map_cons, List.map_nil, List.cons.injEq, and_true] at t3
    have e : List.map (fun a => (P.arr (val x₀) a).shape) (List.map Atom.var xs) = xs.map P.shp := by
      rw [List.map_map]; rfl
    rw [e] at t2 t3
    refine ⟨P.shp x, t1, ?_, ?_, t3⟩
    · intro y hy
      rcases List.mem_cons.1 hy with rfl | hy
      · exact ⟨(P.shp y).getD d 0, by
          have h1 : d < (P.shp y).length := t1
          rw [List.getD_eq_getElem?_getD, List.getElem?_eq_getElem h1]; simp⟩
      · exact t2 _ (List.mem_map.2 ⟨y, hy, rfl⟩)
    · have h3 : P.shp z = catShape d (P.shp x :: xs.map P.shp) := t3
      rw [h3]
      simp only [catShape, List.map_cons, List.map_map]
      rfl

/-- A concatenation, at one index. -/
theorem AProg.Diff.cat (H : P.Diff ax val x₀) {d : Nat} {xs : List Nat} {z : Nat}
    (hq : (AOp.cat d, xs.map Atom.var, [Atom.var z]) ∈ P.eqns) (hi : InsOk P val x₀ (xs.map Atom.var)) {k : List Nat}
    (hk : inBox (fullBox (P.shp z)) k) :
    ∃ y, catAt P.shp d (xs.map Atom.var) k = {y} ∧ inBox (fullBox (P.shp y.1)) y.2 ∧ y.1 ∈ xs ∧
    DifferentiableAt ℝ (fun t => val t z k) x₀ ∧ GD val x₀ (z, k) = GD val x₀ y := by
  obtain ⟨s, h1, h2, h3, -⟩ := H.catShapes hq
  obtain ⟨y, y1, y2, y3, y4⟩ := cat_entry P d s h1 xs h2 k _ (by rw [← h3]; exact hk) (le_refl _)
  have hev : ∀ᶠ t in 𝓝 x₀, val t z k = val t y.1 y.2 := by
    filter_upwards [H.exec] with t ht
    have h5 := ht.eqns _ hq
    cases h5 with | cons h6 _ =>
    have h7 := h6.2 k (by rw [h6.1]; exact hk)
    have h8 : catVal d (((xs.map Atom.var).map (P.arr (val t))).map (fun x => (x.shape.getD d 0, x.val))) k = some (val t z k) := h7
    rw [List.map_map] at h8
    have h9 := y4 (val t)
    have h10 : some (val t z k) = some (val t y.1 y.2) := by rw [← h8, ← h9]; rfl
    exact Option.some.inj h10
  have hd : DifferentiableAt ℝ (fun t => val t y.1 y.2) x₀ := by
    rcases hi (.var y.1) (List.mem_map.2 ⟨y.1, y3, rfl⟩) with ⟨v, h⟩ | ⟨y', h, h'⟩
    · cases h
    · rw [Atom.var.inj h] at y2 ⊢; exact h' _ y2
  obtain ⟨g1, g2⟩ := same_grad (u := (z, k)) hev hd
  exact ⟨y, y1, y2, y3, g1, g2⟩

/-- A primitive without inverse, at one index. -/
theorem AProg.Diff.other (H : P.Diff ax val x₀) {h : List FArr → List FArr} {ins : List (Atom FArr)} {ws : List Nat}
    (hq : (AOp.other h, ins, ws.map Atom.var) ∈ P.eqns) (hi : InsOk P val x₀ ins) {w : Nat} (hw : w ∈ ws) {k : List Nat}
    (hk : inBox (fullBox (P.shp w)) k) :
    DifferentiableAt ℝ (fun t => val t w k) x₀ ∧
      GD val x₀ (w, k) ∈ Submodule.span ℝ (GD val x₀ '' opsAt P.shp (.other h) ins k) := by
  obtain ⟨j, hj⟩ := List.mem_iff_getElem?.1 hw
  obtain ⟨m, s, u₀, φ, hs, hφ, hh⟩ := H.smooth _ hq j k
  have hs' : ∀ i, ∃ a ∈ ins, ins[(s i).1]? = some a ∧ inBox (fullBox (P.arr (val x₀) a).shape) (s i).2 ∧
      (P.arr (val x₀) a).val (s i).2 = some (u₀ i) := by
    intro i
    obtain ⟨b, h1, h2, h3⟩ := hs i
    rw [List.getElem?_map, Option.map_eq_some_iff] at h1
    obtain ⟨a, h4, rfl⟩ := h1
    exact ⟨a, List.mem_of_getElem? h4, h4, h2, h3⟩
  choose a ha1 ha2 ha3 ha4 using hs'
  let u : (Fin n → ℝ) → Fin m → ℝ := fun t i => ent (val t) (s i).2 (a i)
  have hu : ∀ t i, (P.arr (val t) (a i)).val (s i).2 = some (u t i) := fun t i => ent_arr P val x₀ _ _ _ (ha4 i) t
  have hu0 : u x₀ = u₀ := by
    funext i
    have := hu x₀ i
    rw [ha4 i] at this
    exact (Option.some.inj this).symm
  have hud : ∀ i, DifferentiableAt ℝ (fun t => u t i) x₀ ∧
      grad (fun t => u t i) x₀ = DK (GD val x₀) (s i).2 (a i) :=
    fun i => ent_grad val x₀ (a i) (s i).2 (hi.at (ha1 i) (ha3 i))
  have hucont : ContinuousAt u x₀ := continuousAt_pi.2 fun i => (hud i).1.continuousAt
  have hev : (fun t => val t w k) =ᶠ[𝓝 x₀] fun t => φ (u t) := by
    have hh' := hucont.eventually (p := fun u => ∀ ys : List FArr,
        ys.map (·.shape) = (ins.map (P.arr (val x₀))).map (·.shape) →
        (∀ i, ∃ a, ys[(s i).1]? = some a ∧ a.val (s i).2 = some (u i)) →
        ∀ b, (h ys)[j]? = some b → inBox (fullBox b.shape) k → b.val k = some (φ u)) (by rw [hu0]; exact hh)
    filter_upwards [H.exec, hh'] with t ht hφt
    have h5 : List.Forall₂ FArr.Same (h (ins.map (P.arr (val t)))) ((ws.map Atom.var).map (P.arr (val t))) := ht.eqns _ hq
    obtain ⟨b, hb1, hb2⟩ : ∃ b, (h (ins.map (P.arr (val t))))[j]? = some b ∧ FArr.Same b (P.arr (val t) (.var w)) := by
      have h6 : ((ws.map Atom.var).map (P.arr (val t)))[j]? = some (P.arr (val t) (.var w)) := by
        rw [List.getElem?_map, List.getElem?_map, hj]; rfl
      obtain ⟨hlt, h7⟩ := List.getElem?_eq_some_iff.1 h6
      have hlen := h5.length_eq
      have hlt' : j < (h (ins.map (P.arr (val t)))).length := by omega
      refine ⟨_, List.getElem?_eq_getElem hlt', ?_⟩
      have h8 := h5.get hlt' hlt
      simp only [List.get_eq_getElem] at h8
      rw [h7] at h8
      exact h8
    have hk' : inBox (fullBox b.shape) k := by rw [hb2.1]; exact hk
    have h9 := hφt (ins.map (P.arr (val t))) (by
      rw [List.map_map, List.map_map]
      exact List.map_congr_left fun a _ => arr_shape P _ _ a) (fun i => ⟨P.arr (val t) (a i), by
        rw [List.getElem?_map, ha2 i]; rfl, hu t i⟩) b hb1 hk'
    have h10 := hb2.2 k hk'
    rw [h9] at h10
    exact (Option.some.inj h10).symm
  obtain ⟨h3, h4⟩ := grad_compk (u := u) (φ := φ) (fun i => (hud i).1) (by rw [hu0]; exact hφ)
  refine ⟨h3.congr_of_eventuallyEq hev, ?_⟩
  have : GD val x₀ (w, k) = grad (fun t => φ (u t)) x₀ := grad_congr hev
  rw [this]
  refine (Submodule.span_le.2 ?_) h4
  rintro _ ⟨i, rfl⟩
  simp only [(hud i).2, SetLike.mem_coe]
  refine DK_span _ _ _ _ fun y hy => ?_
  rcases hi _ (ha1 i) with ⟨v, hv⟩ | ⟨y', hy', -⟩
  · rw [hv] at hy; simp [Atom.node] at hy
  · rw [hy'] at hy
    simp only [Atom.node, Option.some.injEq] at hy
    subst hy
    have h5 := ha1 i
    have h6 := ha3 i
    rw [hy'] at h5 h6
    exact ⟨h5, h6⟩

/-- The results of any equation, at one index. -/
theorem AProg.Diff.eqnAt (H : P.Diff ax val x₀) {e : Nat} {q} (he : P.eqns[e]? = some q) (hi : InsOk P val x₀ q.2.1)
    {w : Nat} (hw : Atom.var w ∈ q.2.2) {k : List Nat} (hk : inBox (fullBox (P.shp w)) k) :
    DifferentiableAt ℝ (fun t => val t w k) x₀ ∧
      GD val x₀ (w, k) ∈ Submodule.span ℝ (GD val x₀ '' opsAt P.shp q.1 q.2.1 k) := by
  have hq : q ∈ P.eqns := List.mem_of_getElem? he
  obtain ⟨ws, hws, -⟩ := H.outs he
  obtain ⟨op, ins, outs⟩ := q
  simp only at hws hw hi ⊢
  subst hws
  have hwm : w ∈ ws := by
    obtain ⟨y, hy, hyw⟩ := List.mem_map.1 hw
    obtain rfl := Atom.var.inj hyw; exact hy
  have hty := H.typed.eqns _ hq
  have hcut := H.cut _ hq
  cases op with
  | un p =>
    obtain ⟨s, h1, h2⟩ := typed_un hty
    obtain ⟨a, rfl, -⟩ := map_one h1
    obtain ⟨z, rfl, -⟩ := vars_one h2
    simp only [List.mem_singleton] at hwm; subst hwm
    obtain ⟨-, -, g1, f', g2, -⟩ := H.un hq hi hk
    refine ⟨g1, ?_⟩
    rw [g2]
    refine Submodule.smul_mem _ _ (DK_span _ _ _ _ fun y hy => ⟨?_, rfl⟩)
    rcases hi a (by simp) with ⟨v, rfl⟩ | ⟨y', rfl, -⟩
    · simp [Atom.node] at hy
    · simp [Atom.node] at hy; subst hy; simp
  | bin p =>
    obtain ⟨s, h1, h2⟩ := typed_bin hty
    obtain ⟨a, b, rfl, -⟩ := map_two h1
    obtain ⟨z, rfl, -⟩ := vars_one h2
    simp only [List.mem_singleton] at hwm; subst hwm
    obtain ⟨-, -, -, -, g1, α, β, g2, -⟩ := H.bin hq hi hk
    refine ⟨g1, ?_⟩
    rw [g2]
    refine Submodule.add_mem _ (Submodule.smul_mem _ _ (DK_span _ _ _ _ fun y hy => ⟨?_, rfl⟩))
      (Submodule.smul_mem _ _ (DK_span _ _ _ _ fun y hy => ⟨?_, rfl⟩))
    · rcases hi a (by simp) with ⟨v, rfl⟩ | ⟨y', rfl, -⟩
      · simp [Atom.node] at hy
      · simp [Atom.node] at hy; subst hy; simp
    · rcases hi b (by simp) with ⟨v, rfl⟩ | ⟨y', rfl, -⟩
      · simp [Atom.node] at hy
      · simp [Atom.node] at hy; subst hy; simp
  | slice st li =>
    obtain ⟨y, s, h1, -, -⟩ := hcut
    simp only at h1; subst h1
    obtain ⟨-, -, h2⟩ := hty
    obtain ⟨z, rfl, -⟩ := vars_one h2
    simp only [List.mem_singleton] at hwm; subst hwm
    obtain ⟨-, -, -, -, g1, g2⟩ := H.slice hq hi hk
    refine ⟨g1, ?_⟩
    rw [g2]
    exact Submodule.subset_span ⟨(y, shift st k), ⟨by simp, rfl⟩, rfl⟩
  | cat d =>
    obtain ⟨xs, h1, -⟩ := hcut
    simp only at h1; subst h1
    have h2 : ∃ s, (ws.map Atom.var).map (fun a => (P.arr (val x₀) a).shape) = [s] := by
      obtain _ | ⟨x, xs⟩ := xs
      · exact absurd hty id
      · exact ⟨_, hty.2.2⟩
    obtain ⟨s, h2⟩ := h2
    obtain ⟨z, rfl, -⟩ := vars_one h2
    simp only [List.mem_singleton] at hwm; subst hwm
    obtain ⟨y, y1, -, -, g1, g2⟩ := H.cat hq hi hk
    refine ⟨g1, ?_⟩
    rw [g2]
    exact Submodule.subset_span ⟨y, by show y ∈ catAt _ _ _ _; rw [y1]; rfl, rfl⟩
  | other h => exact H.other hq hi hwm hk
  | reshape t => exact absurd hcut id
  | tie => exact absurd hcut id
  | sow => exact absurd hcut id

end Verif.Inverse
