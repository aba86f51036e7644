import Verif.Inverse.ArrRun

/-! C72: the ILDJ of a program on arrays is minus the log of the absolute determinant of its Jacobian. -/
namespace Verif.Inverse

open Verif.Propagate Filter Topology

variable {n : Nat} {P : AProg} {ax : Nat → Nat} {val : (Fin n → ℝ) → Nat → List Nat → ℝ} {x₀ : Fin n → ℝ}
variable {jn : ACell → ACell → ACell}

/-- All entries of the arrays `xs`, array by array, each in row-major order. -/
def AProg.entries (P : AProg) (xs : List Nat) : List (Nat × List Nat) :=
  xs.flatMap (fun x => (NN.indices (P.shp x)).map (fun k => (x, k)))

/-- A program whose outputs have together as many entries as its inputs: `inp` lists the entries of the inputs, `out`
those of the outputs.  The inputs are distinct variables and no constants; the outputs are distinct variables that are
inputs, constants, or defined by the program. -/
structure AProg.Square (P : AProg) (inp out : Fin n → Nat × List Nat) : Prop where
  ins : P.entries P.invars = List.ofFn inp
  nodup : P.invars.Nodup
  notconst : ∀ x ∈ P.invars, x ∉ P.consts.map Prod.fst
  outs : ∃ os : List Nat, P.outvars = os.map Atom.var ∧ os.Nodup ∧ P.entries os = List.ofFn out ∧
    ∀ x ∈ os, x ∈ P.consts.map Prod.fst ++ P.invars ∨ ∃ q ∈ P.eqns, Atom.var x ∈ q.2.2

theorem mem_entries {xs : List Nat} {u : Nat × List Nat} :
    u ∈ P.entries xs ↔ u.1 ∈ xs ∧ inBox (fullBox (P.shp u.1)) u.2 := by
  unfold AProg.entries
  rw [List.mem_flatMap]
  constructor
  · rintro ⟨x, hx, hu⟩
    obtain ⟨k, hk, rfl⟩ := List.mem_map.1 hu
    exact ⟨hx, mem_indices_box.1 hk⟩
  · rintro ⟨h1, h2⟩
    exact ⟨u.1, h1, List.mem_map.2 ⟨u.2, mem_indices_box.2 h2, rfl⟩⟩

theorem entries_nodup {xs : List Nat} (h : xs.Nodup) : (P.entries xs).Nodup := by
  unfold AProg.entries
  rw [List.nodup_flatMap]
  refine ⟨fun x _ => List.Nodup.map (fun a b h => (Prod.mk.inj h).2) (indices_nodup _), ?_⟩
  refine h.imp ?_
  intro a b hab u h1 h2
  obtain ⟨k, -, rfl⟩ := List.mem_map.1 h1
  obtain ⟨k', -, h3⟩ := List.mem_map.1 h2
  exact hab (Prod.mk.inj h3).1.symm

theorem foldl_addF_some (l : List F) (a L : ℝ) (h : l.foldl addF (some a) = some L) :
    ∃ ls : List ℝ, l = ls.map some ∧ L = a + ls.sum := by
  have hnone : ∀ l : List F, l.foldl addF none = none := by
    intro l
    induction l with
    | nil => rfl
    | cons p l ih => simpa [addF] using ih
  induction l generalizing a with
  | nil => simp at h; exact ⟨[], rfl, by simp [h]⟩
  | cons p l ih =>
    rcases p with _ | b
    · have h' : l.foldl addF none = some L := h
      rw [hnone] at h'; cases h'
    · have h' : l.foldl addF (some (a + b)) = some L := h
      obtain ⟨ls, h1, h2⟩ := ih _ h'
      exact ⟨b :: ls, by simp [h1], by rw [h2, List.sum_cons]; ring⟩

/-- The ILDJs that are summed. -/
theorem ildjs_eq (hA : ∀ x, Axis (P.shp x) (ax x)) {env : Env ACell} (hb : Basic P ax env) (xs : List Nat)
    (res : List (List Nat → F × F)) (h : (xs.map env).mapM topVal = some res) :
    ((List.zipWith (fun x v => ((NN.indices (P.shp x)).map (fun k => (v k).2))) xs res).flatten).map some =
      (P.entries xs).map (Lk env) := by
  induction xs generalizing res with
  | nil => simp at h; subst h; rfl
  | cons x xs ih =>
    simp only [List.map_cons, List.mapM_cons, Option.bind_eq_bind, Option.bind_eq_some_iff, Option.pure_def,
      Option.some.injEq] at h
    obtain ⟨v, hv1, vs, hv2, rfl⟩ := h
    have e : P.entries (x :: xs) = (NN.indices (P.shp x)).map (fun k => (x, k)) ++ P.entries xs := rfl
    rw [e, List.zipWith_cons_cons, List.flatten_cons, List.map_append, List.map_append, ih vs hv2]
    congr 1
    rw [List.map_map, List.map_map]
    refine List.map_congr_left fun k hk => ?_
    exact (Lk_top hA hb hv1 (mem_indices_box.1 hk)).symm

/-- **C72**, ILDJ, partial.  `P` is a program on arrays over the registered elementwise and binary primitives, `slice`,
`concatenate` and differentiable primitives without inverse, with any shapes, any sharing of variables and as many
output entries as input entries; `val t` is its execution when the entries of the inputs are `t`, for `t` near `x₀`; at
`x₀` the operations are on the branches of the registered inverses and differentiable.  If a run of `inverse_and_ildj`
on the outputs for `x₀`, in any order of propagation and whatever order the sets of slices are iterated in, returns a
number `L` for the sum of the ILDJs, then the Jacobian of `P` at `x₀` is invertible and `L` is minus the log of its
absolute determinant.  Partial: every array is sliced along one axis only (`AOp.Cut`), arrays are not empty, the operands
of a `concatenate` are distinct variables, `reshape`, `convert_element_type`, `tie_all` and `sow` do not occur, and
nothing is claimed where the code returns nan. -/
theorem C72_ildj_partial (hj : ∀ a b, Joins a b (jn a b)) (P : AProg) (inp out : Fin n → Nat × List Nat)
    (hS : P.Square inp out) (ax : Nat → Nat) (val : (Fin n → ℝ) → Nat → List Nat → ℝ) (x₀ : Fin n → ℝ)
    (hval : ∀ t i, val t (inp i).1 (inp i).2 = t i) (H : P.Diff ax val x₀) (res : List (List Nat → F × F))
    (h : ArrayRun jn P (P.outvars.map (P.arr (val x₀))) (some res)) (L : ℝ) (hL : reduceA P res = some L) :
    ∃ f' : (Fin n → ℝ) →L[ℝ] (Fin n → ℝ), HasFDerivAt (fun t i => val t (out i).1 (out i).2) f' x₀ ∧ f'.det ≠ 0 ∧
      L = - Real.log |f'.det| := by
  obtain ⟨s0, s, h0, hs, -, hres⟩ := h
  obtain ⟨os, ho1, ho2, ho3, ho4⟩ := hS.outs
  have hex0 : P.Executes (val x₀) := H.exec.self_of_nhds
  have htrue : ∀ t, Steps (aOps jn P.shp) (P.jaxpr jn) s0 t → TrueEnv P (val x₀) t.env := fun t ht =>
    array_true hj P (val x₀) hex0 H.typed H.ok s0 t h0 ht
  have hcell := init_cells hj P (val x₀) os ho1 hex0 s0 h0
  have hg0 : GoodEnv P ax s0.env := by
    intro x
    by_cases hx : x ∈ os ∨ x ∈ P.consts.map Prod.fst
    · obtain ⟨f, hf⟩ := (hcell x).1 hx
      rw [hf]
      exact good_one (H.axis x) (new_slab (H.axis x) _)
    · rw [(hcell x).2 hx]
      exact good_bottom _ _ (fun _ => (none, none))
  have hb0 : Basic P ax s0.env := fun x => (hg0 x).slabs
  have hL0 : ∀ u, Lk s0.env u ≠ none → (u.1 ∈ os ∨ u.1 ∈ P.consts.map Prod.fst) ∧ inBox (fullBox (P.shp u.1)) u.2 := by
    intro u hu
    refine ⟨?_, hb0.box H.axis hu⟩
    by_contra hx
    have := Lk_ne.1 hu
    rw [(hcell u.1).2 hx] at this
    obtain ⟨m, hm, -⟩ := this
    simp at hm
  have hout_inj : Function.Injective out := List.nodup_ofFn.1 (by rw [← ho3]; exact entries_nodup ho2)
  have hinp_inj : Function.Injective inp := List.nodup_ofFn.1 (by rw [← hS.ins]; exact entries_nodup hS.nodup)
  have hout : ∀ i, (out i).1 ∈ os ∧ inBox (fullBox (P.shp (out i).1)) (out i).2 := fun i =>
    mem_entries.1 (by rw [ho3]; exact List.mem_ofFn.2 ⟨i, rfl⟩)
  have hinp : ∀ i, (inp i).1 ∈ P.invars ∧ inBox (fullBox (P.shp (inp i).1)) (inp i).2 := fun i =>
    mem_entries.1 (by rw [hS.ins]; exact List.mem_ofFn.2 ⟨i, rfl⟩)
  let Arg : Nat × List Nat → Prop := fun u => u.1 ∈ P.consts.map Prod.fst ∧ inBox (fullBox (P.shp u.1)) u.2
  have hnoeqn : ∀ u : Nat × List Nat, u.1 ∈ P.consts.map Prod.fst ++ P.invars → H.lay.eqn u = none := fun u hu =>
    eqnOf_none u fun e q he hx => H.ssa.notin he hx hu
  have harg : ∀ u, Arg u → H.lay.eqn u = none := fun u hu => hnoeqn u (List.mem_append.2 (.inl hu.1))
  have hk0 : ∀ i, Lk s0.env (out i) = some (some 0) := by
    intro i
    obtain ⟨f, hf⟩ := (hcell (out i).1).1 (.inl (hout i).1)
    have h1 : topVal (s0.env (out i).1) = some (fun k => (f k, some 0)) := by rw [hf]; exact topVal_new _ _
    exact Lk_top H.axis hb0 h1 (hout i).2
  have ha0 : ∀ u, Lk s0.env u ≠ none → (∀ i, out i ≠ u) → Arg u := by
    intro u hu hi
    obtain ⟨h1, h2⟩ := hL0 u hu
    refine ⟨h1.resolve_left fun h3 => ?_, h2⟩
    have h4 : u ∈ List.ofFn out := by rw [← ho3]; exact mem_entries.2 ⟨h3, h2⟩
    obtain ⟨i, hi'⟩ := List.mem_ofFn.1 h4
    exact hi i hi'
  obtain ⟨i1, i2⟩ := aslots_init H.lay Arg (Lk s0.env) out hout_inj hk0 ha0 (fun u hu => (H.const hu.1 hu.2).2)
  -- the invariant
  have hinv : ∀ t, Steps (aOps jn P.shp) (P.jaxpr jn) s0 t →
      RunInv H Arg |(Matrix.of fun i => GD val x₀ (out i)).det| t.env t.queue := by
    intro t ht
    induction ht with
    | refl =>
      refine ⟨hb0, out, i1, .inr ⟨i2, hg0, ?_, h0.2.1.1⟩⟩
      intro u e q hu hi he _
      have := harg u (ha0 u hu hi)
      have h3 : eqnOf P u = none := this
      rw [h3] at he; cases he
    | tail t u h1 h2 ih => exact runInv_step hj H Arg harg _ t u (htrue t h1) ih h2
  obtain ⟨hb, sl, hsl, hrest⟩ := hinv s hs
  -- the result
  have hmap := ildjs_eq H.axis hb P.invars res hres.symm
  obtain ⟨ls, hls, rfl⟩ := foldl_addF_some _ _ _ hL
  rw [hls, hS.ins, List.map_ofFn] at hmap
  have hlsl : ls.length = n := by
    have := congrArg List.length hmap
    simpa using this
  have hend : ∀ i : Fin n, Lk s.env (inp i) = some (some (ls[i.1]'(by omega))) := by
    intro i
    have h1 : ((ls.map some).map some)[i.1]? = (List.ofFn (Lk s.env ∘ inp))[i.1]? := by rw [hmap]
    simp only [List.getElem?_map, List.getElem?_eq_getElem (by omega : i.1 < ls.length), Option.map_some,
      List.getElem?_ofFn, i.2, dif_pos, Function.comp, Option.some.injEq] at h1
    exact h1.symm
  have hgrad : ∀ i, GD val x₀ (inp i) = Pi.single i 1 := by
    intro i
    funext j
    simp only [GD, hval, grad]
    have : fderiv ℝ (fun x : Fin n → ℝ => x i) x₀ = ContinuousLinearMap.proj i :=
      (ContinuousLinearMap.proj (R := ℝ) (φ := fun _ : Fin n => ℝ) i).fderiv
    rw [this]
    simp [Pi.single_apply, eq_comm]
  have hmain := aslots_final H.lay Arg _ (Lk s.env) sl hsl (hrest.symm.imp (fun h => h.1) id) inp hinp_inj
    (fun i => hnoeqn _ (List.mem_append.2 (.inr (hinp i).1))) (fun i hi => hS.notconst _ (hinp i).1 hi.1) hgrad _ hend
  have hdiff : ∀ i, DifferentiableAt ℝ (fun t => val t (out i).1 (out i).2) x₀ := by
    intro i
    obtain ⟨o1, o2⟩ := hout i
    rcases ho4 _ o1 with h1 | ⟨q, hq, hm⟩
    · rcases List.mem_append.1 h1 with h1 | h1
      · exact (H.const h1 o2).1
      · exact H.base _ h1 _ o2
    · obtain ⟨e, he⟩ := List.mem_iff_getElem?.1 hq
      exact H.diff e q he _ hm _ o2
  obtain ⟨hf1, hf2⟩ := jacobian_det (fun t i => val t (out i).1 (out i).2) x₀ hdiff
  have hf2' : (fderiv ℝ (fun t i => val t (out i).1 (out i).2) x₀).det = (Matrix.of fun i => GD val x₀ (out i)).det := hf2
  refine ⟨_, hf1, ?_, ?_⟩
  · rw [hf2']
    intro h0
    rw [h0, abs_zero] at hmain
    exact (Real.exp_pos _).ne' hmain.symm
  · rw [hf2', hmain, Real.log_exp, neg_neg, zero_add]
    have : ls = List.ofFn (fun i : Fin n => ls[i.1]'(by omega)) := by
      apply List.ext_getElem
      · simp [hlsl]
      · intro j h1 h2; simp
    conv_lhs => rw [this]
    rw [List.sum_ofFn]

end Verif.Inverse
