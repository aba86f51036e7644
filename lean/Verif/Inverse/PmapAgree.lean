import Verif.Inverse.PmapSim

/-!
# C73: `inverse(pmap(f))` returns exactly when the inverse of `f` does
-/
namespace Verif.Inverse.Mapped

open Verif.Propagate

/-! ### Structure of the cells of lanes -/

theorem foldl_setAdd_map {V W : Type} (f : V → W) (l acc : List (ND V)) :
    (l.foldl setAdd acc).map (ND.map f) = (l.map (ND.map f)).foldl setAdd (acc.map (ND.map f)) := by
  induction l generalizing acc with
  | nil => rfl
  | cons n l ih => simp only [List.foldl_cons, List.map_cons, ih, setAdd_map]

theorem Sim.slices {c d : ACell} (h : Sim c d) : c.slices.map (ND.map (fun _ => ())) = d.slices.map (ND.map (fun _ => ())) :=
  congrArg (fun x : Cell Unit => x.slices) (show erase c = erase d from h)

theorem sim_of {c d : ACell} (h1 : c.aval = d.aval)
    (h2 : c.slices.map (ND.map (fun _ => ())) = d.slices.map (ND.map (fun _ => ()))) : Sim c d := by
  show (⟨c.aval, _⟩ : Cell Unit) = ⟨d.aval, _⟩
  rw [h1, h2]

theorem sim_map_slices {c d : ACell} (h : Sim c d) (g : Nat → ND (F × F) → ND (F × F)) (l l' : Nat)
    (hg : ∀ m m' : ND (F × F), m.slices = m'.slices → m.shape = m'.shape →
      (g l m).map (fun _ => ()) = (g l' m').map (fun _ => ())) :
    (c.slices.map (g l)).map (ND.map (fun _ => ())) = (d.slices.map (g l')).map (ND.map (fun _ => ())) := by
  have h2 := h.slices
  generalize c.slices = A at h2 ⊢
  generalize d.slices = B at h2 ⊢
  induction A generalizing B with
  | nil => cases B with
    | nil => rfl
    | cons => simp at h2
  | cons m A ih => cases B with
    | nil => simp at h2
    | cons m' B =>
      simp only [List.map_cons, List.cons.injEq] at h2 ⊢
      have h3 : m.slices = m'.slices ∧ m.shape = m'.shape := by
        have := h2.1
        simp only [ND.map, ND.mk.injEq, and_true] at this
        exact this
      exact ⟨hg m m' h3.1 h3.2, ih B h2.2⟩

theorem sim_remove {c d : ACell} (h : Sim c d) : Sim (remove c) (remove d) := by
  refine sim_of (by simp only [remove, h.aval]) ?_
  simp only [remove, foldl_setAdd_map, List.map_nil]
  rw [sim_map_slices h (fun _ m => ⟨m.slices.tail, m.shape, m.val⟩) 0 0 ?_]
  intro m m' h1 h2
  simp only [ND.map, h1, h2]

theorem sim_cut {c d : ACell} (h : Sim c d) (l l' : Nat) : Sim (cut l c) (cut l' d) := by
  refine sim_of h.aval (sim_map_slices h (fun l m => ⟨m.slices, m.shape.tail, fun k => m.val (l :: k)⟩) l l' ?_)
  intro m m' h1 h2
  simp only [ND.map, h1, h2]

theorem Sim.mem {c d : ACell} (h : Sim c d) {m : ND (F × F)} (hm : m ∈ d.slices) :
    ∃ m' ∈ c.slices, m'.slices = m.slices ∧ m'.shape = m.shape := by
  have : m.map (fun _ => ()) ∈ c.slices.map (ND.map (fun _ => ())) := by
    rw [h.slices]; exact List.mem_map.2 ⟨m, hm, rfl⟩
  obtain ⟨m', hm', he⟩ := List.mem_map.1 this
  simp only [ND.map, ND.mk.injEq, and_true] at he
  exact ⟨m', hm', he⟩

theorem Sim.fits {c d : ACell} (h : Sim c d) {n : Nat} (hf : Fits n c) : Fits n d := by
  intro m hm
  obtain ⟨m', hm', -, h2⟩ := h.mem hm
  rw [← h2]; exact hf m' hm'

theorem sim_of_cut {c d : ACell} {n : Nat} (hc : Fits n c) (hd : Fits n d) (l : Nat) (h : Sim (cut l c) (cut l d)) :
    Sim c d := by
  refine sim_of h.aval ?_
  have h2 := h.slices
  simp only [cut] at h2
  unfold Fits at hc hd
  generalize c.slices = A at h2 hc ⊢
  generalize d.slices = B at h2 hd ⊢
  induction A generalizing B with
  | nil => cases B with
    | nil => rfl
    | cons => simp at h2
  | cons m A ih => cases B with
    | nil => simp at h2
    | cons m' B =>
      simp only [List.map_cons, List.cons.injEq] at h2 ⊢
      refine ⟨?_, ih (fun x hx => hc x (List.mem_cons_of_mem _ hx)) B h2.2 (fun x hx => hd x (List.mem_cons_of_mem _ hx))⟩
      have h3 := h2.1
      have e1 := hc m List.mem_cons_self
      have e2 := hd m' List.mem_cons_self
      simp only [ND.map, ND.mk.injEq, and_true] at h3 ⊢
      refine ⟨h3.1, ?_⟩
      rw [← List.cons_head?_tail e1, ← List.cons_head?_tail e2, h3.2]

theorem sim_add {a a' c d : ACell} (ha : a.aval = a'.aval) (h : Sim c d) : Sim (addSlice a c) (addSlice a' d) := by
  refine sim_of ha ?_
  simp only [addSlice, ha]
  refine sim_map_slices h (fun _ m => ⟨(0, a'.aval.headD 0) :: m.slices, m.shape, m.val⟩) 0 0 ?_
  intro m m' h1 h2
  simp only [ND.map, h1, h2]

theorem forall₂_sim_map {l l' : List ACell} (h : List.Forall₂ Sim l l') (g g' : ACell → ACell)
    (hg : ∀ c d, Sim c d → Sim (g c) (g' d)) : List.Forall₂ Sim (l.map g) (l'.map g') := by
  induction h with
  | nil => exact .nil
  | cons h _ ih => exact .cons (hg _ _ h) ih

theorem forall₂_sim_refl (l : List ACell) : List.Forall₂ Sim l l := by
  induction l with
  | nil => exact .nil
  | cons c l ih => exact .cons rfl ih

theorem forall₂_sim_symm {l l' : List ACell} (h : List.Forall₂ Sim l l') : List.Forall₂ Sim l' l := by
  induction h with
  | nil => exact .nil
  | cons h _ ih => exact .cons h.symm ih

theorem forall₂_sim_trans {l l' l'' : List ACell} (h : List.Forall₂ Sim l l') (h' : List.Forall₂ Sim l' l'') :
    List.Forall₂ Sim l l'' := by
  induction h generalizing l'' with
  | nil => exact h'
  | cons h _ ih => cases h' with | cons h1 h2 => exact .cons (h.trans h1) (ih h2)

/-- The lanes of cells with the shapes of the operands of the `pmap`. -/
theorem lane_avals {n : Nat} {shp : Nat → List Nat} {as : List (Atom FArr)} {cs : List ACell}
    (h : cs.map (·.aval) = as.map (fun a => n :: shpOf shp a)) (l : Nat) :
    ((cs.map remove).map (cut l)).map (·.aval) = as.map (shpOf shp) := by
  have := congrArg (List.map List.tail) h
  simp only [List.map_map, Function.comp_def, List.tail_cons] at this
  rw [← this, List.map_map, List.map_map]
  rfl

/-- From runs on all lanes with results of the same structure: a result of the `pmap`. -/
theorem pmap_of_lanes {jn : ACell → ACell → ACell} {n : Nat} (_hn : 0 < n) {shp : Nat → List Nat}
    {J : Jaxpr ACell FArr Bool} {i o : List ACell} (hi : i.map (·.aval) = J.invars.map (fun a => n :: shpOf shp a))
    (ho : o.map (·.aval) = J.outvars.map (fun a => n :: shpOf shp a)) (hf : ∀ c ∈ i ++ o, Fits n (remove c))
    (s : Nat → St ACell Bool) (hs : ∀ l, CompletesA jn shp J ((i.map remove).map (cut l)) ((o.map remove).map (cut l)) (s l))
    (he : ∀ l, SimEnv (s 0).env (s l).env) :
    ∃ ri ro : List ACell, (∀ c ∈ ri ++ ro, Fits n c) ∧
      (∀ l, ri.map (cut l) = J.invars.map (Propagate.read (aOps jn shp) (s l).env) ∧
        ro.map (cut l) = J.outvars.map (Propagate.read (aOps jn shp) (s l).env)) ∧
      PmapResult jn n shp J i o (List.zipWith addSlice i ri, List.zipWith addSlice o ro, false) := by
  have key : ∀ as : List (Atom FArr), ∃ rs : List ACell, rs.length = as.length ∧ (∀ r ∈ rs, Fits n r) ∧
      ∀ l, rs.map (cut l) = as.map (Propagate.read (aOps jn shp) (s l).env) := by
    intro as
    obtain ⟨rs, h1, h2, h3⟩ := stack_list n as.length (fun l j => Propagate.read (aOps jn shp) (s l).env (as.getD j (.drop 0)))
      (fun j l => by
        cases as.getD j (.drop 0) with
        | lit v => rfl
        | var x => exact he l x
        | drop x => exact he l x)
    refine ⟨rs, h1, h2, fun l => ?_⟩
    rw [h3 l]
    refine List.ext_getElem (by simp) fun j hj hj' => ?_
    simp only [List.length_map, List.length_range] at hj
    simp [List.getD_eq_getElem?_getD, List.getElem?_eq_getElem hj]
  obtain ⟨ri, li, fi, ei⟩ := key J.invars
  obtain ⟨ro, lo, fo, eo⟩ := key J.outvars
  have hfr : ∀ c ∈ ri ++ ro, Fits n c := by
    intro c hc
    rcases List.mem_append.1 hc with h | h
    · exact fi c h
    · exact fo c h
  have l1 : i.length = J.invars.length := by simpa using congrArg List.length hi
  have l2 : o.length = J.outvars.length := by simpa using congrArg List.length ho
  refine ⟨ri, ro, hfr, fun l => ⟨ei l, eo l⟩, hf, ri, ro, hfr, fun l _ => ⟨s l, hs l, ei l, eo l⟩, ?_, rfl⟩
  refine forall₂_get' (by simp [l1, l2, li, lo]) fun k a b ha _ h0 => ?_
  exfalso
  have hm := List.mem_of_getElem? ha
  have hm' : a.aval ∈ (i ++ o).map (·.aval) := List.mem_map.2 ⟨a, hm, rfl⟩
  rw [List.map_append, hi, ho, ← List.map_append] at hm'
  obtain ⟨x, -, hx⟩ := List.mem_map.1 hm'
  rw [h0] at hx
  simp at hx

section
variable {jn : ACell → ACell → ACell} (hj : ∀ a b, Joins a b (jn a b)) (hu : UniformJoin jn)
include hj hu

/-- If the mapped function can be propagated on one lane, the `pmap` has a result. -/
theorem pmap_of_lane {n : Nat} (hn : 0 < n) {shp : Nat → List Nat} {J : Jaxpr ACell FArr Bool} (hJ : Good shp J)
    {i o : List ACell} (hi : i.map (·.aval) = J.invars.map (fun a => n :: shpOf shp a))
    (ho : o.map (·.aval) = J.outvars.map (fun a => n :: shpOf shp a)) (hf : ∀ c ∈ i ++ o, Fits n (remove c))
    (t : St ACell Bool) (ht : CompletesA jn shp J ((i.map remove).map (cut 0)) ((o.map remove).map (cut 0)) t) :
    ∃ r, PmapResult jn n shp J i o r := by
  have hex : ∀ l, ∃ s, CompletesA jn shp J ((i.map remove).map (cut l)) ((o.map remove).map (cut l)) s ∧ SimEnv t.env s.env := by
    intro l
    refine completes_sim hu hj J hJ ?_ ?_ (lane_avals hi 0) (lane_avals ho 0) t ht
    · exact forall₂_sim_map (forall₂_sim_refl _) _ _ fun c d h => sim_cut h 0 l
    · exact forall₂_sim_map (forall₂_sim_refl _) _ _ fun c d h => sim_cut h 0 l
  choose s h1 h2 using hex
  obtain ⟨ri, ro, -, -, h⟩ := pmap_of_lanes hn hi ho hf s h1 fun l x => (h2 0 x).symm.trans (h2 l x)
  exact ⟨_, h⟩

/-- Results carry over to cells of the same structure. -/
def Transfer (si so : List (List Nat)) (Res : List ACell → List ACell → List ACell × List ACell × Bool → Prop) : Prop :=
  ∀ i i' o o' r, List.Forall₂ Sim i i' → List.Forall₂ Sim o o' → i.map (·.aval) = si → o.map (·.aval) = so → Res i o r →
    ∃ r', Res i' o' r' ∧ List.Forall₂ Sim r.1 r'.1 ∧ List.Forall₂ Sim r.2.1 r'.2.1

theorem call_transfer {shp : Nat → List Nat} {J : Jaxpr ACell FArr Bool} (hJ : Good shp J) :
    Transfer (J.invars.map (shpOf shp)) (J.outvars.map (shpOf shp)) (CallResult jn shp J) := by
  rintro i i' o o' r hi ho hai hao ⟨s, hs, rfl⟩
  obtain ⟨s', h1, h2⟩ := completes_sim hu hj J hJ hi ho hai hao s hs
  exact ⟨_, ⟨s', h1, rfl⟩, read_sim _ h2, read_sim _ h2⟩

theorem pmap_transfer {n : Nat} (hn : 0 < n) {shp : Nat → List Nat} {J : Jaxpr ACell FArr Bool} (hJ : Good shp J) :
    Transfer (J.invars.map (fun a => n :: shpOf shp a)) (J.outvars.map (fun a => n :: shpOf shp a))
      (PmapResult jn n shp J) := by
  rintro i i' o o' r hi ho hai hao ⟨hf, ri, ro, hfr, hl, -, rfl⟩
  have hai' := (sim_avals hi).symm.trans hai
  have hao' := (sim_avals ho).symm.trans hao
  have hf' : ∀ c ∈ i' ++ o', Fits n (remove c) := by
    intro c hc
    have hio := List.rel_append hi ho
    obtain ⟨k, hk⟩ := List.getElem?_of_mem hc
    have hlen : (i ++ o).length = (i' ++ o').length := hio.length_eq
    have hk1 := (List.getElem?_eq_some_iff.1 hk).1
    have hk2 : k < (i ++ o).length := by omega
    have hs := forall₂_at hio (List.getElem?_eq_getElem hk2) hk
    exact (sim_remove hs).fits (hf _ (List.getElem_mem hk2))
  obtain ⟨t, ht, e1, e2⟩ := hl 0 hn
  have hex : ∀ l, ∃ s, CompletesA jn shp J ((i'.map remove).map (cut l)) ((o'.map remove).map (cut l)) s ∧ SimEnv t.env s.env := by
    intro l
    refine completes_sim hu hj J hJ ?_ ?_ (lane_avals hai 0) (lane_avals hao 0) t ht
    · exact forall₂_sim_map (forall₂_sim_map hi _ _ fun c d h => sim_remove h) _ _ fun c d h => sim_cut h 0 l
    · exact forall₂_sim_map (forall₂_sim_map ho _ _ fun c d h => sim_remove h) _ _ fun c d h => sim_cut h 0 l
  choose s h1 h2 using hex
  obtain ⟨ri', ro', hfr', he', h⟩ := pmap_of_lanes hn hai' hao' hf' s h1 fun l x => (h2 0 x).symm.trans (h2 l x)
  have hback : ∀ (rs rs' : List ACell) (as : List (Atom FArr)), (∀ c ∈ rs, Fits n c) → (∀ c ∈ rs', Fits n c) →
      rs.map (cut 0) = as.map (Propagate.read (aOps jn shp) t.env) →
      rs'.map (cut 0) = as.map (Propagate.read (aOps jn shp) (s 0).env) → List.Forall₂ Sim rs rs' := by
    intro rs rs' as h3 h4 h5 h6
    have h7 := read_sim (jn := jn) (shp := shp) as (h2 0)
    rw [← h5, ← h6] at h7
    have hlen := h7.length_eq
    simp only [List.length_map] at hlen
    refine forall₂_get' hlen fun k a b ha hb => ?_
    exact sim_of_cut (h3 a (List.mem_of_getElem? ha)) (h4 b (List.mem_of_getElem? hb)) 0
      (forall₂_at h7 (by rw [List.getElem?_map, ha]; rfl) (by rw [List.getElem?_map, hb]; rfl))
  have hri := hback ri ri' J.invars (fun c hc => hfr c (List.mem_append_left _ hc)) (fun c hc => hfr' c (List.mem_append_left _ hc))
    e1 (he' 0).1
  have hro := hback ro ro' J.outvars (fun c hc => hfr c (List.mem_append_right _ hc)) (fun c hc => hfr' c (List.mem_append_right _ hc))
    e2 (he' 0).2
  have hzip : ∀ {a a' b b' : List ACell}, List.Forall₂ Sim a a' → List.Forall₂ Sim b b' →
      List.Forall₂ Sim (List.zipWith addSlice a b) (List.zipWith addSlice a' b') := by
    intro a a' b b' ha hb
    induction ha generalizing b b' with
    | nil => exact .nil
    | cons h3 _ ih =>
      cases hb with
      | nil => exact .nil
      | cons h4 h5 => exact .cons (sim_add h3.aval h4) (ih h5)
  exact ⟨_, h, hzip hi hri, hzip ho hro⟩

end

/-! ### Orders that do not look at entries -/

/-- The choices of the order of propagation do not depend on the entries of arrays (tracing sees only their shapes). -/
structure Orders.Uniform (σ : Orders) : Prop where
  call : ∀ id shp J, Good shp J → UniformRule (J.invars.map (shpOf shp)) (J.outvars.map (shpOf shp)) (σ.call id shp J)
  pmap : ∀ id n shp J, 0 < n → Good shp J →
    UniformRule (J.invars.map (fun a => n :: shpOf shp a)) (J.outvars.map (fun a => n :: shpOf shp a)) (σ.pmap id n shp J)

/-- Pairs of lists of cells of the same structure. -/
def simSetoid : Setoid (List ACell × List ACell) where
  r p q := List.Forall₂ Sim p.1 q.1 ∧ List.Forall₂ Sim p.2 q.2
  iseqv := ⟨fun _ => ⟨forall₂_sim_refl _, forall₂_sim_refl _⟩, fun h => ⟨forall₂_sim_symm h.1, forall₂_sim_symm h.2⟩,
    fun h h' => ⟨forall₂_sim_trans h.1 h'.1, forall₂_sim_trans h.2 h'.2⟩⟩

open Classical in
/-- A rule that chooses results uniformly. -/
theorem uniform_choice (Res : List ACell → List ACell → List ACell × List ACell × Bool → Prop) :
    ∃ rule : ARule, (∀ i o, Res i o (rule i o) ∨ (¬ ∃ r, Res i o r) ∧ rule i o = (i, o, true)) ∧
      ∀ si so, Transfer si so Res → UniformRule si so rule := by
  let base : Quotient simSetoid → Option (List ACell × List ACell × Bool) := fun q =>
    if h : ∃ r, Res q.out.1 q.out.2 r then some (Classical.choose h) else none
  let fb : ARule := fun i o => if h : ∃ r, Res i o r then Classical.choose h else (i, o, true)
  let near : List ACell → List ACell → List ACell × List ACell × Bool → Prop := fun i o r0 =>
    ∃ r, Res i o r ∧ List.Forall₂ Sim r0.1 r.1 ∧ List.Forall₂ Sim r0.2.1 r.2.1
  have fb_ok : ∀ i o, Res i o (fb i o) ∨ (¬ ∃ r, Res i o r) ∧ fb i o = (i, o, true) := by
    intro i o
    by_cases h : ∃ r, Res i o r
    · left; simp only [fb, dif_pos h]; exact Classical.choose_spec h
    · right; exact ⟨h, by simp only [fb, dif_neg h]⟩
  refine ⟨fun i o => match base (Quotient.mk simSetoid (i, o)) with
    | some r0 => if h : near i o r0 then Classical.choose h else fb i o
    | none => fb i o, ?_, ?_⟩
  · intro i o
    simp only
    split
    · rename_i r0 _
      split
      · rename_i h; left; exact (Classical.choose_spec h).1
      · exact fb_ok i o
    · exact fb_ok i o
  · intro si so ht i i' o o' hi ho hai hao
    have hq : Quotient.mk simSetoid (i, o) = Quotient.mk simSetoid (i', o') := Quotient.sound ⟨hi, ho⟩
    simp only
    rw [← hq]
    have hout : simSetoid.r (Quotient.mk simSetoid (i, o)).out (i, o) := Quotient.exact (Quotient.out_eq _)
    generalize hrep : (Quotient.mk simSetoid (i, o)).out = rep at hout
    have hai' := (sim_avals hi).symm.trans hai
    have hao' := (sim_avals ho).symm.trans hao
    have har := (sim_avals hout.1).trans hai
    have hbr := (sim_avals hout.2).trans hao
    rcases hb : base (Quotient.mk simSetoid (i, o)) with _ | r0
    · -- nothing at the representative, so nothing anywhere
      have hno : ¬ ∃ r, Res rep.1 rep.2 r := by
        intro h
        have hc := h
        rw [← hrep] at hc
        simp only [base] at hb
        rw [dif_pos hc] at hb
        cases hb
      have e1 : ¬ ∃ r, Res i o r := by
        rintro ⟨r, hr⟩
        obtain ⟨r', h', -⟩ := ht i rep.1 o rep.2 r (forall₂_sim_symm hout.1) (forall₂_sim_symm hout.2) hai hao hr
        exact hno ⟨r', h'⟩
      have e2 : ¬ ∃ r, Res i' o' r := by
        rintro ⟨r, hr⟩
        obtain ⟨r', h', -⟩ := ht i' i o' o r (forall₂_sim_symm hi) (forall₂_sim_symm ho) hai' hao' hr
        exact e1 ⟨r', h'⟩
      simp only [fb, dif_neg e1, dif_neg e2]
      exact ⟨hi, ho⟩
    · have hr0 : Res rep.1 rep.2 r0 := by
        simp only [base] at hb
        split at hb
        · rename_i h
          simp only [Option.some.injEq] at hb
          rw [← hb, ← hrep]
          exact Classical.choose_spec h
        · cases hb
      have n1 : near i o r0 := ht rep.1 i rep.2 o r0 hout.1 hout.2 har hbr hr0
      have n2 : near i' o' r0 := ht rep.1 i' rep.2 o' r0 (forall₂_sim_trans hout.1 hi) (forall₂_sim_trans hout.2 ho) har hbr hr0
      simp only [dif_pos n1, dif_pos n2]
      obtain ⟨-, a1, a2⟩ := Classical.choose_spec n1
      obtain ⟨-, b1, b2⟩ := Classical.choose_spec n2
      exact ⟨forall₂_sim_trans (forall₂_sim_symm a1) b1, forall₂_sim_trans (forall₂_sim_symm a2) b2⟩

/-- There are valid orders that do not look at entries. -/
theorem uniform_order_exists {jn : ACell → ACell → ACell} (hj : ∀ a b, Joins a b (jn a b)) (hu : UniformJoin jn) :
    ∃ σ : Orders, σ.Valid jn ∧ σ.Uniform := by
  have hc : ∀ (shp : Nat → List Nat) (J : Jaxpr ACell FArr Bool), _ := fun shp J => uniform_choice (CallResult jn shp J)
  have hp : ∀ (n : Nat) (shp : Nat → List Nat) (J : Jaxpr ACell FArr Bool), _ := fun n shp J =>
    uniform_choice (PmapResult jn n shp J)
  choose c hc1 hc2 using hc
  choose p hp1 hp2 using hp
  exact ⟨⟨fun _ => c, fun _ => p⟩, ⟨fun _ => hc1, fun _ => hp1⟩,
    ⟨fun _ shp J hJ => hc2 shp J _ _ (call_transfer hj hu hJ), fun _ n shp J hn hJ => hp2 n shp J _ _ (pmap_transfer hj hu hn hJ)⟩⟩

/-- The rules of all equations do not look at entries. -/
theorem uniform_all {jn : ACell → ACell → ACell} (hj : ∀ a b, Joins a b (jn a b)) (hu : UniformJoin jn) (σ : Orders)
    (hσ : σ.Valid jn) (hσu : σ.Uniform) : ∀ (shp : Nat → List Nat) (es : List NEqn), wfAll shp es → othersFit shp es →
    ∀ q ∈ eqnsOf jn σ es, UniformRule (q.ins.map (shpOf shp)) (q.outs.map (shpOf shp)) q.rule
  | _, [], _, _, q, hq => by simp [eqnsOf] at hq
  | shp, .prim op a b :: es, h, h', q, hq => by
    simp only [eqnsOf, List.mem_cons] at hq
    simp only [wfAll] at h
    simp only [othersFit] at h'
    rcases hq with rfl | hq
    · exact rule_uniform hu op _ _ h.1 h'.1
    · exact uniform_all hj hu σ hσ hσu shp es h.2.2 h'.2 q hq
  | shp, .call id shp' iv ov body a b :: es, h, h', q, hq => by
    simp only [eqnsOf, List.mem_cons] at hq
    simp only [wfAll] at h
    simp only [othersFit] at h'
    obtain ⟨h1, h2, h3, h4⟩ := h
    rcases hq with rfl | hq
    · show UniformRule (a.map (shpOf shp)) (b.map (shpOf shp)) _
      rw [h1, h2]
      exact hσu.call id shp' ⟨[], iv, ov, eqnsOf jn σ body⟩ ⟨rfl, fun q hq => ⟨aval_all hj σ hσ shp' body h3 h'.1 q hq,
        uniform_all hj hu σ hσ hσu shp' body h3 h'.1 q hq⟩⟩
    · exact uniform_all hj hu σ hσ hσu shp es h4 h'.2 q hq
  | shp, .pmap id n axes shp' iv ov body a b :: es, h, h', q, hq => by
    simp only [eqnsOf, List.mem_cons] at hq
    simp only [wfAll] at h
    simp only [othersFit] at h'
    obtain ⟨hn, -, h1, h2, h3, h4⟩ := h
    rcases hq with rfl | hq
    · show UniformRule (a.map (shpOf shp)) (b.map (shpOf shp)) _
      rw [h1, h2]
      exact hσu.pmap id n shp' ⟨[], iv, ov, eqnsOf jn σ body⟩ hn ⟨rfl, fun q hq => ⟨aval_all hj σ hσ shp' body h3 h'.1 q hq,
        uniform_all hj hu σ hσ hσu shp' body h3 h'.1 q hq⟩⟩
    · exact uniform_all hj hu σ hσ hσu shp es h4 h'.2 q hq

/-- **C73, agreement.**  When the choices of the order of propagation do not depend on the entries of arrays: if the
propagation through `f` ends on the first lane of the outputs, then the result of `inverse_and_ildj(pmap(f))`, be it
arrays or the `ValueError`, is on every lane a result of `inverse_and_ildj(f)`. -/
theorem C73_lanes_agree {jn : ACell → ACell → ACell} (hj : ∀ a b, Joins a b (jn a b)) (hu : UniformJoin jn) (σ : Orders)
    (hσ : σ.Valid jn) (hσu : σ.Uniform) (id n : Nat) (shp : Nat → List Nat) (xs zs : List Nat) (B : NProg)
    (hP : PmapOf n shp xs zs B) (hx0 : xs ≠ []) (ys : List FArr) (hy : ys.map (·.shape) = zs.map shp)
    (hend : ∃ res0, NRun jn σ B (ys.map (laneArr (some 0) 0)) res0) (res : Option (List (List Nat → F × F)))
    (h : NRun jn σ (pmapProg id n shp xs zs B) ys res) :
    ∀ l < n, NRun jn σ B (ys.map (laneArr (some 0) l)) (res.map (List.map (fun v k => v (l :: k)))) := by
  rcases C73_lanes hj σ hσ id n shp xs zs B hP hx0 ys hy res h with h | ⟨-, hno⟩
  · exact h
  · exfalso
    apply hno
    obtain ⟨_, t, ht, -⟩ := hend
    have hyn : ∀ y ∈ ys, ∃ s, y.shape = n :: s := by
      intro y hym
      have h1 : y.shape ∈ zs.map shp := hy ▸ List.mem_map.2 ⟨y, hym, rfl⟩
      rw [hP.outs] at h1
      obtain ⟨a, -, ha⟩ := List.mem_map.1 h1
      exact ⟨_, ha.symm⟩
    have ei : ((xs.map (fun x => (⟨shp x, []⟩ : ACell))).map remove).map (cut 0) = B.invars.map (fun x => ⟨B.shp x, []⟩) := by
      have := congrArg (List.map (fun s : List Nat => (⟨s.tail, []⟩ : ACell))) hP.ins
      simp only [List.map_map, Function.comp_def, List.tail_cons] at this
      rw [← this, List.map_map, List.map_map]
      exact List.map_congr_left fun x _ => cut_bottom 0 (shp x)
    have eo : ((ys.map (fun y => newCell y.shape y.val)).map remove).map (cut 0) =
        (ys.map (laneArr (some 0) 0)).map (fun y => newCell y.shape y.val) := by
      rw [List.map_map, List.map_map, List.map_map]
      refine List.map_congr_left fun y hym => ?_
      obtain ⟨s, hs⟩ := hyn y hym
      exact cut_new 0 n s y hs
    refine pmap_of_lane hj hu hP.pos (J := B.jaxpr jn σ) ⟨rfl, fun q hq => ⟨aval_all hj σ hσ B.shp B.eqns hP.wf hP.others q hq,
      uniform_all hj hu σ hσ hσu B.shp B.eqns hP.wf hP.others q hq⟩⟩ ?_ ?_ ?_ t (by rw [ei, eo]; exact ht)
    · rw [List.map_map]
      show xs.map shp = (B.invars.map Atom.var).map _
      rw [hP.ins, List.map_map]
      rfl
    · rw [List.map_map]
      show ys.map (·.shape) = B.outvars.map _
      rw [hy, hP.outs]
    · intro c hc
      rcases List.mem_append.1 hc with hc | hc
      · obtain ⟨x, -, rfl⟩ := List.mem_map.1 hc
        intro m hm
        simp [remove] at hm
      · obtain ⟨y, hym, rfl⟩ := List.mem_map.1 hc
        obtain ⟨s, hs⟩ := hyn y hym
        intro m hm
        have : m ∈ (⟨_, [⟨(fullBox y.shape).tail, y.shape, _⟩]⟩ : ACell).slices := hm
        rw [List.mem_singleton.1 this]
        simp [hs]

/-! ### The total -/

theorem addF_comm (a b : F) : addF a b = addF b a := by
  cases a <;> cases b <;> simp [addF, add_comm]

theorem addF_assoc (a b c : F) : addF (addF a b) c = addF a (addF b c) := by
  cases a <;> cases b <;> cases c <;> simp [addF, add_assoc]

theorem zero_addF (a : F) : addF (some 0) a = a := by cases a <;> simp [addF]

theorem foldl_addF (l : List F) (a : F) : l.foldl addF a = addF a (l.foldl addF (some 0)) := by
  induction l generalizing a with
  | nil => rw [addF_comm]; exact (zero_addF a).symm
  | cons x l ih => rw [List.foldl_cons, List.foldl_cons, ih, ih (addF (some 0) x), zero_addF, addF_assoc]

theorem foldl_addF_append (l l' : List F) :
    (l ++ l').foldl addF (some 0) = addF (l.foldl addF (some 0)) (l'.foldl addF (some 0)) := by
  rw [List.foldl_append, foldl_addF]

theorem foldl_addF_map {α : Type} (l : List α) (f g : α → F) :
    (l.map (fun x => addF (f x) (g x))).foldl addF (some 0) = addF ((l.map f).foldl addF (some 0)) ((l.map g).foldl addF (some 0)) := by
  induction l with
  | nil => simp [addF]
  | cons x l ih =>
    simp only [List.map_cons, List.foldl_cons, zero_addF]
    rw [foldl_addF _ (addF (f x) (g x)), ih, foldl_addF (l.map f) (f x), foldl_addF (l.map g) (g x), addF_assoc, addF_assoc,
      ← addF_assoc (g x), addF_comm (g x), addF_assoc]

theorem foldl_addF_flatMap {α : Type} (l : List α) (f : α → List F) :
    (l.flatMap f).foldl addF (some 0) = (l.map (fun x => (f x).foldl addF (some 0))).foldl addF (some 0) := by
  induction l with
  | nil => rfl
  | cons x l ih =>
    rw [List.flatMap_cons, foldl_addF_append, ih, List.map_cons, List.foldl_cons, zero_addF, foldl_addF _ ((f x).foldl addF (some 0))]

/-- The ILDJ of a `pmap` is the sum of those of its lanes. -/
theorem reduce_lanes (id n : Nat) (shp : Nat → List Nat) (xs zs : List Nat) (B : NProg)
    (h : xs.map shp = B.invars.map (fun x => n :: B.shp x)) (vs : List (List Nat → F × F)) :
    reduceN (pmapProg id n shp xs zs B) vs =
      ((List.range n).map (fun l => reduceN B (vs.map (fun v k => v (l :: k))))).foldl addF (some 0) := by
  unfold reduceN
  show (List.flatten (List.zipWith (fun x (v : List Nat → F × F) => (NN.indices (shp x)).map (fun k => (v k).2)) xs vs)).foldl addF (some 0) = _
  generalize B.invars = bs at h ⊢
  generalize B.shp = shp' at h ⊢
  have hz : ∀ L : List Nat, (L.map (fun _ => (some 0 : F))).foldl addF (some 0) = some 0 := by
    intro L
    induction L with
    | nil => rfl
    | cons x L ih => rw [List.map_cons, List.foldl_cons, zero_addF]; exact ih
  induction xs generalizing bs vs with
  | nil =>
    obtain rfl : bs = [] := by simpa using h.symm
    simp only [List.zipWith_nil_left, List.flatten_nil, List.foldl_nil]
    exact (hz _).symm
  | cons x xs ih =>
    rcases bs with _ | ⟨b, bs⟩
    · simp at h
    simp only [List.map_cons, List.cons.injEq] at h
    rcases vs with _ | ⟨v, vs⟩
    · simp only [List.zipWith_nil_right, List.map_nil, List.flatten_nil, List.foldl_nil]
      exact (hz _).symm
    · simp only [List.zipWith_cons_cons, List.flatten_cons, List.map_cons, foldl_addF_append]
      rw [ih vs bs h.2, h.1, foldl_addF_map]
      congr 1
      simp only [NN.indices, List.map_flatMap, List.map_map, Function.comp_def]
      rw [foldl_addF_flatMap]

/-- **C73, total.**  The ILDJ that `inverse_and_ildj(pmap(f))` returns is the sum of ILDJs that `inverse_and_ildj(f)` can
return on the lanes. -/
theorem C73_total {jn : ACell → ACell → ACell} (hj : ∀ a b, Joins a b (jn a b)) (hu : UniformJoin jn) (σ : Orders)
    (hσ : σ.Valid jn) (hσu : σ.Uniform) (id n : Nat) (shp : Nat → List Nat) (xs zs : List Nat) (B : NProg)
    (hP : PmapOf n shp xs zs B) (hx0 : xs ≠ []) (ys : List FArr) (hy : ys.map (·.shape) = zs.map shp)
    (hend : ∃ res0, NRun jn σ B (ys.map (laneArr (some 0) 0)) res0) (vs : List (List Nat → F × F))
    (h : NRun jn σ (pmapProg id n shp xs zs B) ys (some vs)) :
    ∃ ws : Nat → List (List Nat → F × F), (∀ l < n, NRun jn σ B (ys.map (laneArr (some 0) l)) (some (ws l))) ∧
      reduceN (pmapProg id n shp xs zs B) vs = ((List.range n).map (fun l => reduceN B (ws l))).foldl addF (some 0) :=
  ⟨fun l => vs.map (fun (v : List Nat → F × F) (k : List Nat) => v (l :: k)), fun l hl =>
    C73_lanes_agree hj hu σ hσ hσu id n shp xs zs B hP hx0 ys hy hend (some vs) h l hl,
    reduce_lanes id n shp xs zs B hP.ins vs⟩

end Verif.Inverse.Mapped
