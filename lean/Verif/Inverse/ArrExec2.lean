import Verif.Inverse.ArrExec

/-! What executing one equation of a program on arrays does to the known entries: `slice`, `concatenate`, other
primitives. -/
namespace Verif.Inverse

open Verif.Propagate Filter Topology

variable {n : Nat} {P : AProg} {ax : Nat → Nat} {val : (Fin n → ℝ) → Nat → List Nat → ℝ} {x₀ : Fin n → ℝ}
variable {jn : ACell → ACell → ACell}

theorem shift_box {st li k : List Nat} (h : List.Forall₂ (· ≤ ·) st li) (hk : inBox (fullBox (sliceShape st li)) k) :
    inBox (sliceBox st li) (shift st k) ∧ offset (shift st k) (sliceBox st li) = k := by
  induction h generalizing k with
  | nil => cases k <;> simp_all [inBox, fullBox, sliceShape, shift, sliceBox, offset]
  | @cons a b st li hab _ ih =>
    cases k with
    | nil => simp [sliceShape, fullBox, inBox] at hk
    | cons i k =>
      simp only [sliceShape, fullBox, List.zipWith_cons_cons, List.map_cons, inBox] at hk
      obtain ⟨h1, h2⟩ := ih hk.2
      simp only [sliceBox, shift, List.zip_cons_cons, List.zipWith_cons_cons, inBox, offset] at h1 h2 ⊢
      refine ⟨⟨⟨by omega, by omega⟩, h1⟩, ?_⟩
      rw [h2]; simp

theorem slice_slab {A : List Nat} {d : Nat} (hA : Axis A d) {st li : List Nat} {s : Sl} (h : List.Forall₂ (· ≤ ·) st li)
    (h' : List.Forall₂ (· ≤ ·) li A) (hs : s.1 < s.2) (hc : sliceBox st li = slab A d s) (v : List Nat → F × F) :
    IsSlab A d (⟨sliceBox st li, sliceShape st li, v⟩ : ND (F × F)) := by
  rcases hA.ax with hd | rfl
  · have hb : bd d (⟨sliceBox st li, sliceShape st li, v⟩ : ND (F × F)) = s := by
      unfold bd; simp only; rw [hc]; exact slab_getD A d s hd
    refine ⟨by rw [hb]; exact hc, by rw [hb]; exact hs, ?_, slice_shape st li⟩
    rw [hb]
    have h1 := slice_within h h'
    rw [hc] at h1
    have h2 := h1.get (i := d) (by simp [slab, fullBox_length, hd]) hd
    simp only [slab, List.get_eq_getElem, List.getElem_set_self] at h2
    rw [List.getD_eq_getElem?_getD, List.getElem?_eq_getElem hd]
    exact h2
  · cases h'
    cases h
    refine ⟨rfl, ?_, ?_, rfl⟩ <;> simp [bd, sliceBox]

/-- Slices. -/
theorem eff_slice (hj : ∀ a b, Joins a b (jn a b)) (H : P.Diff ax val x₀) {e : Nat} {st li : List Nat} {y z : Nat}
    (he : P.eqns[e]? = some (AOp.slice st li, [Atom.var y], [Atom.var z])) {env : Env ACell} (hb : Basic P ax env)
    (ht : TrueEnv P (val x₀) env) :
    Eff jn H e (AOp.slice st li, [Atom.var y], [Atom.var z]) env ∧
    (GoodEnv P ax env → DoneE (AOp.slice st li, [Atom.var y], [Atom.var z]) env →
      execA jn P env (AOp.slice st li, [Atom.var y], [Atom.var z]) = env) := by
  have hq := List.mem_of_getElem? he
  have hi := H.ins he
  have hex : execA jn P env (AOp.slice st li, [Atom.var y], [Atom.var z]) =
      (writeAll (aOps jn P.shp) (writeAll (aOps jn P.shp) env [Atom.var y]
        (sliceA st li [env y] [env z]).1).1 [Atom.var z] (sliceA st li [env y] [env z]).2.1).1 := rfl
  have hzs : (env z).aval = P.shp z := (ht z).1
  have hys : (env y).aval = P.shp y := (ht y).1
  obtain ⟨t1, t2, t3⟩ := H.typed.eqns _ hq
  simp only [List.map_cons, List.map_nil, List.cons.injEq, and_true] at t3
  have hsh : P.shp z = sliceShape st li := t3
  have t2' : List.Forall₂ (· ≤ ·) li (P.shp y) := t2
  have hself : (writeAll (aOps jn P.shp) env [Atom.var y] [env y]).1 = env := writeAll_id hj _ env [.var y]
  have hselfz : (writeAll (aOps jn P.shp) env [Atom.var z] [env z]).1 = env := writeAll_id hj _ env [.var z]
  have hne : z ≠ y := out_ne_in H he (by simp) (by simp)
  obtain ⟨y', s, hy', hs, hbox⟩ := H.cut _ hq
  have hyy : y' = y := by simpa using hy'.symm
  subst hyy
  have hsame : topVal (env z) = none → topVal (env y') = none →
      execA jn P env (AOp.slice st li, [Atom.var y'], [Atom.var z]) = env := by
    intro h1 h2
    rw [hex]; simp only [sliceA, h1, h2]; rw [hself, hselfz]
  have hsame' : ∀ v w, topVal (env z) = some v → topVal (env y') = some w →
      execA jn P env (AOp.slice st li, [Atom.var y'], [Atom.var z]) = env := by
    intro v w h1 h2
    rw [hex]; simp only [sliceA, h1, h2]; rw [hself, hselfz]
  have hback : ∀ w, topVal (env z) = some w → topVal (env y') = none →
      execA jn P env (AOp.slice st li, [Atom.var y'], [Atom.var z]) =
        joinAll jn P (fun x => if x = y' then some ⟨sliceBox st li, sliceShape st li, w⟩ else none) env := by
    intro w h1 h2
    rw [hex]; simp only [sliceA, h1, h2]
    rw [hys, hzs, hsh, writeAll_one, single_out hj _ _ _ _ hne]
  refine ⟨?_, ?_⟩
  · rcases hiv : topVal (env y') with _ | v <;> rcases hov : topVal (env z) with _ | w
    · exact eff_same H hb (hsame hov hiv)
    · unfold Eff
      rw [hback w hov hiv]
      refine leff_back hj H he hb (z := z) (by simp) hov _ ?_ (fun k => (y', shift st k)) ?_ ?_ ?_ ?_ ?_
      · intro x p hp
        split at hp
        · rename_i hx; subst hx
          obtain rfl := Option.some.inj hp
          exact slice_slab (H.axis x) t1 t2' hs hbox w
        · cases hp
      · intro k hk
        rw [hsh] at hk
        obtain ⟨b1, b2⟩ := shift_box t1 hk
        refine ⟨_, if_pos rfl, b1, fun _ => ?_⟩
        simp only [b2]
        rw [← hsh] at hk
        obtain ⟨-, -, -, -, -, g⟩ := H.slice hq hi hk
        have hL := Lk_top H.axis hb hov hk
        rcases hl : (w k).2 with _ | l
        · left; rfl
        · right
          refine ⟨l, 1, by rw [hL, hl], one_ne_zero, by simp, ?_⟩
          rw [g]; simp
      · intro x p j hp hin
        split at hp
        · rename_i hx; subst hx
          obtain rfl := Option.some.inj hp
          obtain ⟨o1, o2⟩ := slice_offset t1 hin
          exact ⟨_, by rw [hsh]; exact o1, by rw [o2]⟩
        · cases hp
      · intro k k' hk hk' h
        rw [hsh] at hk hk'
        rw [← (shift_box t1 hk).2, ← (shift_box t1 hk').2, (Prod.mk.inj h).2]
      · intro k hk
        refine ⟨⟨by simp, rfl⟩, ?_⟩
        rintro ⟨y1, y2⟩ ⟨h1, h2⟩ h3
        simp only [List.mem_singleton] at h1 h2
        obtain rfl := Atom.var.inj h1
        subst h2
        exact absurd rfl h3
      · intro hg hc
        refine ⟨?_, ?_⟩
        · intro z' hz'
          simp only [List.mem_singleton] at hz'
          obtain rfl := Atom.var.inj hz'
          rw [joinAll_other (by simp [hne])]
          exact topVal_true hov
        · intro x hx j hjb
          simp only [List.mem_singleton] at hx
          obtain rfl := Atom.var.inj hx
          exact hc x _ j (if_pos rfl) hjb
    · have hexec : execA jn P env (AOp.slice st li, [Atom.var y'], [Atom.var z]) =
          (writeAll (aOps jn P.shp) env ([z].map Atom.var) [newCell (P.shp z) (fun k => (v (shift st k)).1)]).1 := by
        rw [hex]; simp only [sliceA, hiv, hov]
        rw [hself, hsh]; rfl
      obtain ⟨f1, f2⟩ := writeAll_full hj P.shp env [z] [newCell (P.shp z) (fun k => (v (shift st k)).1)] (by simp) rfl (by
        intro i w c h1 h2
        rcases i with _ | i
        · simp at h1 h2; subst h1 h2; exact ⟨_, rfl⟩
        · simp at h1)
      rw [← hexec] at f1 f2
      refine leff_fwd H he hb f1 f2 ?_ ⟨?_, ?_⟩
      · intro w' k hw hk u hu
        simp only [List.mem_singleton] at hw
        obtain rfl := Atom.var.inj hw
        obtain ⟨h1, h2⟩ := hu
        obtain ⟨u1, u2⟩ := u
        simp only [List.mem_singleton] at h1 h2
        obtain rfl := Atom.var.inj h1
        subst h2
        exact hb.top H.axis (topVal_true hiv) (slice_shift t1 t2' (by rw [← hsh]; exact hk))
      · intro x hx
        obtain ⟨v', hv'⟩ := f2 x (by simpa using hx)
        rw [hv']; simp [Cell.top, ND.new]
      · intro x hx j hjb
        simp only [List.mem_singleton] at hx
        obtain rfl := Atom.var.inj hx
        rw [f1 x (by simp [Ne.symm hne])]
        obtain ⟨o1, o2⟩ := slice_offset t1 hjb
        refine slabs_top_covers (H.axis x) (hb x) (topVal_true hiv) ?_
        rw [← o2]
        exact slice_shift t1 t2' o1
    · exact eff_same H hb (hsame' w v hov hiv)
  · intro hg hd
    have hzt := hd.1 z (by simp)
    rcases hov : topVal (env z) with _ | w
    · rw [topVal_false hov] at hzt; cases hzt
    · rcases hiv : topVal (env y') with _ | v
      · rw [hback w hov hiv]
        funext x
        by_cases hx : x = y'
        · subst hx
          have h1 : joinAll jn P (fun u => if u = x then some ⟨sliceBox st li, sliceShape st li, w⟩ else none) env x =
            jn (env x) ⟨P.shp x, [⟨sliceBox st li, sliceShape st li, w⟩]⟩ := by simp [joinAll]
          rw [h1]
          exact join_absorbed (H.axis x) (hg x) (slice_slab (H.axis x) t1 t2' hs hbox w) (fun j hjb => hd.2 x (by simp) j hjb)
            (topVal_false hiv) (hj _ _)
        · rw [joinAll_other (by simp [hx])]
      · exact hsame' w v hov hiv

theorem mapM_top {is : List ACell} {vs : List (List Nat → F × F)} (h : is.mapM topVal = some vs) :
    ∀ c ∈ is, c.top = true := by
  induction is generalizing vs with
  | nil => simp
  | cons c is ih =>
    simp only [List.mapM_cons, Option.bind_eq_bind, Option.bind_eq_some_iff, Option.pure_def, Option.some.injEq] at h
    obtain ⟨v, hv1, vs, hv2, rfl⟩ := h
    intro c' hc'
    rcases List.mem_cons.1 hc' with rfl | hc'
    · exact topVal_true hv1
    · exact ih hv2 c' hc'

theorem reads_true {v : Nat → List Nat → ℝ} {env : Env ACell} (h : TrueEnv P v env) (as : List (Atom FArr)) :
    List.Forall₂ TellsA (as.map (P.arr v)) (as.map (Propagate.read (aOps jn P.shp) env)) := by
  induction as with
  | nil => exact .nil
  | cons a as ih => exact .cons (true_read h a) ih

theorem reads_same (hj : ∀ a b, Joins a b (jn a b)) (env : Env ACell) (as bs : List (Atom FArr)) :
    (writeAll (aOps jn P.shp) (writeAll (aOps jn P.shp) env as (as.map (Propagate.read (aOps jn P.shp) env))).1 bs
      (bs.map (Propagate.read (aOps jn P.shp) env))).1 = env := by
  rw [writeAll_id hj, writeAll_id hj]

/-- Primitives without inverse. -/
theorem eff_other (hj : ∀ a b, Joins a b (jn a b)) (H : P.Diff ax val x₀) {e : Nat} {h : List FArr → List FArr}
    {ins : List (Atom FArr)} {ws : List Nat} (hnd : ws.Nodup)
    (he : P.eqns[e]? = some (AOp.other h, ins, ws.map Atom.var)) {env : Env ACell} (hb : Basic P ax env)
    (ht : TrueEnv P (val x₀) env) : Eff jn H e (AOp.other h, ins, ws.map Atom.var) env := by
  have hq := List.mem_of_getElem? he
  have hex : execA jn P env (AOp.other h, ins, ws.map Atom.var) =
      (writeAll (aOps jn P.shp) (writeAll (aOps jn P.shp) env ins
        (defA h (ins.map (Propagate.read (aOps jn P.shp) env))
          ((ws.map Atom.var).map (Propagate.read (aOps jn P.shp) env))).1).1 (ws.map Atom.var)
        (defA h (ins.map (Propagate.read (aOps jn P.shp) env))
          ((ws.map Atom.var).map (Propagate.read (aOps jn P.shp) env))).2.1).1 := rfl
  have htells := def_tells h (H.ok _ hq) _ _ (H.exec.self_of_nhds.eqns _ hq) _ _ (reads_true (jn := jn) ht ins)
    (reads_true (jn := jn) ht (ws.map Atom.var))
  unfold defA at hex htells
  split at hex
  · rename_i hbot
    rw [if_pos hbot] at htells
    rcases hv : (ins.map (Propagate.read (aOps jn P.shp) env)).mapM topVal with _ | vs
    · rw [hv] at hex
      exact eff_same H hb (by rw [hex]; exact reads_same hj env _ _)
    · rw [hv] at hex htells
      simp only at hex htells
      rw [writeAll_id hj] at hex
      have htop := mapM_top hv
      generalize hcs : (h (List.zipWith (fun (c : ACell) v => (⟨c.aval, fun k => (v k).1⟩ : FArr))
        (ins.map (Propagate.read (aOps jn P.shp) env)) vs)).map (fun a => newCell a.shape a.val) = cs at hex htells
      have hlen : cs.length = ws.length := by have := htells.2.length_eq; simpa using this.symm
      obtain ⟨f1, f2⟩ := writeAll_full hj P.shp env ws cs hnd hlen (by
        intro i w c h1 h2
        have h3 : c.aval = P.shp w := by
          have h4 : ((ws.map Atom.var).map (P.arr (val x₀)))[i]? = some (P.arr (val x₀) (.var w)) := by
            rw [List.getElem?_map, List.getElem?_map, h1]; rfl
          obtain ⟨l1, e1⟩ := List.getElem?_eq_some_iff.1 h4
          obtain ⟨l2, e2⟩ := List.getElem?_eq_some_iff.1 h2
          have h5 := htells.2.get l1 l2
          simp only [List.get_eq_getElem] at h5
          rw [e1, e2] at h5
          exact h5.1
        rw [← hcs, List.getElem?_map, Option.map_eq_some_iff] at h2
        obtain ⟨a, -, rfl⟩ := h2
        have h6 : a.shape = P.shp w := h3
        rw [h6]
        exact ⟨_, rfl⟩)
      rw [← hex] at f1 f2
      have hin : ∀ x, Atom.var x ∈ ins → (env x).top = true := fun x hx =>
        htop (env x) (List.mem_map.2 ⟨.var x, hx, rfl⟩)
      refine leff_fwd H he hb f1 f2 ?_ ?_
      · intro w k _ _ y hy
        exact hb.top H.axis (hin y.1 hy.1) hy.2
      · intro x hx
        by_cases hxo : Atom.var x ∈ ws.map (Atom.var (L := FArr))
        · obtain ⟨v', hv'⟩ := f2 x hxo
          rw [hv']; simp [Cell.top, ND.new]
        · rw [f1 x hxo]
          exact hin x (hx.resolve_right hxo)
  · split at hex <;> exact eff_same H hb (by rw [hex]; exact reads_same hj env _ _)

/-! ### Concatenation -/

/-- Where the operand `x` begins. -/
def offOf (shp : Nat → List Nat) (d : Nat) : List Nat → Nat → Nat
  | [], _ => 0
  | y :: ys, x => if x = y then 0 else (shp y).getD d 0 + offOf shp d ys x

theorem cat_at (shp : Nat → List Nat) (d : Nat) (s : List Nat) (hd : d < s.length) (xs : List Nat)
    (hs : ∀ x ∈ xs, ∃ m, shp x = s.set d m) (x : Nat) (hx : x ∈ xs) (j : List Nat) (hjb : inBox (fullBox (shp x)) j) :
    catAt shp d (xs.map Atom.var) (j.modify d (· + offOf shp d xs x)) = {(x, j)} ∧
      inBox (fullBox (s.set d (xs.map (fun x => (shp x).getD d 0)).sum)) (j.modify d (· + offOf shp d xs x)) := by
  obtain ⟨m, hm⟩ := hs x hx
  have hmd : (shp x).getD d 0 = m := by rw [hm, getD_set s d m d hd, if_pos rfl]
  have hjb' := hjb
  rw [hm] at hjb
  have hjl : d < j.length := by rw [((box_set hd).1 hjb).1]; exact hd
  have hjd : j.getD d 0 < m := ((box_set hd).1 hjb).2.1
  have hlt : offOf shp d xs x + m ≤ (xs.map (fun x => (shp x).getD d 0)).sum := by
    clear hs
    induction xs with
    | nil => simp at hx
    | cons y ys ih =>
      simp only [offOf, List.map_cons, List.sum_cons]
      split
      · rename_i h; subst h; omega
      · rename_i h
        have := ih ((List.mem_cons.1 hx).resolve_left h)
        omega
  refine ⟨?_, box_modify _ hd hjb (by omega)⟩
  clear hlt
  induction xs with
  | nil => simp at hx
  | cons y ys ih =>
    simp only [List.map_cons, catAt, offOf]
    rw [getD_modify _ _ _ _ hjl, if_pos rfl]
    split
    · rename_i h; subst h
      simp only [Nat.add_zero, hmd, if_pos hjd]
      have : j.modify d (fun x => x) = j := by
        apply List.ext_getElem?; intro i; simp [List.getElem?_modify]
      rw [this]
    · rename_i h
      rw [if_neg (by omega)]
      have h1 : (j.modify d (· + ((shp y).getD d 0 + offOf shp d ys x))).modify d (· - (shp y).getD d 0) =
          j.modify d (· + offOf shp d ys x) := by
        apply List.ext_getElem?
        intro i
        simp only [List.getElem?_modify]
        split <;> cases j[i]? <;> simp
        omega
      rw [h1]
      exact ih (fun z hz => hs z (by simp [hz])) ((List.mem_cons.1 hx).resolve_left h)

theorem cat_inv (shp : Nat → List Nat) (d : Nat) (xs : List Nat) (hnd : xs.Nodup) (k : List Nat) (y : Nat × List Nat)
    (h : catAt shp d (xs.map Atom.var) k = {y}) : k = y.2.modify d (· + offOf shp d xs y.1) := by
  induction xs generalizing k with
  | nil => simp [catAt] at h
  | cons x xs ih =>
    simp only [List.map_cons, catAt] at h
    split at h
    · have hy : y = (x, k) := by
        have : (x, k) ∈ ({y} : Set (Nat × List Nat)) := by rw [← h]; rfl
        exact (Set.mem_singleton_iff.1 this).symm
      subst hy
      simp only [offOf]
      apply List.ext_getElem?; intro i; simp [List.getElem?_modify]
    · rename_i hlt
      obtain ⟨hn1, hn2⟩ := List.nodup_cons.1 hnd
      have h1 := ih hn2 _ h
      have hy : y.1 ∈ xs := by
        have h2 := catAt_var shp d (xs.map Atom.var) (k.modify d (· - (shp x).getD d 0)) y (by rw [h]; rfl)
        obtain ⟨u, hu, huy⟩ := List.mem_map.1 h2
        rw [← Atom.var.inj huy]; exact hu
      have hne : y.1 ≠ x := by intro h2; rw [h2] at hy; exact hn1 hy
      have h3 : k = (k.modify d (· - (shp x).getD d 0)).modify d (· + (shp x).getD d 0) := by
        refine (modify_modify_id _ _ _ _ ?_).symm
        omega
      rw [h3, h1]
      simp only [offOf, if_neg hne]
      apply List.ext_getElem?
      intro i
      simp only [List.getElem?_modify]
      split <;> cases y.2[i]? <;> simp
      omega

theorem split_get (shp : Nat → List Nat) (d : Nat) (s : List Nat) (hd : d < s.length) (w : List Nat → F × F)
    (oshape : List Nat) (hos : ∀ m, oshape.set d m = s.set d m) (env : Env ACell) (xs : List Nat) (hnd : xs.Nodup)
    (hs : ∀ x ∈ xs, ∃ m, shp x = s.set d m) (ha : ∀ x ∈ xs, (env x).aval = shp x) (off : Nat)
    (hoff : off + (xs.map (fun x => (shp x).getD d 0)).sum = oshape.getD d 0) :
    (splitA d oshape w off (xs.map env)).length = xs.length ∧ ∀ (i x : Nat) (c : ACell), xs[i]? = some x →
      (splitA d oshape w off (xs.map env))[i]? = some c →
      c = ⟨shp x, [ND.new (shp x) (fun k => w (k.modify d (· + (off + offOf shp d xs x))))]⟩ := by
  have hset : ∀ x ∈ xs, oshape.set d ((shp x).getD d 0) = shp x := by
    intro x hx
    obtain ⟨m, hm⟩ := hs x hx
    have hmd : (shp x).getD d 0 = m := by rw [hm, getD_set s d m d hd, if_pos rfl]
    rw [hmd, hos, ← hm]
  clear hs
  induction xs generalizing off with
  | nil => simp [splitA]
  | cons y ys ih =>
    obtain ⟨hn1, hn2⟩ := List.nodup_cons.1 hnd
    have hy := ha y (by simp)
    have hy2 := hset y (by simp)
    rcases ys with _ | ⟨y', ys⟩
    · have hsz : oshape.getD d 0 - off = (shp y).getD d 0 := by
        simp only [List.map_cons, List.map_nil, List.sum_cons, List.sum_nil] at hoff; omega
      simp only [List.map_cons, List.map_nil, splitA, hsz, hy, hy2, List.length_singleton, true_and]
      intro i x c h1 h2
      rcases i with _ | i
      · simp at h1 h2; subst h1 h2; simp [offOf, fullCell]
      · simp at h1
    · obtain ⟨i1, i2⟩ := ih hn2 (fun x hx => ha x (by simp [hx])) (off + (shp y).getD d 0) (by
        simp only [List.map_cons, List.sum_cons] at hoff ⊢; omega) (fun x hx => hset x (by simp [hx]))
      simp only [List.map_cons] at i1 i2
      simp only [List.map_cons, splitA, hy, hy2, List.length_cons]
      refine ⟨by rw [i1]; rfl, ?_⟩
      intro i x c h1 h2
      rcases i with _ | i
      · simp at h1 h2; subst h1 h2; simp [offOf, fullCell]
      · have h1' : (y' :: ys)[i]? = some x := by simpa using h1
        rw [i2 i x c h1' (by simpa using h2)]
        have hne : x ≠ y := by rintro rfl; exact hn1 (List.mem_of_getElem? h1')
        have e : offOf shp d (y :: y' :: ys) x = (shp y).getD d 0 + offOf shp d (y' :: ys) x := by
          rw [offOf, if_neg hne]
        rw [e, Nat.add_assoc]

/-- Concatenations. -/
theorem eff_cat (hj : ∀ a b, Joins a b (jn a b)) (H : P.Diff ax val x₀) {e : Nat} {d : Nat} {xs : List Nat} {z : Nat}
    (hnd : xs.Nodup) (he : P.eqns[e]? = some (AOp.cat d, xs.map Atom.var, [Atom.var z])) {env : Env ACell}
    (hb : Basic P ax env) (ht : TrueEnv P (val x₀) env) :
    Eff jn H e (AOp.cat d, xs.map Atom.var, [Atom.var z]) env := by
  have hq := List.mem_of_getElem? he
  have hi := H.ins he
  obtain ⟨s, hd, hs, hzs, hzs'⟩ := H.catShapes hq
  have hread : (xs.map Atom.var).map (Propagate.read (aOps jn P.shp) env) = xs.map env := by
    rw [List.map_map]; rfl
  have hex : execA jn P env (AOp.cat d, xs.map Atom.var, [Atom.var z]) =
      (writeAll (aOps jn P.shp) (writeAll (aOps jn P.shp) env (xs.map Atom.var)
        (catA d ((xs.map Atom.var).map (Propagate.read (aOps jn P.shp) env)) [env z]).1).1 [Atom.var z]
        (catA d ((xs.map Atom.var).map (Propagate.read (aOps jn P.shp) env)) [env z]).2.1).1 := rfl
  have hza : (env z).aval = P.shp z := (ht z).1
  have hxa : ∀ x, (env x).aval = P.shp x := fun x => (ht x).1
  have hzx : ∀ x ∈ xs, z ≠ x := fun x hx => out_ne_in H he (List.mem_map.2 ⟨x, hx, rfl⟩) (by simp)
  have hself : (writeAll (aOps jn P.shp) env (xs.map Atom.var) (xs.map env)).1 = env := by
    rw [← hread]; exact writeAll_id hj _ env _
  rw [hread] at hex
  have hmem : ∀ x, Atom.var x ∈ xs.map (Atom.var (L := FArr)) → x ∈ xs := by
    intro x hx
    obtain ⟨y, hy, hyx⟩ := List.mem_map.1 hx
    obtain rfl := Atom.var.inj hyx; exact hy
  rcases hv : (xs.map env).mapM topVal with _ | vs
  · rcases hov : topVal (env z) with _ | w
    · refine eff_same H hb ?_
      rw [hex]; simp only [catA, hv, hov]
      rw [hself]; exact writeAll_id hj _ env [.var z]
    · let ps : Nat → Option (ND (F × F)) := fun x => if x ∈ xs then
        some (ND.new (P.shp x) (fun k => w (k.modify d (· + offOf P.shp d xs x)))) else none
      have hzsum : (P.shp z).getD d 0 = (xs.map (fun x => (P.shp x).getD d 0)).sum := by
        rw [hzs, getD_set _ _ _ _ hd, if_pos rfl]
      obtain ⟨g1, g2⟩ := split_get P.shp d s hd w (P.shp z) (fun m => by rw [hzs, List.set_set]) env xs hnd hs
        (fun x _ => hxa x) 0 (by rw [hzsum]; omega)
      have hexec : execA jn P env (AOp.cat d, xs.map Atom.var, [Atom.var z]) = joinAll jn P ps env := by
        rw [hex]; simp only [catA, hv, hov]
        rw [hza]
        have h1 : (writeAll (aOps jn P.shp) env (xs.map Atom.var) (splitA d (P.shp z) w 0 (xs.map env))).1 =
            joinAll jn P ps env := by
          funext x
          by_cases hx : x ∈ xs
          · obtain ⟨i, hix⟩ := List.mem_iff_getElem?.1 hx
            have hlt : i < (splitA d (P.shp z) w 0 (xs.map env)).length := by
              rw [g1]; exact (List.getElem?_eq_some_iff.1 hix).1
            rw [writeAll_vars P.shp env xs _ hnd i x _ hix (List.getElem?_eq_getElem hlt)]
            have h2 := g2 i x _ hix (List.getElem?_eq_getElem hlt)
            rw [h2]
            have h3 : ps x = some (ND.new (P.shp x) (fun k => w (k.modify d (· + offOf P.shp d xs x)))) := if_pos hx
            simp only [joinAll, h3, Nat.zero_add]
          · have h3 : ps x = none := if_neg hx
            rw [joinAll_other h3]
            apply writeAll_frame
            intro h'
            simp only [List.map_map, List.mem_map, Function.comp, Atom.node, Option.some.injEq, exists_eq_right] at h'
            exact hx h'
        rw [h1]
        refine writeAll_id1 hj _ _ z _ ?_
        rw [joinAll_other]
        exact if_neg (fun h => hzx z h rfl)
      have hps : ∀ x p, ps x = some p → x ∈ xs ∧
          p = ND.new (P.shp x) (fun k => w (k.modify d (· + offOf P.shp d xs x))) := by
        intro x p hp
        by_cases hx : x ∈ xs
        · have h3 : ps x = some (ND.new (P.shp x) (fun k => w (k.modify d (· + offOf P.shp d xs x)))) := if_pos hx
          rw [h3] at hp
          exact ⟨hx, (Option.some.inj hp).symm⟩
        · have h3 : ps x = none := if_neg hx
          rw [h3] at hp; cases hp
      have hcat : ∀ k, ∃ y, inBox (fullBox (P.shp z)) k → catAt P.shp d (xs.map Atom.var) k = {y} ∧
          inBox (fullBox (P.shp y.1)) y.2 ∧ y.1 ∈ xs ∧ GD val x₀ (z, k) = GD val x₀ y := by
        intro k
        by_cases hk : inBox (fullBox (P.shp z)) k
        · obtain ⟨y, a1, a2, a3, -, a5⟩ := H.cat hq hi hk
          exact ⟨y, fun _ => ⟨a1, a2, a3, a5⟩⟩
        · exact ⟨(0, []), fun h => absurd h hk⟩
      choose τ hτ using hcat
      have hk' : ∀ k, inBox (fullBox (P.shp z)) k → k = (τ k).2.modify d (· + offOf P.shp d xs (τ k).1) :=
        fun k hk => cat_inv P.shp d xs hnd k _ (hτ k hk).1
      unfold Eff
      rw [hexec]
      refine leff_back hj H he hb (z := z) (by simp) hov ps ?_ τ ?_ ?_ ?_ ?_ ?_
      · intro x p hp
        obtain ⟨-, rfl⟩ := hps x p hp
        exact new_slab (H.axis x) _
      · intro k hk
        obtain ⟨a1, a2, a3, a4⟩ := hτ k hk
        refine ⟨_, if_pos a3, a2, fun _ => ?_⟩
        rw [new_val a2, ← hk' k hk]
        have hL := Lk_top H.axis hb hov hk
        rcases hl : (w k).2 with _ | l
        · left; rfl
        · right
          refine ⟨l, 1, by rw [hL, hl], one_ne_zero, by simp, ?_⟩
          rw [a4]; simp
      · intro x p j hp hin
        obtain ⟨hx, rfl⟩ := hps x p hp
        obtain ⟨b1, b2⟩ := cat_at P.shp d s hd xs hs x hx j hin
        rw [← hzs] at b2
        refine ⟨_, b2, ?_⟩
        have h3 := (hτ _ b2).1
        rw [b1] at h3
        exact (Set.singleton_injective h3).symm
      · intro k k' hk hkk h
        rw [hk' k hk, hk' k' hkk, h]
      · intro k hk
        have h3 : opsAt P.shp (AOp.cat d) (xs.map Atom.var) k = {τ k} := (hτ k hk).1
        refine ⟨by show τ k ∈ opsAt P.shp (AOp.cat d) (xs.map Atom.var) k; rw [h3]; rfl, ?_⟩
        intro y hy hne
        have hy' : y ∈ opsAt P.shp (AOp.cat d) (xs.map Atom.var) k := hy
        rw [h3] at hy'
        exact absurd hy' hne
      · intro hg hc x hx
        rcases hx with hx | hx
        · exact full_top H.axis hg (fun j hjb => hc x _ j (if_pos (hmem x hx)) hjb)
        · simp only [List.mem_singleton] at hx
          obtain rfl := Atom.var.inj hx
          have h3 : ps x = none := if_neg (fun h => hzx x h rfl)
          rw [joinAll_other h3]
          exact topVal_true hov
  · have hexec : ∃ f, execA jn P env (AOp.cat d, xs.map Atom.var, [Atom.var z]) =
        (writeAll (aOps jn P.shp) env ([z].map Atom.var) [newCell (P.shp z) f]).1 := by
      refine ⟨(catVal d (List.zipWith (fun (c : ACell) v => (c.aval.getD d 0, fun k => (v k).1)) (xs.map env) vs)), ?_⟩
      rw [hex]; simp only [catA, hv]
      have h1 : (xs.map env).map (·.aval) = xs.map P.shp := by
        rw [List.map_map]; exact List.map_congr_left fun x _ => hxa x
      rw [hself, h1, ← hzs']; rfl
    obtain ⟨f, hexec⟩ := hexec
    have htop := mapM_top hv
    have hin : ∀ x ∈ xs, (env x).top = true := fun x hx => htop _ (List.mem_map.2 ⟨x, hx, rfl⟩)
    obtain ⟨f1, f2⟩ := writeAll_full hj P.shp env [z] [newCell (P.shp z) f] (by simp) rfl (by
      intro i w c h1 h2
      rcases i with _ | i
      · simp at h1 h2; subst h1 h2; exact ⟨_, rfl⟩
      · simp at h1)
    rw [← hexec] at f1 f2
    refine leff_fwd H he hb f1 f2 ?_ ?_
    · intro w' k hw hk u hu
      simp only [List.mem_singleton] at hw
      obtain rfl := Atom.var.inj hw
      obtain ⟨y, a1, a2, a3, -, -⟩ := H.cat hq hi hk
      have hu' : u ∈ catAt P.shp d (xs.map Atom.var) k := hu
      rw [a1, Set.mem_singleton_iff] at hu'
      subst hu'
      exact hb.top H.axis (hin _ a3) a2
    · intro x hx
      rcases hx with hx | hx
      · have hne := hzx x (hmem x hx)
        rw [f1 x (by simp [Ne.symm hne])]
        exact hin x (hmem x hx)
      · obtain ⟨v', hv'⟩ := f2 x (by simpa using hx)
        rw [hv']; simp [Cell.top, ND.new]

/-- All operations. -/
theorem exec_eff (hj : ∀ a b, Joins a b (jn a b)) (H : P.Diff ax val x₀) {e : Nat} {q} (he : P.eqns[e]? = some q)
    {env : Env ACell} (hb : Basic P ax env) (ht : TrueEnv P (val x₀) env) :
    Eff jn H e q env ∧ ((∃ st li, q.1 = .slice st li) → GoodEnv P ax env → DoneE q env → execA jn P env q = env) := by
  have hq : q ∈ P.eqns := List.mem_of_getElem? he
  obtain ⟨ws, hws, hnd⟩ := H.outs he
  obtain ⟨op, ins, outs⟩ := q
  simp only at hws
  subst hws
  have hty := H.typed.eqns _ hq
  have hcut := H.cut _ hq
  cases op with
  | un p =>
    obtain ⟨s, h1, h2⟩ := typed_un hty
    obtain ⟨a, rfl, -⟩ := map_one h1
    obtain ⟨z, rfl, -⟩ := vars_one h2
    exact ⟨eff_un hj H he hb ht, by rintro ⟨st, li, h⟩; cases h⟩
  | bin p =>
    obtain ⟨s, h1, h2⟩ := typed_bin hty
    obtain ⟨a, b, rfl, -⟩ := map_two h1
    obtain ⟨z, rfl, -⟩ := vars_one h2
    exact ⟨eff_bin hj H he hb ht, by rintro ⟨st, li, h⟩; cases h⟩
  | slice st li =>
    obtain ⟨y, s, h1, -, -⟩ := hcut
    simp only at h1; subst h1
    obtain ⟨-, -, h2⟩ := hty
    obtain ⟨z, rfl, -⟩ := vars_one h2
    obtain ⟨k1, k2⟩ := eff_slice hj H he hb ht
    exact ⟨k1, fun _ => k2⟩
  | cat d =>
    obtain ⟨xs, h1, hxn⟩ := hcut
    simp only at h1; subst h1
    have h2 : ∃ s, (ws.map Atom.var).map (fun a => (P.arr (val x₀) a).shape) = [s] := by
      obtain _ | ⟨x, xs⟩ := xs
      · exact absurd hty id
      · exact ⟨_, hty.2.2⟩
    obtain ⟨s, h2⟩ := h2
    obtain ⟨z, rfl, -⟩ := vars_one h2
    exact ⟨eff_cat hj H hxn he hb ht, by rintro ⟨st, li, h⟩; cases h⟩
  | other h => exact ⟨eff_other hj H hnd he hb ht, by rintro ⟨st, li, h⟩; cases h⟩
  | reshape t => exact absurd hcut id
  | tie => exact absurd hcut id
  | sow => exact absurd hcut id

end Verif.Inverse
