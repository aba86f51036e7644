import Verif.LogProb.JointSpec
import Verif.LogProb.Chain

/-! C79: the specification solves the equations of the program (helper lemmas). -/
namespace Verif.LogProb.Joint

open Verif.Propagate Verif.Inverse

/-- The equations of the links with their targets. -/
def linkT : Nat → List (Link × Nat) → List ((LOp × List (Atom F) × List (Atom F)) × List Nat)
  | _, [] => []
  | t, (l, y) :: ls => (l.eqn t y, [t]) :: linkT y ls

/-- The equations of a statement with their targets. -/
def Stmt.eqnsT : Stmt → List ((LOp × List (Atom F) × List (Atom F)) × List Nat)
  | .det op ins outs => [((.det op, ins, outs.map .var), outs)]
  | .draw D => ((.rv D.numConsts D.logp, D.operands, [.var D.value]), []) :: linkT D.value D.links
  | .tag _ _ => []

theorem linkT_fst (t ls) : (linkT t ls).map (·.1) = linkEqns t ls := by
  induction ls generalizing t with
  | nil => rfl
  | cons l ls ih => obtain ⟨l, y⟩ := l; simp [linkT, linkEqns, ih]

theorem Stmt.eqnsT_fst (st : Stmt) : st.eqnsT.map (·.1) = st.eqns := by
  cases st with
  | det op ins outs => rfl
  | draw D => simp [eqnsT, eqns, linkT_fst]
  | tag n a => rfl

theorem flatMap_fst (body : List Stmt) : (body.flatMap Stmt.eqnsT).map (·.1) = body.flatMap Stmt.eqns := by
  induction body with
  | nil => rfl
  | cons st body ih => simp [List.flatMap_cons, ih, Stmt.eqnsT_fst]

theorem mapM_id_length {α : Type} (l : List (Option α)) (r : List α) (h : l.mapM id = some r) : r.length = l.length := by
  induction l generalizing r with
  | nil => simp at h; subst h; rfl
  | cons a l ih =>
    rcases a with _ | a
    · simp [List.mapM_cons] at h
    · rcases hm : l.mapM id with _ | r'
      · simp [List.mapM_cons, hm] at h
      · simp [List.mapM_cons, hm] at h
        subst h; simp [ih r' hm]

/-! ### Putting -/

theorem put_same (env x c) : put env x c x = c := by simp [put]
theorem put_ne (env c) {x y : Nat} (h : y ≠ x) : put env x c y = env y := by simp [put, h]

theorem putAll_frame (env : Env ICell) (xs : List Nat) (cs : List ICell) (y : Nat) (h : y ∉ xs) :
    putAll env xs cs y = env y := by
  induction xs generalizing env cs with
  | nil => cases cs <;> rfl
  | cons x xs ih =>
    obtain _ | ⟨c, cs⟩ := cs
    · rfl
    · simp only [List.mem_cons, not_or] at h
      rw [putAll, ih _ _ h.2, put_ne _ _ h.1]

theorem putAll_get (env : Env ICell) (xs : List Nat) (cs : List ICell) (hn : xs.Nodup) (hl : cs.length = xs.length) :
    xs.map (putAll env xs cs) = cs := by
  induction xs generalizing env cs with
  | nil => cases cs <;> simp_all
  | cons x xs ih =>
    obtain _ | ⟨c, cs⟩ := cs
    · simp at hl
    · rw [List.nodup_cons] at hn
      simp only [List.map_cons, putAll]
      rw [ih _ _ hn.2 (by simpa using hl), putAll_frame _ _ _ _ hn.1, put_same]

theorem putChain_frame (env0 : Env ICell) (t ls c env) (y : Nat) (h : y ∉ t :: ls.map (fun l : Link × Nat => l.2)) :
    putChain env0 t ls c env y = env y := by
  induction ls generalizing t with
  | nil => simp only [List.map_nil, List.mem_singleton] at h; exact put_ne _ _ h
  | cons l ls ih =>
    obtain ⟨l, z⟩ := l
    simp only [List.map_cons, List.mem_cons, not_or] at h
    rw [putChain, put_ne _ _ h.1]
    exact ih z (by simp only [List.mem_cons, not_or]; exact h.2)

theorem putChain_head (env0 : Env ICell) (t ls c env) : putChain env0 t ls c env t = chainCell env0 ls c := by
  cases ls with
  | nil => exact put_same _ _ _
  | cons l ls => obtain ⟨l, z⟩ := l; exact put_same _ _ _

theorem Stmt.run_frame (lat) (env : Env ICell) (st : Stmt) (y : Nat) (h : y ∉ st.defs) : st.run lat env y = env y := by
  cases st with
  | det op ins outs =>
    simp only [run]
    rcases (ins.map (Propagate.read iOps env)).mapM id with _ | vs
    · rfl
    · exact putAll_frame _ _ _ _ h
  | draw D => exact putChain_frame _ _ _ _ _ _ h
  | tag n a => rfl

theorem runAll_frame (lat) (env : Env ICell) (body : List Stmt) (y : Nat) (h : y ∉ body.flatMap Stmt.defs) :
    runAll lat env body y = env y := by
  induction body generalizing env with
  | nil => rfl
  | cons st body ih =>
    simp only [List.flatMap_cons, List.mem_append, not_or] at h
    rw [runAll, ih _ h.2, st.run_frame _ _ _ h.1]

/-! ### The equations that the result of the specification satisfies -/

/-- The equations of the links. -/
def ChainEq (G : Env ICell) : Nat → List (Link × Nat) → ICell → Prop
  | t, [], c => G t = c
  | t, (l, y) :: ls, c => G t = l.back G (G y) ∧ ChainEq G y ls c

/-- The equations of a statement. -/
def Stmt.Eqs (lat : String → Option F) (G : Env ICell) : Stmt → Prop
  | .det op ins outs => outs.map G = match (ins.map (Propagate.read iOps G)).mapM id with
    | some vs => (op.eval (vs.map (·.1))).map fun v => some (v, some 0)
    | none => outs.map fun _ => none
  | .draw D => ChainEq G D.value D.links (D.given lat)
  | .tag _ _ => True

theorem read_congr (G G' : Env ICell) (a : Atom F) (h : ∀ x, a.node = some x → G x = G' x) :
    Propagate.read iOps G a = Propagate.read iOps G' a := by
  cases a with
  | lit v => rfl
  | var x => exact h x rfl
  | drop x => exact h x rfl

theorem Link.back_congr (G G' : Env ICell) (l : Link) (c : ICell)
    (h : ∀ x ∈ l.operand.filterMap Atom.node, G x = G' x) : l.back G c = l.back G' c := by
  have hr : ∀ a, l.operand = [a] → Propagate.read iOps G a = Propagate.read iOps G' a := by
    intro a ha
    refine read_congr G G' a (fun x hx => h x ?_)
    rw [ha]; simp [hx]
  cases l with
  | un p => rfl
  | left p a => simp only [back, hr a rfl]
  | right p a => simp only [back, hr a rfl]

theorem chainCell_congr (G G' : Env ICell) (ls : List (Link × Nat)) (c : ICell)
    (h : ∀ x ∈ (ls.flatMap (fun l => l.1.operand)).filterMap Atom.node, G x = G' x) :
    chainCell G ls c = chainCell G' ls c := by
  induction ls with
  | nil => rfl
  | cons l ls ih =>
    simp only [List.flatMap_cons, List.filterMap_append, List.mem_append] at h
    rw [chainCell, chainCell, ih (fun x hx => h x (.inr hx)), l.1.back_congr G G' _ (fun x hx => h x (.inl hx))]

/-- The assignments of the links satisfy their equations. -/
theorem chainEq_of (env G : Env ICell) (t ls c e0) (hn : (t :: ls.map (fun l : Link × Nat => l.2)).Nodup)
    (hu : ∀ x ∈ (ls.flatMap (fun l => l.1.operand)).filterMap Atom.node, G x = env x)
    (hG : ∀ x ∈ t :: ls.map (fun l : Link × Nat => l.2), G x = putChain env t ls c e0 x) :
    ChainEq G t ls c := by
  induction ls generalizing t with
  | nil => simp only [ChainEq]; rw [hG t (by simp), putChain_head]; rfl
  | cons l ls ih =>
    obtain ⟨l, y⟩ := l
    simp only [List.map_cons] at hn hG
    rw [List.nodup_cons] at hn
    simp only [List.flatMap_cons, List.filterMap_append, List.mem_append] at hu
    have hG' : ∀ x ∈ y :: ls.map (fun l : Link × Nat => l.2), G x = putChain env y ls c e0 x := by
      intro x hx
      rw [hG x (List.mem_cons_of_mem _ hx), putChain, put_ne]
      rintro rfl
      exact hn.1 hx
    refine ⟨?_, ih y hn.2 (fun x hx => hu x (.inr hx)) hG'⟩
    rw [hG t (by simp), putChain_head, hG' y (by simp), putChain_head, chainCell]
    exact (l.back_congr G env _ (fun x hx => hu x (.inl hx))).symm

theorem Stmt.eqs_of_run (lat) (env G : Env ICell) (st : Stmt) (hs : st.Sized) (hn : st.defs.Nodup)
    (hnone : ∀ x ∈ st.defs, env x = none)
    (hu : ∀ x ∈ st.uses, G x = env x) (hG : ∀ x ∈ st.defs, G x = st.run lat env x) : st.Eqs lat G := by
  cases st with
  | det op ins outs =>
    have hr : ins.map (Propagate.read iOps G) = ins.map (Propagate.read iOps env) := by
      apply map_read_congr
      intro x hx
      refine hu x ?_
      simp only [uses, List.mem_filterMap]
      obtain ⟨a, h1, h2⟩ := List.mem_map.1 hx
      exact ⟨a, h1, h2⟩
    simp only [Eqs, hr]
    have hG' : outs.map G = outs.map (run lat env (.det op ins outs)) := List.map_congr_left hG
    rw [hG']
    simp only [run]
    rcases hm : (ins.map (Propagate.read iOps env)).mapM id with _ | vs
    · simp only
      exact List.map_congr_left hnone
    · simp only
      refine putAll_get _ _ _ hn ?_
      simp only [List.length_map]
      refine (hs.2 _ ?_).1
      have := mapM_id_length _ _ hm
      simpa using this
  | draw D =>
    refine chainEq_of env G _ _ _ env hn ?_ hG
    intro x hx
    refine hu x ?_
    simp only [uses, List.filterMap_append, List.mem_append]
    exact .inr hx
  | tag n a => trivial

/-- The result of the specification satisfies the equations of every statement. -/
theorem runAll_eqs (lat) (body : List Stmt) (env : Env ICell) (hs : ∀ st ∈ body, st.Sized) (hsc : Scoped body)
    (hn : (body.flatMap Stmt.defs).Nodup) (hnone : ∀ x ∈ body.flatMap Stmt.defs, env x = none) :
    ∀ st ∈ body, st.Eqs lat (runAll lat env body) := by
  induction body generalizing env with
  | nil => simp
  | cons st body ih =>
    simp only [List.flatMap_cons] at hn hnone
    rw [List.nodup_append] at hn
    obtain ⟨hn1, hn2, hn3⟩ := hn
    have hdisj : ∀ x ∈ st.defs, x ∉ body.flatMap Stmt.defs := fun x hx hx' => hn3 x hx x hx' rfl
    intro st' hst'
    rcases List.mem_cons.1 hst' with rfl | hst'
    · refine st'.eqs_of_run lat env _ (hs _ (by simp)) hn1 (fun x hx => hnone x (List.mem_append_left _ hx)) ?_ ?_
      · intro x hx
        have := hsc.1 x hx
        simp only [List.mem_append, not_or] at this
        rw [runAll, runAll_frame _ _ _ _ this.2, st'.run_frame _ _ _ this.1]
      · intro x hx
        rw [runAll, runAll_frame _ _ _ _ (hdisj x hx)]
    · refine ih (st.run lat env) (fun s h => hs s (List.mem_cons_of_mem _ h)) hsc.2 hn2 ?_ st' hst'
      intro x hx
      rw [st.run_frame _ _ _ (fun h => hdisj x h hx)]
      exact hnone x (List.mem_append_right _ hx)

end Verif.LogProb.Joint
