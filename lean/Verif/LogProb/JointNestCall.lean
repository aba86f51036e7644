import Verif.LogProb.JointNest
import Verif.LogProb.JointMain

/-! C79: the propagation through the function of one random variable (helper lemmas). -/
namespace Verif.LogProb.Joint

open Verif.Propagate Verif.Inverse

/-- The term of a random variable whose value has the cell `c`. -/
noncomputable def Draw.at (D : Draw) (env : Env ICell) (c : ICell) : Option F :=
  match (((D.operands.drop D.numConsts).drop 1).map (Propagate.read iOps env)).mapM id, chainCell env D.links c with
  | some ps, some (v, l) => some (addF (D.logp (ps.map (·.1)) [v]) l)
  | _, _ => none

theorem Draw.at_given (D : Draw) (lat env) : D.at env (D.given lat) = D.term lat env := rfl

theorem invars_eq (D : Draw) : D.invars = (Stmt.draw D).uses.dedup := rfl

theorem mem_invars {D : Draw} {x : Nat} : x ∈ D.invars ↔ x ∈ (Stmt.draw D).uses := by rw [invars_eq, List.mem_dedup]

theorem draw_at (env G : Env ICell) (D : Draw) (c : ICell)
    (hu : ∀ x ∈ (Stmt.draw D).uses, G x = env x) (hv : G D.value = chainCell env D.links c) :
    rvTerm G (.rv D.numConsts D.logp, D.operands, [.var D.value]) = some (D.at env c) := by
  have hr : ((D.operands.drop D.numConsts).drop 1).map (Propagate.read iOps G) =
      ((D.operands.drop D.numConsts).drop 1).map (Propagate.read iOps env) := by
    apply map_read_congr
    intro x hx
    refine hu x ?_
    obtain ⟨a, h1, h2⟩ := List.mem_map.1 hx
    simp only [Stmt.uses, List.filterMap_append, List.mem_append]
    exact .inl (List.mem_filterMap.2 ⟨a, List.mem_of_mem_drop (List.mem_of_mem_drop h1), h2⟩)
  simp only [rvTerm, Draw.at, hr, List.map_cons, List.map_nil, Propagate.read, hv]
  rcases (((D.operands.drop D.numConsts).drop 1).map (Propagate.read iOps env)).mapM id with _ | ps
  · simp
  · rcases chainCell env D.links c with _ | ⟨v, l⟩
    · simp
    · simp [ildjSum, addF_zero_left]

/-- The initial environment. -/
theorem initEnv_eq {T : Type} (J : Jaxpr ICell F T) (hc : J.constvars = []) (ins outs : List ICell) :
    initEnv iOps J [] ins outs =
      (writeAll iOps (writeAll iOps (fun _ => none) J.invars ins).1 J.outvars outs).1 := by
  have h0 : ∀ env : Env ICell, (writeAll iOps env J.constvars []).1 = env := by
    intro env; rw [hc]; rfl
  simp only [initEnv, h0]
  rw [writeAll_none]
  · rfl
  · intro j x c ha hcs
    rw [List.getElem?_map, ha] at hcs
    simp only [Option.map_some, Atom.node, iOps, Option.some.injEq] at hcs
    exact hcs.symm

/-- The initial environment of the call. -/
noncomputable def callEnv (D : Draw) (i : List ICell) (c : ICell) : Env ICell :=
  put (putAll (fun _ => none) D.invars i) (lastVar D.value D.links) c

theorem last_mem (t : Nat) (ls : List (Link × Nat)) : lastVar t ls ∈ t :: ls.map (fun l : Link × Nat => l.2) := by
  rw [← linkT_targets]; simp

theorem initEnv_call (D : Draw) (hu : ∀ x ∈ (Stmt.draw D).uses, x ∉ (Stmt.draw D).defs) (i : List ICell) (c : ICell) :
    initEnv iOps D.prog.jaxpr [] i [c] = callEnv D i c := by
  rw [initEnv_eq _ rfl]
  show (writeAll iOps (writeAll iOps (fun _ => none) (D.invars.map Atom.var) i).1 [Atom.var (lastVar D.value D.links)] [c]).1 = _
  rw [writeAll_putAll _ _ _ (by rw [invars_eq]; exact List.nodup_dedup _) (fun _ _ => rfl)]
  simp only [writeAll]
  rw [write_put]
  · rfl
  · rw [putAll_frame]
    intro hc
    exact hu _ (mem_invars.1 hc) (last_mem _ _)

theorem draw_sized (D : Draw) : Propagate.Sized D.prog.jaxpr := by
  intro q hq i o hi ho
  simp only [LProg.jaxpr, Draw.prog, List.mem_map] at hq
  obtain ⟨r, hr, rfl⟩ := hq
  rcases List.mem_cons.1 hr with rfl | h2
  · simp only [LOp.rule, rvRule]
    split <;> exact ⟨hi, ho⟩
  · exact linkEqns_sized _ _ r h2 i o hi ho

theorem draw_value (D : Draw) : HasValue D.prog := by
  intro q hq nc d hd
  have hlink : ∀ t ls, q ∉ linkEqns t ls := by
    intro t ls hc
    induction ls generalizing t with
    | nil => simp [linkEqns] at hc
    | cons l ls ih =>
      obtain ⟨l, y⟩ := l
      rcases List.mem_cons.1 hc with rfl | hc
      · cases l <;> simp [Link.eqn] at hd
      · exact ih y hc
  rcases List.mem_cons.1 hq with rfl | h2
  · exact ⟨D.value, by simp [Atom.node]⟩
  · exact absurd h2 (hlink _ _)

/-- The targets of the equations of the function. -/
def Draw.targets (D : Draw) (e : Nat) : List Nat := (((Stmt.draw D).eqnsT[e]?).map (·.2)).getD []

/-- What is known in the end. -/
noncomputable def callFinal (D : Draw) (i : List ICell) (c : ICell) : Env ICell :=
  putChain (callEnv D i c) D.value D.links c (callEnv D i c)

theorem call_eqn (D : Draw) (e : Nat) (q) : D.prog.jaxpr.eqns[e]? = some q ↔
    ∃ qT, (Stmt.draw D).eqnsT[e]? = some qT ∧ q = peqn qT.1 := by
  have : D.prog.jaxpr.eqns = (Stmt.draw D).eqnsT.map (fun qT => peqn qT.1) := by
    simp only [LProg.jaxpr, Draw.prog, ← Stmt.eqnsT_fst, List.map_map]
    rfl
  rw [this, List.getElem?_map, Option.map_eq_some_iff]
  constructor
  · rintro ⟨a, h1, h2⟩; exact ⟨a, h1, h2.symm⟩
  · rintro ⟨a, h1, h2⟩; exact ⟨a, h1, h2.symm⟩

theorem call_nbr (D : Draw) (x e : Nat) : Nbr D.prog.jaxpr x e ↔
    ∃ qT, (Stmt.draw D).eqnsT[e]? = some qT ∧ some x ∈ (qT.1.2.1 ++ qT.1.2.2).map Atom.node := by
  simp only [Nbr, call_eqn]
  constructor
  · rintro ⟨q, ⟨qT, h1, rfl⟩, h2⟩; exact ⟨qT, h1, h2⟩
  · rintro ⟨qT, h1, h2⟩; exact ⟨_, ⟨qT, h1, rfl⟩, h2⟩

theorem callEnv_frame (D : Draw) (i c) (x : Nat) (h1 : x ∉ D.invars) (h2 : x ≠ lastVar D.value D.links) :
    callEnv D i c x = none := by
  rw [callEnv, put_ne _ _ h2, putAll_frame _ _ _ _ h1]

section
variable {D : Draw} (hn : (Stmt.draw D).defs.Nodup) (hu : ∀ x ∈ (Stmt.draw D).uses, x ∉ (Stmt.draw D).defs)
  (i : List ICell) (c : ICell)
include hn hu

theorem callFinal_chain : ChainEq (callFinal D i c) D.value D.links c := by
  refine chainEq_of (callEnv D i c) _ _ _ _ (callEnv D i c) hn ?_ (fun x _ => rfl)
  intro x hx
  rw [callFinal, putChain_frame]
  refine hu x ?_
  simp only [Stmt.uses, List.filterMap_append, List.mem_append]
  exact .inr hx

theorem call_system : System D.prog.jaxpr D.targets (fun x => callEnv D i c x ≠ none) (callFinal D i c) := by
  have hch := callFinal_chain hn hu i c
  have hgood : ∀ e qT, (Stmt.draw D).eqnsT[e]? = some qT → Good (callFinal D i c) qT.1 qT.2 ∧ D.targets e = qT.2 := by
    intro e qT he
    refine ⟨?_, by simp [Draw.targets, he]⟩
    rcases List.mem_cons.1 (List.mem_of_getElem? he) with rfl | hq
    · exact good_rv _ _ _ _ _
    · refine good_chain _ _ _ _ hn ?_ hch qT hq
      intro x hx
      refine hu x ?_
      simp only [Stmt.uses, List.filterMap_append, List.mem_append]
      exact .inr hx
  have htgt : ∀ e x, x ∈ D.targets e → ∃ qT, (Stmt.draw D).eqnsT[e]? = some qT ∧ x ∈ qT.2 := by
    intro e x hx
    rcases he : (Stmt.draw D).eqnsT[e]? with _ | qT
    · simp [Draw.targets, he] at hx
    · exact ⟨qT, rfl, by simpa [Draw.targets, he] using hx⟩
  have hnd : ((Stmt.draw D).eqnsT.flatMap (·.2)).Nodup := (eqnsT_defs _).nodup hn
  have hroot : ∀ x, callEnv D i c x ≠ none → x ∈ D.invars ∨ x = lastVar D.value D.links := by
    intro x hx
    by_contra hc
    rw [not_or] at hc
    exact hx (callEnv_frame D i c x hc.1 hc.2)
  have hframe : ∀ x ∈ D.invars, callFinal D i c x = callEnv D i c x := by
    intro x hx
    rw [callFinal, putChain_frame]
    exact hu x (mem_invars.1 hx)
  have hlast : callFinal D i c (lastVar D.value D.links) = callEnv D i c (lastVar D.value D.links) := by
    rw [chainEq_last _ _ _ _ hch, callEnv, put_same]
  refine ⟨?_, ?_, ?_, ?_, ?_, ?_, ?_, ?_⟩
  · intro e x hx
    obtain ⟨qT, h1, h2⟩ := htgt e x hx
    exact (call_nbr D x e).2 ⟨qT, h1, (hgood e qT h1).1.nbr x h2⟩
  · intro e e' x hx hx'
    obtain ⟨p, h1, h2⟩ := htgt e x hx
    obtain ⟨p', h3, h4⟩ := htgt e' x hx'
    exact index_unique _ hnd e e' p p' x h1 h3 h2 h4
  · intro e x hx hr
    obtain ⟨qT, h1, h2⟩ := htgt e x hx
    have hmem : x ∈ (Stmt.draw D).eqnsT.flatMap (·.2) := List.mem_flatMap.2 ⟨qT, List.mem_of_getElem? h1, h2⟩
    rcases hroot x hr with h3 | h3
    · exact hu x (mem_invars.1 h3) ((eqnsT_defs _).subset hmem)
    · subst h3
      have hn' : ((linkT D.value D.links).flatMap (·.2) ++ [lastVar D.value D.links]).Nodup := by rw [linkT_targets]; exact hn
      rw [List.nodup_append] at hn'
      simp only [Stmt.eqnsT, List.flatMap_cons, List.nil_append] at hmem
      exact hn'.2.2 _ hmem _ (by simp) rfl
  · intro x hr
    rcases hroot x hr with h3 | h3
    · rw [hframe x h3]; exact hr
    · subst h3; rw [hlast]; exact hr
  · intro e q he
    obtain ⟨qT, h1, rfl⟩ := (call_eqn D e q).1 he
    rw [(hgood e qT h1).2]
    exact (hgood e qT h1).1.solve
  · intro e q env he hnone hex
    obtain ⟨qT, h1, rfl⟩ := (call_eqn D e q).1 he
    rw [(hgood e qT h1).2] at hnone hex
    refine (hgood e qT h1).1.idle env hnone ?_
    obtain ⟨x, h2, h3⟩ := hex
    obtain ⟨qT', h4, h5⟩ := (call_nbr D x e).1 h2
    rw [h1] at h4; obtain rfl := Option.some.inj h4
    exact ⟨x, h5, h3⟩
  · intro x hx
    by_cases hd : x ∈ (Stmt.draw D).defs
    · refine reach_chain (callEnv D i c) (fun x hx => .root x hx) D.value D.links c ?_ ?_ hn ?_ x hd (callEnv D i c) hx
      · intro hc; rw [callEnv, put_same]; exact hc
      · intro qT hq
        obtain ⟨e, he⟩ := List.mem_iff_getElem?.1 (show qT ∈ (Stmt.draw D).eqnsT from List.mem_cons_of_mem _ hq)
        refine ⟨e, (hgood e qT he).2, ?_⟩
        intro z
        rw [call_nbr]
        constructor
        · rintro ⟨qT', h1, h2⟩
          rw [he] at h1; obtain rfl := Option.some.inj h1; exact h2
        · exact fun h2 => ⟨qT, he, h2⟩
      · intro z hz
        refine hu z ?_
        simp only [Stmt.uses, List.filterMap_append, List.mem_append]
        exact .inr hz
    · refine .root x ?_
      rw [callFinal, putChain_frame _ _ _ _ _ _ hd] at hx
      exact hx
  · intro e _ hall x hx
    obtain ⟨qT, h1, h2⟩ := htgt e x hx
    refine (hgood e qT h1).1.all ?_ x h2
    intro y hy hyT
    exact hall y ((call_nbr D y e).2 ⟨qT, h1, hy⟩) (by rw [(hgood e qT h1).2]; exact hyT)

/-- A call leaves the cells as they are and returns the term of the random variable. -/
theorem call_rule (r : CallRule) (hr : Calls D.prog r) (hi : i.length = D.invars.length) :
    r i [c] = (i, [c], some (D.at (callEnv D i c) c)) := by
  obtain ⟨s0, s, h0, hst, hq, hrr⟩ := hr i [c] (by simpa [Draw.prog] using hi) rfl
  have hsys := call_system hn hu i c
  have henv0 : s0.env = callEnv D i c := by rw [h0.1, initEnv_call D hu]
  have hr1 : ∀ x, callEnv D i c x ≠ none → s0.env x = callFinal D i c x := by
    intro x hx
    rw [henv0]
    by_cases hl : x = lastVar D.value D.links
    · subst hl
      rw [chainEq_last _ _ _ _ (callFinal_chain hn hu i c), callEnv, put_same]
    · rw [callFinal, putChain_frame]
      intro hd
      have hin : x ∈ D.invars := by
        by_contra hc
        exact hx (callEnv_frame D i c x hc hl)
      exact hu x (mem_invars.1 hin) hd
  have hr2 : ∀ x, ¬ callEnv D i c x ≠ none → s0.env x = none := by
    intro x hx; rw [henv0]; exact Classical.not_not.1 hx
  have hG : s.env = callFinal D i c := (hsys.final (draw_sized D) _ _ _ s0 s h0 hr1 hr2 hst).2 hq
  have hfin := hsys.finish D.prog (draw_sized D) (draw_value D) _ _ s0 s h0 hr1 hr2 hst hq
  have hin : D.invars.map (callFinal D i c) = i := by
    have : D.invars.map (callFinal D i c) = D.invars.map (putAll (fun _ => none) D.invars i) := by
      apply List.map_congr_left
      intro x hx
      have hd := hu x (mem_invars.1 hx)
      rw [callFinal, putChain_frame _ _ _ _ _ _ hd, callEnv, put_ne]
      rintro rfl
      exact hd (last_mem _ _)
    rw [this]
    exact putAll_get _ _ _ (by rw [invars_eq]; exact List.nodup_dedup _) hi
  rw [hrr, hfin, hG]
  congr 1
  · simp only [Draw.prog, List.map_map]
    exact hin
  · congr 1
    · simp only [Draw.prog, List.map_cons, List.map_nil, Propagate.read]
      rw [chainEq_last _ _ _ _ (callFinal_chain hn hu i c)]
    · congr 1
      simp only [Draw.prog, Stmt.eqns]
      rw [List.filterMap_cons, linkEqns_terms, draw_at (callEnv D i c) _ D c]
      · simp only [List.mapM_cons, List.mapM_nil, id_eq]
        rcases D.at (callEnv D i c) c with _ | v
        · rfl
        · simp [sumF, addF_zero_right]
      · intro x hx
        rw [callFinal, putChain_frame]
        exact hu x hx
      · exact putChain_head _ _ _ _ _

end

end Verif.LogProb.Joint
