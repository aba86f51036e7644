import Verif.LogProb.JointEqns

/-! C79: the equations of the program, their targets and their rules (helper lemmas). -/
namespace Verif.LogProb.Joint

open Verif.Propagate Verif.Inverse

/-- The propagation equation of an equation of the program. -/
noncomputable def peqn (q : LOp × List (Atom F) × List (Atom F)) : Eqn ICell F (Option F) := ⟨q.2.1, q.2.2, q.1.rule⟩

theorem Op.rule_fwd (op : Op) (i : List ICell) (n : Nat)
    (hs : ∀ vs : List F, vs.length = i.length → (op.eval vs).length = n ∧
      (match op with | .un _ => i.length = 1 | .bin _ => i.length = 2 | .other _ => True)) :
    (op.rule i (List.replicate n none)).1 = i ∧ (op.rule i (List.replicate n none)).2.1 =
      match i.mapM id with
      | some vs => (op.eval (vs.map (·.1))).map fun v => some (v, some 0)
      | none => List.replicate n none := by
  have hl := hs (List.replicate i.length none) (by simp)
  cases op with
  | un p =>
    obtain ⟨h1, h2⟩ := hl
    simp only at h2
    obtain ⟨c, rfl⟩ := List.length_eq_one_iff.1 h2
    simp [Op.eval] at h1
    subst h1
    obtain _ | ⟨v, l⟩ := c <;> simp [Op.rule, unRule, Op.eval]
  | bin p =>
    obtain ⟨h1, h2⟩ := hl
    simp only at h2
    obtain ⟨c, c', rfl⟩ := List.length_eq_two.1 h2
    simp [Op.eval] at h1
    subst h1
    obtain _ | ⟨v, l⟩ := c <;> obtain _ | ⟨v', l'⟩ := c' <;> simp [Op.rule, binRule, Op.eval]
  | other h =>
    have hall : (List.replicate n (none : ICell)).all (·.isNone) = true := by simp
    simp only [Op.rule, defRule, hall, if_true]
    rcases i.mapM id with _ | vs <;> exact ⟨rfl, rfl⟩

theorem writeAll_putAll (env : Env ICell) (xs : List Nat) (cs : List ICell) (hn : xs.Nodup) (hnone : ∀ x ∈ xs, env x = none) :
    (writeAll iOps env (xs.map Atom.var) cs).1 = putAll env xs cs := by
  induction xs generalizing env cs with
  | nil => cases cs <;> rfl
  | cons x xs ih =>
    obtain _ | ⟨c, cs⟩ := cs
    · rfl
    · rw [List.nodup_cons] at hn
      have hw : (write iOps env (Atom.var x) c).1 = put env x c := by
        funext y
        simp only [write, put, iOps, hnone x (by simp)]
        by_cases hy : y = x
        · simp only [hy, if_true]; cases c <;> rfl
        · simp [hy]
      simp only [List.map_cons, writeAll, putAll, hw]
      refine ih _ _ hn.2 ?_
      intro y hy
      rw [put_ne]
      · exact hnone y (List.mem_cons_of_mem _ hy)
      · rintro rfl; exact hn.1 hy

theorem putAll_all (env G : Env ICell) (xs : List Nat) (h : ∀ x, x ∉ xs → env x = G x) : putAll env xs (xs.map G) = G := by
  induction xs generalizing env with
  | nil => funext x; exact h x (by simp)
  | cons x xs ih =>
    simp only [List.map_cons, putAll]
    refine ih _ ?_
    intro y hy
    by_cases hyx : y = x
    · subst hyx; exact put_same _ _ _
    · rw [put_ne _ _ hyx]; exact h y (by simp [hyx, hy])

/-- What the theorem about systems needs of one equation. -/
structure Good (G : Env ICell) (q : LOp × List (Atom F) × List (Atom F)) (T : List Nat) : Prop where
  nbr : ∀ x ∈ T, some x ∈ (q.2.1 ++ q.2.2).map Atom.node
  solve : (exec iOps (blank T G) (peqn q)).1 = G
  idle : ∀ env : Env ICell, (∀ x ∈ T, env x = none) →
    (∃ x, some x ∈ (q.2.1 ++ q.2.2).map Atom.node ∧ x ∉ T ∧ env x = none) → (exec iOps env (peqn q)).1 = env
  all : (∀ y, some y ∈ (q.2.1 ++ q.2.2).map Atom.node → y ∉ T → G y ≠ none) → ∀ x ∈ T, G x ≠ none

theorem exec_self (env : Env ICell) (q : Eqn ICell F (Option F))
    (h1 : (q.rule (q.ins.map (Propagate.read iOps env)) (q.outs.map (Propagate.read iOps env))).1 =
      q.ins.map (Propagate.read iOps env))
    (h2 : (q.rule (q.ins.map (Propagate.read iOps env)) (q.outs.map (Propagate.read iOps env))).2.1 =
      q.outs.map (Propagate.read iOps env)) : (exec iOps env q).1 = env := by
  simp only [exec]
  rw [h1, h2, writeAll_self, writeAll_self]

theorem map_var_none (env : Env ICell) (outs : List Nat) (h : ∀ x ∈ outs, env x = none) :
    (outs.map Atom.var).map (Propagate.read iOps env) = List.replicate outs.length (none : ICell) := by
  rw [List.map_map, ← List.map_const' ]
  apply List.map_congr_left
  intro x hx
  exact h x hx

theorem good_det (G : Env ICell) (lat) (op : Op) (ins : List (Atom F)) (outs : List Nat)
    (hs : (Stmt.det op ins outs).Sized) (hn : outs.Nodup) (hd : ∀ x, some x ∈ ins.map Atom.node → x ∉ outs)
    (he : (Stmt.det op ins outs).Eqs lat G) : Good G (.det op, ins, outs.map .var) outs := by
  have hrule := fun (env : Env ICell) => Op.rule_fwd op (ins.map (Propagate.read iOps env)) outs.length (fun vs hv => hs.2 vs (by simpa using hv) |>.imp id
    (fun h => by cases op <;> simpa using h))
  refine ⟨?_, ?_, ?_, ?_⟩
  · intro x hx
    simp only [List.map_append, List.mem_append]
    exact .inr (List.mem_map.2 ⟨.var x, List.mem_map.2 ⟨x, hx, rfl⟩, rfl⟩)
  · have hb : ∀ x ∈ outs, blank outs G x = none := fun x hx => by simp [blank, hx]
    have hi : ins.map (Propagate.read iOps (blank outs G)) = ins.map (Propagate.read iOps G) := by
      apply map_read_congr
      intro x hx
      simp [blank, hd x hx]
    simp only [exec, peqn, LOp.rule]
    rw [map_var_none _ _ hb, (hrule _).1, (hrule _).2, writeAll_self, writeAll_putAll _ _ _ hn hb, hi]
    have : (match (ins.map (Propagate.read iOps G)).mapM id with
        | some vs => (op.eval (vs.map (·.1))).map fun v => some (v, some 0)
        | none => List.replicate outs.length none) = outs.map G := by
      simp only [Stmt.Eqs] at he
      rw [he]
      rcases (ins.map (Propagate.read iOps G)).mapM id with _ | vs
      · simp only [List.map_const']
      · rfl
    rw [this]
    refine putAll_all _ _ _ ?_
    intro x hx; simp [blank, hx]
  · intro env hnone ⟨x, hx, hxT, hxn⟩
    have hm : (ins.map (Propagate.read iOps env)).mapM id = none := by
      rcases hm : (ins.map (Propagate.read iOps env)).mapM id with _ | vs
      · rfl
      · exfalso
        simp only [List.map_append, List.mem_append] at hx
        rcases hx with hx | hx
        · exact (mapM_read env ins).1 (by rw [hm]; rfl) x hx hxn
        · simp only [List.map_map, List.mem_map, Function.comp, Atom.node, Option.some.injEq, exists_eq_right] at hx
          exact hxT hx
    have h1 := hrule env
    rw [hm] at h1
    apply exec_self
    · simp only [peqn, LOp.rule]
      rw [map_var_none _ _ hnone]; exact h1.1
    · simp only [peqn, LOp.rule]
      rw [map_var_none _ _ hnone]; exact h1.2
  · intro hall x hx
    have hm := (mapM_read G ins).2 (fun y hy => hall y (by simp only [List.map_append, List.mem_append]; exact .inl hy) (hd y hy))
    obtain ⟨vs, hvs⟩ := Option.isSome_iff_exists.1 hm
    simp only [Stmt.Eqs, hvs] at he
    have : G x ∈ outs.map G := List.mem_map.2 ⟨x, hx, rfl⟩
    rw [he] at this
    obtain ⟨v, -, hv⟩ := List.mem_map.1 this
    rw [← hv]; simp

theorem good_rv (G : Env ICell) (nc d ins outs) : Good G (.rv nc d, ins, outs) [] := by
  refine ⟨by simp, ?_, ?_, by simp⟩
  · have : blank [] G = G := by funext x; simp [blank]
    rw [this]
    exact rv_exec_self G nc d ins outs
  · intro env _ _
    exact rv_exec_self env nc d ins outs

theorem good_un (G : Env ICell) (p : Un) (t y : Nat) (hty : t ≠ y) (h : G t = (Link.un p).back G (G y)) :
    Good G ((Link.un p).eqn t y) [t] := by
  have hyt : y ≠ t := fun h => hty h.symm
  refine ⟨?_, ?_, ?_, ?_⟩
  · intro x hx; simp only [List.mem_singleton] at hx; subst hx; simp [Link.eqn, Atom.node]
  · rcases hy : G y with _ | ⟨v, l⟩
    · have ht : G t = none := by rw [h, hy]; rfl
      have hb : blank [t] G = G := by
        funext x; simp only [blank, List.mem_singleton]
        split
        · rename_i hx; rw [hx, ht]
        · rfl
      rw [hb]
      apply exec_self <;> simp [peqn, Link.eqn, LOp.rule, Op.rule, Propagate.read, ht, hy, unRule]
    · have ht : G t = some (v.bind p.g, p.ld l v) := by rw [h, hy]; rfl
      have hbt : blank [t] G t = none := by simp [blank]
      have hby : blank [t] G y = some (v, l) := by simp [blank, hyt, hy]
      funext x
      simp only [exec, peqn, Link.eqn, LOp.rule, Op.rule, List.map_cons, List.map_nil, Propagate.read, hbt, hby, unRule, writeAll, write, iOps]
      by_cases hx : x = y
      · subst hx; simp [hyt, hby, hy]
      · by_cases hx' : x = t
        · subst hx'; simp [hx, ht]
        · simp [hx, hx', blank]
  · intro env hnone ⟨x, hx, hxT, hxn⟩
    have ht := hnone t (by simp)
    simp only [Link.eqn, List.map_append, List.map_cons, List.map_nil, Atom.node, List.mem_append, List.mem_singleton,
      Option.some.injEq] at hx hxT
    have hy : env y = none := by
      rcases hx with hx | hx
      · exact absurd hx hxT
      · rw [← hx]; exact hxn
    apply exec_self <;> simp [peqn, Link.eqn, LOp.rule, Op.rule, Propagate.read, ht, hy, unRule]
  · intro hall x hx
    simp only [List.mem_singleton] at hx; subst hx
    have := hall y (by simp [Link.eqn, Atom.node]) (by simp [hyt])
    rw [h]
    obtain ⟨c, hc⟩ := Option.ne_none_iff_exists'.1 this
    rw [hc]; simp [Link.back]

theorem write_self (env : Env ICell) (a : Atom F) : (write iOps env a (Propagate.read iOps env a)).1 = env := by
  have := writeAll_self env [a]
  simpa [writeAll] using this

theorem read_blank (G : Env ICell) (t : Nat) (a : Atom F) (ha : a.node ≠ some t) :
    Propagate.read iOps (blank [t] G) a = Propagate.read iOps G a := by
  apply read_congr
  intro x hx
  have : x ≠ t := by rintro rfl; exact ha hx
  simp [blank, this]

theorem read_put (env : Env ICell) (t : Nat) (c : ICell) (a : Atom F) (ha : a.node ≠ some t) :
    Propagate.read iOps (put env t c) a = Propagate.read iOps env a := by
  apply read_congr
  intro x hx
  have : x ≠ t := by rintro rfl; exact ha hx
  simp [put, this]

theorem write_put (env : Env ICell) (t : Nat) (c : ICell) (h : env t = none) : (write iOps env (.var t) c).1 = put env t c := by
  funext y
  simp only [write, put, iOps, h]
  by_cases hy : y = t
  · simp only [hy, if_true]; cases c <;> rfl
  · simp [hy]

theorem put_blank (G : Env ICell) (t : Nat) : put (blank [t] G) t (G t) = G := by
  funext x
  simp only [put, blank, List.mem_singleton]
  split
  · rename_i h; rw [h]
  · rfl

theorem good_bin (G : Env ICell) (p : Bin) (side : Bool) (a : Atom F) (t y : Nat) (hty : t ≠ y) (hat : a.node ≠ some t)
    (h : G t = (if side then Link.left p a else Link.right p a).back G (G y)) :
    Good G ((if side then Link.left p a else Link.right p a).eqn t y) [t] := by
  have hyt : y ≠ t := fun h => hty h.symm
  have hnbr : ∀ x, some x ∈ (((if side then Link.left p a else Link.right p a).eqn t y).2.1 ++
      ((if side then Link.left p a else Link.right p a).eqn t y).2.2).map Atom.node ↔ x = t ∨ x = y ∨ a.node = some x := by
    intro x
    cases side <;> simp [Link.eqn, Atom.node, eq_comm] <;> tauto
  refine ⟨?_, ?_, ?_, ?_⟩
  · intro x hx; simp only [List.mem_singleton] at hx; exact (hnbr x).2 (.inl hx)
  · have hbt : blank [t] G t = none := by simp [blank]
    have hby : blank [t] G y = G y := by simp [blank, hyt]
    have hba := read_blank G t a hat
    by_cases hk : ∃ v l w k, G y = some (v, l) ∧ Propagate.read iOps G a = some (w, k)
    · obtain ⟨v, l, w, k, hy, ha⟩ := hk
      have hwy : (write iOps G (.var y) (some (v, l))).1 = G := by
        have := write_self G (.var y)
        rwa [show Propagate.read iOps G (.var y) = some (v, l) from hy] at this
      have hwa : ∀ env : Env ICell, Propagate.read iOps env a = some (w, k) → (write iOps env a (some (w, k))).1 = env := by
        intro env he
        have := write_self env a
        rwa [he] at this
      cases side with
      | true =>
        simp only [if_true] at h ⊢
        have ht : G t = some (bind2 p.gl w v, addF l (bind2 p.ll w v)) := by rw [h, hy]; simp [Link.back, ha]
        simp only [exec, peqn, Link.eqn, LOp.rule, Op.rule, List.map_cons, List.map_nil, hba, ha]
        simp only [Propagate.read, hbt, hby, hy, binRule, writeAll]
        rw [hwa _ (hba.trans ha), write_put _ _ _ hbt, ← ht, put_blank, hwy]
      | false =>
        simp only [Bool.false_eq_true, if_false] at h ⊢
        have ht : G t = some (bind2 p.gr w v, addF l (bind2 p.lr w v)) := by rw [h, hy]; simp [Link.back, ha]
        simp only [exec, peqn, Link.eqn, LOp.rule, Op.rule, List.map_cons, List.map_nil, hba, ha]
        simp only [Propagate.read, hbt, hby, hy, binRule, writeAll]
        rw [write_put _ _ _ hbt, ← ht, put_blank, hwa _ ha, hwy]
    · have ht : G t = none := by
        rw [h]
        rcases hy : G y with _ | ⟨v, l⟩
        · cases side <;> rfl
        · rcases ha : Propagate.read iOps G a with _ | ⟨w, k⟩
          · cases side <;> simp [Link.back, ha]
          · exact absurd ⟨v, l, w, k, hy, ha⟩ hk
      have hb : blank [t] G = G := by
        rw [← put_blank G t]
        funext x; simp only [put, blank, List.mem_singleton, ht]
        split <;> simp_all
      rw [hb]
      have hr : G y = none ∨ Propagate.read iOps G a = none := by
        rcases hy : G y with _ | ⟨v, l⟩
        · exact .inl rfl
        · rcases ha : Propagate.read iOps G a with _ | ⟨w, k⟩
          · exact .inr rfl
          · exact absurd ⟨v, l, w, k, hy, ha⟩ hk
      have hrt : Propagate.read iOps G (.var t) = none := ht
      have hry : Propagate.read iOps G (.var y) = G y := rfl
      rcases ha : Propagate.read iOps G a with _ | ⟨w, k⟩ <;> rcases hy : G y with _ | ⟨v, l⟩ <;> cases side <;>
        first
          | (rw [ha, hy] at hr; simp at hr; done)
          | (apply exec_self <;> simp [peqn, Link.eqn, LOp.rule, Op.rule, ha, hrt, hry, hy, binRule])
  · intro env hnone ⟨x, hx, hxT, hxn⟩
    have ht := hnone t (by simp)
    rw [hnbr] at hx
    simp only [List.mem_singleton] at hxT
    have hr : env y = none ∨ Propagate.read iOps env a = none := by
      rcases hx with hx | hx | hx
      · exact absurd hx hxT
      · exact .inl (hx ▸ hxn)
      · right
        cases a with
        | lit v => simp [Atom.node] at hx
        | var z => simp only [Atom.node, Option.some.injEq] at hx; subst hx; exact hxn
        | drop z => simp only [Atom.node, Option.some.injEq] at hx; subst hx; exact hxn
    have hrt : Propagate.read iOps env (.var t) = none := ht
    have hry : Propagate.read iOps env (.var y) = env y := rfl
    rcases ha : Propagate.read iOps env a with _ | ⟨w, k⟩ <;> rcases hy : env y with _ | ⟨v, l⟩ <;> cases side <;>
      first
        | (rw [ha, hy] at hr; simp at hr; done)
        | (apply exec_self <;> simp [peqn, Link.eqn, LOp.rule, Op.rule, ha, hrt, hry, hy, binRule])
  · intro hall x hx
    simp only [List.mem_singleton] at hx; subst hx
    have hy := hall y ((hnbr y).2 (by tauto)) (by simp [hyt])
    have ha : Propagate.read iOps G a ≠ none := by
      cases a with
      | lit v => simp [Propagate.read, iOps]
      | var z => exact hall z ((hnbr z).2 (by simp [Atom.node])) (by simpa [Atom.node] using hat)
      | drop z => exact hall z ((hnbr z).2 (by simp [Atom.node])) (by simpa [Atom.node] using hat)
    obtain ⟨c, hc⟩ := Option.ne_none_iff_exists'.1 hy
    obtain ⟨w, hw⟩ := Option.ne_none_iff_exists'.1 ha
    rw [h, hc]
    cases side <;> simp [Link.back, hw]

theorem good_link (G : Env ICell) (l : Link) (t y : Nat) (hty : t ≠ y) (hat : ∀ a ∈ l.operand, a.node ≠ some t)
    (h : G t = l.back G (G y)) : Good G (l.eqn t y) [t] := by
  cases l with
  | un p => exact good_un G p t y hty h
  | left p a => exact good_bin G p true a t y hty (hat a (by simp [Link.operand])) h
  | right p a => exact good_bin G p false a t y hty (hat a (by simp [Link.operand])) h

theorem good_chain (G : Env ICell) (t ls c) (hn : (t :: ls.map (fun l : Link × Nat => l.2)).Nodup)
    (hu : ∀ x ∈ (ls.flatMap (fun l => l.1.operand)).filterMap Atom.node, x ∉ t :: ls.map (fun l : Link × Nat => l.2))
    (he : ChainEq G t ls c) : ∀ qT ∈ linkT t ls, Good G qT.1 qT.2 := by
  induction ls generalizing t with
  | nil => simp [linkT]
  | cons l ls ih =>
    obtain ⟨l, y⟩ := l
    simp only [List.map_cons, List.nodup_cons] at hn
    simp only [List.flatMap_cons, List.filterMap_append, List.mem_append] at hu
    intro qT hq
    rcases List.mem_cons.1 hq with rfl | hq
    · refine good_link G l t y ?_ ?_ he.1
      · rintro rfl; exact hn.1 (by simp)
      · intro a ha hc
        exact hu t (.inl (List.mem_filterMap.2 ⟨a, ha, hc⟩)) (by simp)
    · refine ih y (List.nodup_cons.2 hn.2) ?_ he.2 qT hq
      intro x hx hc
      exact hu x (.inr hx) (List.mem_cons_of_mem _ (by simpa using hc))

theorem Stmt.good (lat) (G : Env ICell) (st : Stmt) (hs : st.Sized) (hn : st.defs.Nodup)
    (hu : ∀ x ∈ st.uses, x ∉ st.defs) (he : st.Eqs lat G) : ∀ qT ∈ st.eqnsT, Good G qT.1 qT.2 := by
  cases st with
  | det op ins outs =>
    intro qT hq
    simp only [eqnsT, List.mem_singleton] at hq
    subst hq
    refine good_det G lat op ins outs hs hn ?_ he
    intro x hx
    refine hu x ?_
    obtain ⟨a, h1, h2⟩ := List.mem_map.1 hx
    exact List.mem_filterMap.2 ⟨a, h1, h2⟩
  | draw D =>
    intro qT hq
    rcases List.mem_cons.1 hq with rfl | hq
    · exact good_rv G _ _ _ _
    · refine good_chain G _ _ _ hn ?_ he qT hq
      intro x hx
      refine hu x ?_
      simp only [uses, List.filterMap_append, List.mem_append]
      exact .inr hx
  | tag n a => intro qT hq; simp [eqnsT] at hq

end Verif.LogProb.Joint
