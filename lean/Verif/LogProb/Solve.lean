import Verif.LogProb.Sum
import Verif.Propagate.Props

/-! Propagation of `InverseAndILDJ` cells through a system of equations in which every equation has targets of its own: the
result does not depend on the order (helper lemmas of C79). -/
namespace Verif.LogProb

open Verif.Propagate Verif.Inverse

variable {S : Type}

/-- The variables that can be reached: the roots, and the targets of an equation all of whose other variables (at least
one) can be reached. -/
inductive Reach (J : Jaxpr ICell F S) (T : Nat → List Nat) (root : Nat → Prop) : Nat → Prop
  | root (x) (h : root x) : Reach J T root x
  | step (e x y) (hx : x ∈ T e) (hy : Nbr J y e) (hyT : y ∉ T e)
      (hall : ∀ z, Nbr J z e → z ∉ T e → Reach J T root z) : Reach J T root x

/-- `env` without the targets. -/
def blank (T : List Nat) (env : Env ICell) : Env ICell := fun x => if x ∈ T then none else env x

/-- `G` is the solution of the system: every equation computes its targets from its other variables and does nothing
before these are known. -/
structure System (J : Jaxpr ICell F S) (T : Nat → List Nat) (root : Nat → Prop) (G : Env ICell) : Prop where
  nbr : ∀ e x, x ∈ T e → Nbr J x e
  uniq : ∀ e e' x, x ∈ T e → x ∈ T e' → e = e'
  free : ∀ e x, x ∈ T e → ¬ root x
  known : ∀ x, root x → G x ≠ none
  solve : ∀ e q, J.eqns[e]? = some q → (exec iOps (blank (T e) G) q).1 = G
  idle : ∀ e q env, J.eqns[e]? = some q → (∀ x ∈ T e, env x = none) →
    (∃ x, Nbr J x e ∧ x ∉ T e ∧ env x = none) → (exec iOps env q).1 = env
  reach : ∀ x, G x ≠ none → Reach J T root x
  all : ∀ e, (∃ y, Nbr J y e ∧ y ∉ T e) → (∀ y, Nbr J y e → y ∉ T e → G y ≠ none) → ∀ x ∈ T e, G x ≠ none

theorem writeAll_congr (as : List (Atom F)) (cs : List ICell) (env env' : Env ICell) (x : Nat) (h : env x = env' x) :
    (writeAll iOps env as cs).1 x = (writeAll iOps env' as cs).1 x := by
  induction as generalizing env env' cs with
  | nil => cases cs <;> exact h
  | cons a as ih =>
    obtain _ | ⟨c, cs⟩ := cs
    · exact h
    · simp only [writeAll]
      refine ih _ _ _ ?_
      cases a with
      | lit v => exact h
      | drop z => exact h
      | var z =>
        by_cases hz : x = z
        · subst hz; simp [write, h]
        · simp [write, hz, h]

theorem exec_local (q : Eqn ICell F S) (env env' : Env ICell)
    (h : ∀ x, some x ∈ (q.ins ++ q.outs).map Atom.node → env x = env' x) (x : Nat)
    (hx : some x ∈ (q.ins ++ q.outs).map Atom.node) : (exec iOps env q).1 x = (exec iOps env' q).1 x := by
  have h1 : q.ins.map (Propagate.read iOps env) = q.ins.map (Propagate.read iOps env') :=
    map_read_congr iOps _ _ _ (fun y hy => h y (by simp only [List.map_append, List.mem_append]; exact .inl hy))
  have h2 : q.outs.map (Propagate.read iOps env) = q.outs.map (Propagate.read iOps env') :=
    map_read_congr iOps _ _ _ (fun y hy => h y (by simp only [List.map_append, List.mem_append]; exact .inr hy))
  simp only [exec, h1, h2]
  exact writeAll_congr _ _ _ _ _ (writeAll_congr _ _ _ _ _ (h x hx))

/-- An equation all of whose other variables are known computes its targets. -/
theorem System.fire {J : Jaxpr ICell F S} {T : Nat → List Nat} {root : Nat → Prop} {G : Env ICell}
    (H : System J T root G) (e : Nat) (q) (he : J.eqns[e]? = some q) (env : Env ICell)
    (hsub : ∀ x, env x ≠ none → env x = G x) (hT : ∀ x ∈ T e, env x = none)
    (hall : ∀ x, Nbr J x e → x ∉ T e → env x ≠ none) (x : Nat) :
    (exec iOps env q).1 x = if x ∈ T e then G x else env x := by
  by_cases hx : some x ∈ (q.ins ++ q.outs).map Atom.node
  · have hloc := exec_local q env (blank (T e) G) (fun y hy => by
      simp only [blank]
      by_cases hyT : y ∈ T e
      · simp [hyT, hT y hyT]
      · simp only [hyT, if_false]
        exact hsub y (hall y ⟨q, he, hy⟩ hyT)) x hx
    rw [hloc, H.solve e q he]
    by_cases hxT : x ∈ T e
    · simp [hxT]
    · simp only [hxT, if_false]
      exact (hsub x (hall x ⟨q, he, hx⟩ hxT)).symm
  · rw [exec_frame _ _ _ _ hx, if_neg]
    intro hxT
    obtain ⟨q', h1, h2⟩ := H.nbr e x hxT
    rw [he] at h1; obtain rfl := Option.some.inj h1
    exact hx h2

/-- What holds along every run. -/
structure SolveInv (J : Jaxpr ICell F S) (T : Nat → List Nat) (root : Nat → Prop) (G : Env ICell) (s : St ICell S) : Prop where
  sub : ∀ x, s.env x ≠ none → s.env x = G x
  root : ∀ x, root x → s.env x ≠ none
  nodup : s.queue.Nodup
  open' : ∀ e ∈ s.queue, ∀ x ∈ T e, s.env x = none
  closed : ∀ e x, x ∈ T e → s.env x ≠ none → ∀ y, Nbr J y e → s.env y ≠ none
  done : ∀ e, e ∉ s.queue → (∃ y, Nbr J y e ∧ y ∉ T e) → (∀ y, Nbr J y e → y ∉ T e → s.env y ≠ none) →
    ∀ x ∈ T e, s.env x ≠ none

theorem SolveInv.step {J : Jaxpr ICell F S} (hs : Sized J) {T : Nat → List Nat} {root : Nat → Prop} {G : Env ICell}
    (H : System J T root G) {s t : St ICell S} (h : SolveInv J T root G s) (hst : Step iOps J s t) :
    SolveInv J T root G t := by
  cases hst with
  | mk e rest q q' hq he hp =>
    have hqm := List.mem_of_getElem? he
    have hnd : (e :: rest).Nodup := hq ▸ h.nodup
    have hopen : ∀ x ∈ T e, s.env x = none := h.open' e (by rw [hq]; simp)
    -- what the equation does
    have hex : (∀ x, (exec iOps s.env q).1 x = s.env x ∨ (x ∈ T e ∧ (exec iOps s.env q).1 x = G x ∧ G x ≠ none ∧
          ∀ y, Nbr J y e → (exec iOps s.env q).1 y ≠ none)) ∧
        ((∃ y, Nbr J y e ∧ y ∉ T e) → (∀ y, Nbr J y e → y ∉ T e → s.env y ≠ none) →
          ∀ x ∈ T e, (exec iOps s.env q).1 x ≠ none) := by
      by_cases hall : ∀ y, Nbr J y e → y ∉ T e → s.env y ≠ none
      · have hf := H.fire e q he s.env h.sub hopen hall
        by_cases hy : ∃ y, Nbr J y e ∧ y ∉ T e
        · have hG : ∀ x ∈ T e, G x ≠ none := by
            refine H.all e hy (fun y h1 h2 => ?_)
            rw [← h.sub y (hall y h1 h2)]; exact hall y h1 h2
          refine ⟨fun x => ?_, fun _ _ x hx => ?_⟩
          · by_cases hx : x ∈ T e
            · refine .inr ⟨hx, by rw [hf, if_pos hx], hG x hx, ?_⟩
              intro y hyn
              rw [hf]
              split
              · rename_i hyT; exact hG y hyT
              · rename_i hyT; exact hall y hyn hyT
            · left; rw [hf, if_neg hx]
          · rw [hf, if_pos hx]; exact hG x hx
        · refine ⟨fun x => ?_, fun hy' => absurd hy' hy⟩
          by_cases hx : x ∈ T e
          · rw [hf, if_pos hx]
            by_cases hg : G x = none
            · left; rw [hg, hopen x hx]
            · exfalso
              rcases H.reach x hg with _ | ⟨e', _, z, hx', hz, hzT, -⟩
              · rename_i hr; exact H.free e x hx hr
              · obtain rfl := H.uniq e e' x hx hx'
                exact hy ⟨z, hz, hzT⟩
          · left; rw [hf, if_neg hx]
      · have hsame : (exec iOps s.env q).1 = s.env := by
          refine H.idle e q s.env he hopen ?_
          by_contra hn
          apply hall
          intro y h1 h2 h3
          exact hn ⟨y, h1, h2, h3⟩
        exact ⟨fun x => .inl (by rw [hsame]), fun _ hall' => absurd hall' hall⟩
    obtain ⟨hex1, hex2⟩ := hex
    have hmono : ∀ x, s.env x ≠ none → (exec iOps s.env q).1 x ≠ none := fun x hx => top_exec _ _ _ hx
    have hold : ∀ x, x ∉ T e → (exec iOps s.env q).1 x = s.env x := by
      intro x hx
      rcases hex1 x with h1 | ⟨h1, -⟩
      · exact h1
      · exact absurd h1 hx
    refine ⟨?_, ?_, ?_, ?_, ?_, ?_⟩
    · intro x hx
      rcases hex1 x with h1 | ⟨-, h1, -⟩
      · show (exec iOps s.env q).1 x = G x
        rw [h1]; apply h.sub; rw [← h1]; exact hx
      · exact h1
    · exact fun x hx => hmono x (h.root x hx)
    · exact hp.nodup (List.nodup_cons.1 hnd).2
    · intro e' he' x hx
      have hee : e' ≠ e := by
        rintro rfl
        rcases (hp.mem e').1 he' with h1 | ⟨h1, -⟩
        · exact (List.nodup_cons.1 hnd).1 h1
        · exact h1 rfl
      have hxe : x ∉ T e := fun hc => hee (H.uniq _ _ _ hx hc)
      show (exec iOps s.env q).1 x = none
      rw [hold x hxe]
      rcases (hp.mem e').1 he' with h1 | ⟨-, y, hy, hn⟩
      · exact h.open' e' (by rw [hq]; simp [h1]) x hx
      · by_contra hc
        have hyk := h.closed e' x hx hc y hn
        rw [mem_progressed] at hy
        obtain ⟨i, a, o, n, h1, h2, -, h4, h5⟩ := hy
        have ho : o = s.env y := by
          rw [← List.map_append, List.getElem?_map, h1] at h2
          simp only [Option.map_some, Option.some.injEq] at h2
          rw [← h2]
          cases a with
          | lit v => simp [Atom.node] at h5
          | var z => simp only [Atom.node, Option.some.injEq] at h5; subst h5; rfl
          | drop z => simp only [Atom.node, Option.some.injEq] at h5; subst h5; rfl
        simp only [iOps, Bool.and_eq_true, Option.isNone_iff_eq_none] at h4
        exact hyk (ho ▸ h4.1)
    · intro e' x hx hk y hy
      rcases hex1 x with h1 | ⟨h1, -, -, h2⟩
      · refine hmono y (h.closed e' x hx ?_ y hy)
        rw [← h1]; exact hk
      · obtain rfl := H.uniq _ _ _ hx h1
        exact h2 y hy
    · intro e' hne hex hall x hx
      by_cases hee : e' = e
      · subst hee
        refine hex2 hex ?_ x hx
        intro y h1 h2
        rw [← hold y h2]; exact hall y h1 h2
      · have hne' : e' ∉ s.queue := by
          rw [hq]
          intro hc
          rcases List.mem_cons.1 hc with hc | hc
          · exact hee hc
          · exact hne ((hp.mem e').2 (.inl hc))
        refine hmono x (h.done e' hne' hex ?_ x hx)
        intro y h1 h2 h3
        exact hne ((hp.mem e').2 (.inr ⟨hee, y, known_progressed hs hqm _ _ h3 (hall y h1 h2), h1⟩))

theorem SolveInv.init {J : Jaxpr ICell F S} {T : Nat → List Nat} {root : Nat → Prop} {G : Env ICell}
    (H : System J T root G) (consts ins outs : List ICell) (s : St ICell S) (h : Init iOps J consts ins outs s)
    (henv : ∀ x, root x → s.env x = G x) (hnone : ∀ x, ¬ root x → s.env x = none) : SolveInv J T root G s := by
  obtain ⟨h1, h2, h3⟩ := h
  have hroot : ∀ x, s.env x ≠ none → root x := fun x hx => by
    by_contra hc; exact hx (hnone x hc)
  refine ⟨fun x hx => henv x (hroot x hx), fun x hx => by rw [henv x hx]; exact H.known x hx, h2.1, ?_, ?_, ?_⟩
  · intro e _ x hx; exact hnone x (H.free e x hx)
  · intro e x hx hk; exact absurd (hroot x hk) (H.free e x hx)
  · rintro e hne ⟨y, hy, hyT⟩ hall x hx
    exfalso
    apply hne
    rw [h2.2]
    exact ⟨y, initEnv_known J consts ins outs y (by rw [← h1]; exact hall y hy hyT), hy⟩

/-- Every complete run ends with the solution. -/
theorem System.final {J : Jaxpr ICell F S} (hs : Sized J) {T : Nat → List Nat} {root : Nat → Prop} {G : Env ICell}
    (H : System J T root G) (consts ins outs : List ICell) (s0 s : St ICell S) (h : Init iOps J consts ins outs s0)
    (henv : ∀ x, root x → s0.env x = G x) (hnone : ∀ x, ¬ root x → s0.env x = none)
    (hst : Steps iOps J s0 s) : (∀ x, s.env x ≠ none → s.env x = G x) ∧ (s.queue = [] → s.env = G) := by
  have hinv : SolveInv J T root G s := by
    have h0 := SolveInv.init H consts ins outs s0 h henv hnone
    induction hst with
    | refl => exact h0
    | tail t u _ hst ih => exact ih.step hs H hst
  refine ⟨hinv.sub, fun hq => ?_⟩
  funext x
  by_cases hx : s.env x = none
  · rw [hx]
    by_contra hg
    refine absurd hx ?_
    have := H.reach x (fun hc => hg hc.symm)
    clear hx hg
    induction this with
    | root x hr => exact hinv.root x hr
    | step e x y hx hy hyT hall ih =>
      exact hinv.done e (by rw [hq]; simp) ⟨y, hy, hyT⟩ (fun z h1 h2 => ih z h1 h2) x hx
  · exact hinv.sub x hx

/-- The terms of the sum, from the solution: `none` for a random variable whose parameters or value are not known. -/
noncomputable def rvTerm (G : Env ICell) (q : LOp × List (Atom F) × List (Atom F)) : Option (Option F) :=
  match q.1 with
  | .det _ => none
  | .rv nc d => some <|
    match (((q.2.1.drop nc).drop 1).map (Propagate.read iOps G)).mapM id, (q.2.2.map (Propagate.read iOps G)).mapM id with
    | some ps, some vs => some (addF (d (ps.map (·.1)) (vs.map (·.1))) (ildjSum (q.2.2.map (Propagate.read iOps G))))
    | _, _ => none

theorem mapM_read_sub (env G : Env ICell) (h : ∀ x, env x ≠ none → env x = G x) (as : List (Atom F)) (cs)
    (hm : (as.map (Propagate.read iOps env)).mapM id = some cs) :
    (as.map (Propagate.read iOps G)).mapM id = some cs := by
  rw [← hm]
  congr 1
  apply map_read_congr
  intro x hx
  have := (mapM_read env as).1 (by rw [hm]; rfl) x hx
  exact (h x this).symm

/-- The reduction of a complete run of a program whose propagation problem has a solution. -/
theorem System.finish (P : LProg) (hs : Sized P.jaxpr) (hv : HasValue P) {T : Nat → List Nat} {root : Nat → Prop}
    {G : Env ICell} (H : System P.jaxpr T root G) (ins outs : List ICell)
    (s0 s : St ICell (Option F))
    (h0 : Init iOps P.jaxpr [] ins outs s0)
    (henv : ∀ x, root x → s0.env x = G x) (hnone : ∀ x, ¬ root x → s0.env x = none)
    (h : Steps iOps P.jaxpr s0 s) (hq : s.queue = []) :
    lpFinish P s = ((P.eqns.filterMap (rvTerm G)).mapM id).map sumF := by
  have hG : s.env = G := (H.final hs _ _ _ s0 s h0 henv hnone h).2 hq
  have hret := finish_returns_iff P hs hv ins outs s0 s h0 h hq
  by_cases hall : ∀ q ∈ P.eqns, ∀ nc d, q.1 = .rv nc d →
        ∀ x, some x ∈ ((q.2.1.drop nc).drop 1 ++ q.2.2).map Atom.node → s.env x ≠ none
  · obtain ⟨t, ht⟩ := hret.2 hall
    have hinv := (LInv.init P _ _ _ s0 h0).steps P hs h
    have hstates : ∀ (e : Nat) q nc d v, P.eqns[e]? = some q → q.1 = .rv nc d → s.states e = some (some v) →
        ∃ ps vs, (((q.2.1.drop nc).drop 1).map (Propagate.read iOps G)).mapM id = some ps ∧
          (q.2.2.map (Propagate.read iOps G)).mapM id = some vs ∧ v = d (ps.map (·.1)) (vs.map (·.1)) := by
      clear ht hinv hret hall hG hq
      induction h with
      | refl =>
        intro e q nc d v _ _ hst
        rw [h0.2.2] at hst; simp at hst
      | tail s u hss hst ih =>
        have hsub := (H.final hs _ _ _ s0 s h0 henv hnone hss).1
        cases hst with
        | mk e r q q' hq he hp =>
          intro e' q nc d v he' hqd hv
          by_cases hee : e' = e
          · subst hee
            rw [lp_eqn, he'] at he
            simp only [Option.map_some, Option.some.injEq] at he
            subst he
            simp only [if_true, exec, hqd, LOp.rule, Option.some.injEq] at hv
            by_cases hall : ∀ x, some x ∈ (needs nc q).map Atom.node → s.env x ≠ none
            · obtain ⟨ps, vs, h1, h2, h3⟩ := rvRule_some s.env nc d q hall
              rw [h3] at hv
              simp only [Option.some.injEq] at hv
              exact ⟨ps, vs, mapM_read_sub _ _ hsub _ _ h1, mapM_read_sub _ _ hsub _ _ h2, hv.symm⟩
            · rw [rvRule_none s.env nc d q hall] at hv; simp at hv
          · simp only [if_neg hee] at hv
            exact ih e' q nc d v he' hqd hv
    obtain ⟨lp, il, h1, h2⟩ := finish_some P s hinv.det t ht
    rw [ht, h1]
    have hz : P.eqns = P.eqns.zipIdx.map (·.1) := by simp
    conv_rhs => rw [hz]
    rw [List.filterMap_map]
    have hterm : P.eqns.zipIdx.filterMap (rvTerm G ∘ fun x => x.1) = (P.eqns.zipIdx.filterMap (term lp il)).map some := by
      rw [List.map_filterMap]
      apply List.filterMap_congr
      rintro ⟨q, e⟩ hp
      have he : P.eqns[e]? = some q := List.mem_zipIdx_iff_getElem?.1 hp
      simp only [term, Function.comp, rvTerm]
      rcases hop : q.1 with op | ⟨nc, d⟩
      · rfl
      · obtain ⟨h3, h4⟩ := h2 e q nc d he hop
        obtain ⟨ps, vs, h5, h6, h7⟩ := hstates e q nc d _ he hop h3
        simp only [h5, h6, Option.map_some]
        rw [h4, h7, hG]
    rw [hterm]
    have hmm : ∀ l : List F, (l.map some).mapM id = some l := by
      intro l
      induction l with
      | nil => rfl
      | cons a l ih => simp [List.mapM_cons, ih]
    rw [hmm]; rfl
  · have hfin : lpFinish P s = none := by
      rcases hf : lpFinish P s with _ | t
      · rfl
      · exact absurd (hret.1 ⟨t, hf⟩) hall
    rw [hfin]
    have hmem : none ∈ P.eqns.filterMap (rvTerm G) := by
      by_contra hc
      apply hall
      intro q hqm nc d hqd x hx hn
      apply hc
      refine List.mem_filterMap.2 ⟨q, hqm, ?_⟩
      simp only [rvTerm, hqd]
      congr 1
      split
      · rename_i ps vs h1 h2
        exfalso
        rw [hG] at hn
        simp only [List.map_append, List.mem_append] at hx
        rcases hx with hx | hx
        · exact (mapM_read G _).1 (by rw [h1]; rfl) x hx hn
        · exact (mapM_read G _).1 (by rw [h2]; rfl) x hx hn
      · rfl
    have hmn : ∀ l : List (Option F), none ∈ l → l.mapM id = none := by
      intro l hl
      induction l with
      | nil => simp at hl
      | cons a l ih =>
        rcases List.mem_cons.1 hl with rfl | hl
        · simp [List.mapM_cons]
        · rw [List.mapM_cons, ih hl]; cases a <;> rfl
    rw [hmn _ hmem]; rfl

/-- `log_prob` of a program whose propagation problem has a solution. -/
theorem System.log_prob (P : LProg) (hs : Sized P.jaxpr) (hv : HasValue P) {T : Nat → List Nat} {root : Nat → Prop}
    {G : Env ICell} (H : System P.jaxpr T root G) (args ys : List F)
    (s0 s : St ICell (Option F))
    (h0 : Init iOps P.jaxpr [] (none :: args.map (fun a => some (a, some 0))) (ys.map (fun y => some (y, some 0))) s0)
    (henv : ∀ x, root x → s0.env x = G x) (hnone : ∀ x, ¬ root x → s0.env x = none)
    (h : Steps iOps P.jaxpr s0 s) (hq : s.queue = []) :
    lpFinish P s = ((P.eqns.filterMap (rvTerm G)).mapM id).map sumF :=
  H.finish P hs hv _ _ s0 s h0 henv hnone h hq

end Verif.LogProb
