import Verif.LogProb.JointNestMain
import Verif.LogProb.JointThms

/-! C79, C82: `joint_log_prob` with the calls is `joint_log_prob` with the functions of the random variables inlined. -/
namespace Verif.LogProb.Joint

open Verif.Propagate Verif.Inverse

/-! ### Pruning -/

theorem prune_map {α β : Type} (f : α → β) (qs : List (α × List (Atom F) × List (Atom F))) (need : List Nat) :
    prune (qs.map fun q => (f q.1, q.2)) need = ((prune qs need).1.map fun q => (f q.1, q.2), (prune qs need).2) := by
  induction qs with
  | nil => rfl
  | cons q qs ih =>
    simp only [List.map_cons, prune, ih]
    split <;> rfl

/-- Two lists that agree off `P`. -/
def Off (P : Nat → Prop) (as bs : List Nat) : Prop := ∀ x, ¬ P x → (x ∈ as ↔ x ∈ bs)

theorem prune_congr {α : Type} {P : Nat → Prop} (qs : List (α × List (Atom F) × List (Atom F)))
    (hq : ∀ q ∈ qs, ∀ x ∈ vars q.2.2, ¬ P x) (need need' : List Nat) (hn : Off P need need') :
    (prune qs need).1 = (prune qs need').1 ∧ Off P (prune qs need).2 (prune qs need').2 := by
  induction qs with
  | nil => exact ⟨rfl, hn⟩
  | cons q qs ih =>
    obtain ⟨h1, h2⟩ := ih fun q h => hq q (List.mem_cons_of_mem _ h)
    have hc : ((q.2.2.filterMap Atom.node).any fun x => (prune qs need).2.contains x) =
        ((q.2.2.filterMap Atom.node).any fun x => (prune qs need').2.contains x) := by
      rw [Bool.eq_iff_iff]
      simp only [List.any_eq_true, List.contains_iff_mem]
      exact exists_congr fun x => and_congr_right fun hx => h2 x (hq q List.mem_cons_self x hx)
    simp only [prune, hc, h1]
    split
    · refine ⟨rfl, fun x hx => ?_⟩
      simp only [List.mem_append, h2 x hx]
    · exact ⟨h1, h2⟩

/-- What the links of a random variable whose value is needed need. -/
theorem trimLinks_need (ls : List (Link × Nat)) : ∀ (t : Nat) (need : List Nat), lastVar t ls ∈ need → ∀ x,
    (x ∈ (trimLinks t ls need).2 ↔ x ∈ need ∨ x ∈ vars (ls.flatMap fun l => l.1.operand) ∨
      x ∈ (t :: ls.map fun l : Link × Nat => l.2).dropLast) := by
  induction ls with
  | nil => intro t need _ x; simp [trimLinks, vars]
  | cons p ls ih =>
    obtain ⟨l, y⟩ := p
    intro t need h x
    have h2 := (trimLinks_all ls y need h).2
    rw [trimLinks, if_pos h2]
    simp only [List.mem_append, ih y need h x, List.flatMap_cons, vars_append, List.map_cons, List.dropLast_cons_cons,
      List.mem_cons]
    have : x ∈ vars (l.eqn t y).2.1 ↔ x ∈ vars l.operand ∨ x = t := by
      cases l <;> simp [Link.eqn, Link.operand, vars, Atom.node] <;> tauto
    rw [this]
    tauto

theorem trim_one (st : Stmt) (rest : List Stmt) (need : List Nat) :
    trim (st :: rest) need = ((trim [st] (trim rest need).2).1 ++ (trim rest need).1, (trim [st] (trim rest need).2).2) := by
  cases st with
  | tag n a => rfl
  | det op ins outs =>
    have e : ∀ N, trim [.det op ins outs] N = if outs.any fun x => N.contains x then ([.det op ins outs], vars ins ++ N) else ([], N) :=
      fun _ => rfl
    rw [e, trim]
    by_cases hc : (outs.any fun x => (trim rest need).2.contains x) = true
    · rw [if_pos hc, if_pos hc]; rfl
    · rw [if_neg hc, if_neg hc]; rfl
  | draw D =>
    have e : ∀ N, trim [.draw D] N = if D.value ∈ (trimLinks D.value D.links N).2 then
        ([.draw { D with links := (trimLinks D.value D.links N).1 }], vars D.operands ++ (trimLinks D.value D.links N).2)
        else ([], (trimLinks D.value D.links N).2) :=
      fun _ => rfl
    rw [e, trim]
    by_cases hc : D.value ∈ (trimLinks D.value D.links (trim rest need).2).2
    · rw [if_pos hc, if_pos hc]; rfl
    · rw [if_neg hc, if_neg hc]; rfl

/-- A random variable with a name. -/
def Stmt.IsNamed : Stmt → Prop
  | .draw D => D.name ≠ none
  | _ => False

theorem calls_flat (st : Stmt) (h : ¬ st.IsNamed) : st.calls = st.eqns.map fun q => (NOp.flat q.1, q.2) := by
  cases st with
  | draw D =>
    rcases hD : D.name with _ | n
    · simp [Stmt.calls, hD]
    · exact absurd (by simp [Stmt.IsNamed, hD]) h
  | det op ins outs => rfl
  | tag n a => rfl

theorem linkEqns_outs (ls : List (Link × Nat)) : ∀ t, ∀ q ∈ linkEqns t ls, ∀ x ∈ vars q.2.2, x ∈ ls.map (·.2) := by
  induction ls with
  | nil => intro t q hq; simp [linkEqns] at hq
  | cons p ls ih =>
    obtain ⟨l, y⟩ := p
    intro t q hq x hx
    rcases List.mem_cons.1 hq with rfl | hq
    · cases l <;> simp [Link.eqn, vars, Atom.node] at hx <;> simp [hx]
    · exact List.mem_cons_of_mem _ (ih y q hq x hx)

theorem eqns_outs (st : Stmt) : ∀ q ∈ st.eqns, ∀ x ∈ vars q.2.2, x ∈ st.defs := by
  intro q hq x hx
  cases st with
  | tag n a => simp [Stmt.eqns] at hq
  | det op ins outs =>
    simp only [Stmt.eqns, List.mem_singleton] at hq
    subst hq
    rwa [vars_map_var] at hx
  | draw D =>
    rcases List.mem_cons.1 hq with rfl | hq
    · simp [vars, Atom.node] at hx; simp [hx, Stmt.defs]
    · exact List.mem_cons_of_mem _ (linkEqns_outs _ _ q hq x hx)

theorem trim_one_flat (st : Stmt) (h : ¬ st.IsNamed) (need : List Nat) : ∀ s ∈ (trim [st] need).1, ¬ s.IsNamed := by
  intro s hs
  cases st with
  | tag n a => simp [trim] at hs; subst hs; exact h
  | det op ins outs =>
    rw [trim] at hs
    split at hs
    · simp [trim] at hs; subst hs; exact h
    · simp [trim] at hs
  | draw D =>
    rw [trim] at hs
    split at hs
    · simp [trim] at hs; subst hs; exact h
    · simp [trim] at hs

theorem flatMap_calls_flat (body : List Stmt) (h : ∀ s ∈ body, ¬ s.IsNamed) :
    body.flatMap Stmt.calls = (body.flatMap Stmt.eqns).map fun q => (NOp.flat q.1, q.2) := by
  induction body with
  | nil => rfl
  | cons st body ih =>
    simp only [List.flatMap_cons, List.map_append]
    rw [ih fun s hs => h s (by simp [hs]), calls_flat st (h st (by simp))]

/-- Pruning the calls. -/
theorem prune_calls {P : Nat → Prop} (body : List Stmt) (need need' : List Nat) (hn : Off P need need')
    (hflat : ∀ st ∈ body, ¬ st.IsNamed → ∀ x ∈ st.defs, ¬ P x)
    (hnamed : ∀ D, Stmt.draw D ∈ body → D.name ≠ none →
      lastVar D.value D.links ∈ need ∧ ¬ P (lastVar D.value D.links) ∧ ∀ x ∈ D.inner, P x) :
    (prune (body.flatMap Stmt.calls) need').1 = (trim body need).1.flatMap Stmt.calls ∧
      Off P (trim body need).2 (prune (body.flatMap Stmt.calls) need').2 := by
  induction body with
  | nil => exact ⟨rfl, hn⟩
  | cons st rest ih =>
    obtain ⟨h1, h2⟩ := ih (fun s hs => hflat s (by simp [hs])) (fun D hD => hnamed D (by simp [hD]))
    rw [List.flatMap_cons, prune_append, trim_one, List.flatMap_append, h1]
    suffices h : (prune st.calls (prune (rest.flatMap Stmt.calls) need').2).1 = (trim [st] (trim rest need).2).1.flatMap Stmt.calls ∧
        Off P (trim [st] (trim rest need).2).2 (prune st.calls (prune (rest.flatMap Stmt.calls) need').2).2 from
      ⟨by rw [h.1], h.2⟩
    have hsub := trim_mono rest need
    generalize (trim rest need).2 = N at h2 hsub
    generalize (prune (rest.flatMap Stmt.calls) need').2 = N' at h2
    by_cases hst : st.IsNamed
    · cases st with
      | tag n a => exact hst.elim
      | det op ins outs => exact hst.elim
      | draw D =>
        obtain ⟨h3, h4, h5⟩ := hnamed D (by simp) hst
        obtain ⟨n, hD⟩ := Option.ne_none_iff_exists'.1 hst
        have hl := hsub _ h3
        have hl' := (h2 _ h4).1 hl
        obtain ⟨h6, h7⟩ := trimLinks_all D.links D.value N hl
        have hc : (Stmt.draw D).calls = [(NOp.call D, D.invars.map .var, [.var (lastVar D.value D.links)])] := by
          simp [Stmt.calls, hD]
        have hp : prune (Stmt.draw D).calls N' = ((Stmt.draw D).calls, D.invars ++ N') := by
          have := vars_map_var D.invars
          simp only [vars] at this
          rw [hc]
          simp [prune, Atom.node, hl', this]
        have ht : trim [.draw D] N = ([.draw D], vars D.operands ++ (trimLinks D.value D.links N).2) := by
          simp only [trim, if_pos h7, h6]
        rw [hp, ht]
        refine ⟨by simp, fun x hx => ?_⟩
        have hi : x ∉ (D.value :: D.links.map fun l : Link × Nat => l.2).dropLast := fun hc => hx (h5 x hc)
        simp only [List.mem_append, trimLinks_need _ _ _ hl, mem_invars, h2 x hx, hi, or_false]
        have hu : x ∈ (Stmt.draw D).uses ↔ x ∈ vars D.operands ∨ x ∈ vars (D.links.flatMap fun l => l.1.operand) := by
          simp only [Stmt.uses, List.filterMap_append, List.mem_append]
          rfl
        rw [hu]
        tauto
    · rw [calls_flat st hst, prune_map]
      obtain ⟨h3, h4⟩ := prune_congr (P := P) st.eqns (fun q hq x hx => hflat st (by simp) hst x (eqns_outs st q hq x hx)) N N' h2
      have hp := prune_trim [st] N
      simp only [List.flatMap_cons, List.flatMap_nil, List.append_nil] at hp
      rw [hp] at h3 h4
      rw [← h3, flatMap_calls_flat _ (trim_one_flat st hst N)]
      exact ⟨rfl, h4⟩

/-! ### The trimmed program -/

variable {S : Source}

theorem defs_inj {body : List Stmt} (h : (body.flatMap Stmt.defs).Nodup) {st st' : Stmt} (h1 : st ∈ body) (h2 : st' ∈ body)
    {x : Nat} (hx : x ∈ st.defs) (hx' : x ∈ st'.defs) : st = st' := by
  induction body with
  | nil => simp at h1
  | cons s body ih =>
    simp only [List.flatMap_cons] at h
    rw [List.nodup_append] at h
    have hm : ∀ t ∈ body, ∀ y ∈ t.defs, y ∈ body.flatMap Stmt.defs := fun t ht y hy => List.mem_flatMap.2 ⟨t, ht, hy⟩
    rcases List.mem_cons.1 h1 with rfl | h3 <;> rcases List.mem_cons.1 h2 with rfl | h4
    · rfl
    · exact absurd rfl (h.2.2 x hx x (hm _ h4 x hx'))
    · exact absurd rfl (h.2.2 x hx' x (hm _ h3 x hx))
    · exact ih h.2.1 h3 h4

theorem inner_defs {D : Draw} {x : Nat} (h : x ∈ D.inner) : x ∈ (Stmt.draw D).defs := List.dropLast_subset _ h

theorem nprog_trimmed (h : S.WF) : S.nprog [] = (S.trimmed []).nwhole [] := by
  have hb := (WF.body h).1
  have := (prune_calls (P := fun x => ∃ D, Stmt.draw D ∈ S.body ∧ D.name ≠ none ∧ x ∈ D.inner) S.body
    ((S.results []).filterMap Atom.node) _ (fun _ _ => Iff.rfl)
    (by
      rintro st hst hf x hx ⟨D, hD, hDn, hi⟩
      have := defs_inj hb hst hD hx (inner_defs hi)
      subst this
      exact hf hDn)
    (by
      intro D hD hDn
      refine ⟨?_, ?_, fun x hx => ⟨D, hD, hDn, hx⟩⟩
      · obtain ⟨n, hn⟩ := Option.ne_none_iff_exists'.1 hDn
        exact sown_results S [] n _ (sown_draw S.body (draws_mem.2 hD) hn)
      · rintro ⟨E, hE, -, hi⟩
        have := defs_inj hb hD hE (last_mem _ _) (inner_defs hi)
        simp only [Stmt.draw.injEq] at this
        subst this
        exact not_inner (defs_mem hb _ hD) hi)).1
  simp only [Source.nprog, Source.nwhole]
  rw [this]
  simp only [Source.results, trimmed_sown]
  rfl

/-- The statements of the trimmed program. -/
theorem trim_mem (body : List Stmt) (need : List Nat) : ∀ st ∈ (trim body need).1, st ∈ body ∨
    ∃ D ls, Stmt.draw D ∈ body ∧ ls <+: D.links ∧ st = .draw { D with links := ls } ∧
      (lastVar D.value D.links ∈ need → ls = D.links) := by
  induction body with
  | nil => intro st hst; simp [trim] at hst
  | cons s body ih =>
    have ih' : ∀ st ∈ (trim body need).1, st ∈ s :: body ∨ ∃ D ls, Stmt.draw D ∈ s :: body ∧ ls <+: D.links ∧
        st = .draw { D with links := ls } ∧ (lastVar D.value D.links ∈ need → ls = D.links) := by
      intro st hst
      rcases ih st hst with h | ⟨D, ls, h1, h2⟩
      · exact .inl (List.mem_cons_of_mem _ h)
      · exact .inr ⟨D, ls, List.mem_cons_of_mem _ h1, h2⟩
    intro st hst
    cases s with
    | tag n a =>
      rcases List.mem_cons.1 hst with rfl | hst
      · exact .inl List.mem_cons_self
      · exact ih' st hst
    | det op ins outs =>
      rw [trim] at hst
      split at hst
      · rcases List.mem_cons.1 hst with rfl | hst
        · exact .inl List.mem_cons_self
        · exact ih' st hst
      · exact ih' st hst
    | draw D =>
      rw [trim] at hst
      split at hst
      · rcases List.mem_cons.1 hst with rfl | hst
        · exact .inr ⟨D, _, List.mem_cons_self, trimLinks_prefix _ _ _, rfl, fun h =>
            (trimLinks_all _ _ _ (trim_mono _ _ _ h)).1⟩
        · exact ih' st hst
      · exact ih' st hst

theorem inner_prefix (D : Draw) (ls : List (Link × Nat)) (h : ls <+: D.links) : ∀ x ∈ { D with links := ls }.inner, x ∈ D.inner := by
  obtain ⟨ms, hm⟩ := h
  intro x hx
  simp only [Draw.inner] at hx ⊢
  rw [← hm]
  rcases ms with _ | ⟨m, ms⟩
  · simpa using hx
  · have : x ∈ D.value :: ls.map (·.2) := List.dropLast_subset _ hx
    rw [List.map_append, ← List.cons_append, List.dropLast_append_of_ne_nil (by simp)]
    exact List.mem_append_left _ this

theorem trimmed_named {D : Draw} (hD : Stmt.draw D ∈ (S.trimmed []).body) (hn : D.name ≠ none) : Stmt.draw D ∈ S.body := by
  rcases trim_mem _ _ _ hD with h | ⟨E, ls, h1, h2, h3, h4⟩
  · exact h
  · simp only [Stmt.draw.injEq] at h3
    obtain ⟨n, hn⟩ := Option.ne_none_iff_exists'.1 hn
    have hEn : E.name = some n := by rw [← hn, h3]
    have := h4 (sown_results S [] n _ (sown_draw S.body (draws_mem.2 h1) hEn))
    subst this
    rw [h3]; exact h1

theorem trimmed_rules {rules} (hr : RulesFor rules S) : RulesFor rules (S.trimmed []) :=
  fun D hD hn => hr D (trimmed_named hD hn) hn

theorem trimmed_local (hL : S.Local) : (S.trimmed []).Local := by
  have huse : ∀ st ∈ (S.trimmed []).body, ∀ x ∈ st.uses, ∃ st' ∈ S.body, x ∈ st'.uses := by
    intro st hst x hx
    rcases trim_mem _ _ _ hst with h | ⟨E, ls, h1, h2, rfl, -⟩
    · exact ⟨st, h, hx⟩
    · refine ⟨_, h1, ?_⟩
      simp only [Stmt.uses, List.mem_filterMap, List.mem_append, List.mem_flatMap] at hx ⊢
      obtain ⟨a, ha | ⟨l, hl, ha⟩, hn⟩ := hx
      · exact ⟨a, .inl ha, hn⟩
      · exact ⟨a, .inr ⟨l, h2.subset hl, ha⟩, hn⟩
  intro st hst x hx D hD hi
  obtain ⟨st', h1, h2⟩ := huse st hst x hx
  rcases trim_mem _ _ _ (draws_mem.1 hD) with h | ⟨E, ls, h3, h4, h5, -⟩
  · exact hL st' h1 x h2 D (draws_mem.2 h) hi
  · simp only [Stmt.draw.injEq] at h5
    subst h5
    exact hL st' h1 x h2 E (draws_mem.2 h3) (inner_prefix E ls h4 x hi)

/-! ### The theorem -/

theorem trimmed_names : (S.trimmed []).names = S.names := by rw [Source.names, trimmed_sown]; rfl

/-- The result with values for the names. -/
theorem nest_value {rules} (h : S.WF) (hT : S.NoTags) (hL : S.Local) (hr : RulesFor rules S) (latents : List (String × F)) (args : List F)
    (hl : args.length = S.args.length) (hn : S.names.Nodup) (hk : (latents.map (·.1)).Perm S.names) (res : Except JErr F) :
    NestJointLogProb rules S latents args res ↔ res = S.alive.joint (dict latents) args := by
  have hW := trimmed_wf h []
  have hT' : (S.trimmed []).NoTags := trim_noTags S.body _ hT
  have hR := trimmed_rules hr
  have hval := nest_finish hW hR hT' latents args hl (by rw [trimmed_names]; exact hn) (by rw [trimmed_names]; exact hk)
    (trimmed_local hL)
  have hlen : latents.length = (S.nprog []).outvars.length := by
    have := hk.length_eq
    simpa [Source.nprog, Source.results, Source.names, (sortByKey_perm _).length_eq] using this
  rw [← trimmed_joint h hT [] (by intro a ha; simp at ha)]
  have hfin : ∀ t : Option (List F), (match t.map sumF with
      | none => (.error .cannot : Except JErr F)
      | some v => .ok v) = match t with
      | some ts => .ok (sumF ts)
      | none => .error .cannot := by intro t; cases t <;> rfl
  have hjoint : (S.trimmed []).joint (dict latents) args = match ((terms (dict latents) (argEnv S.args args) (S.trimmed []).body).mapM id).map sumF with
      | none => .error .cannot
      | some v => .ok v := (hfin _).symm
  rw [hjoint]
  simp only [NestJointLogProb, hn, not_true_eq_false, if_false, hlen, hl, ne_eq, or_self]
  rw [nprog_trimmed h]
  constructor
  · rintro ⟨s0, s, h0, hst, hq, rfl⟩
    rw [hval s0 s h0 hst hq]
    rfl
  · intro hres
    obtain ⟨s0, h0⟩ := init_exists (((S.trimmed []).nwhole []).jaxpr rules) [] (none :: args.map (fun a => some (a, some 0)))
      (((sortByKey latents).map (·.2)).map (fun y => some (y, some 0)))
    obtain ⟨s, hst, hqe⟩ := propagate_completes iOps (((S.trimmed []).nwhole []).jaxpr rules) (nwhole_sized hW hR [])
      (fun c => if c.isSome then 0 else 1)
      (by intro a b; cases a <;> cases b <;> simp [iOps])
      (by intro a b; cases a <;> cases b <;> simp [iOps]) _ _ _ s0 s0 h0 (.refl _)
    refine ⟨s0, s, h0, hst, hqe, ?_⟩
    rw [hval s0 s h0 hst hqe, hres]
    rfl

/-- Only the order of the values matters. -/
theorem leaves_order (l : List (String × F)) (names : List String) (h : l.length = names.length) :
    ∃ m : List (String × F), (m.map (·.1)).Perm names ∧ m.length = l.length ∧ (sortByKey m).map (·.2) = (sortByKey l).map (·.2) := by
  have hp : (sortByKey (names.map fun n => (n, ()))).length = (sortByKey l).length := by
    rw [(sortByKey_perm _).length_eq, (sortByKey_perm _).length_eq]; simp [h]
  refine ⟨((sortByKey (names.map fun n => (n, ()))).map (·.1)).zip ((sortByKey l).map (·.2)), ?_, ?_, ?_⟩
  · rw [List.map_fst_zip (by simp [hp])]
    refine ((sortByKey_perm _).map _).trans ?_
    rw [List.map_map]
    exact List.Perm.of_eq (List.map_id _)
  · simp [hp, (sortByKey_perm l).length_eq]
  · have hs := sortByKey_sorted (names.map fun n => (n, ()))
    rw [sortByKey, List.mergeSort_of_pairwise]
    · rw [List.map_snd_zip (by simp [hp])]
    · have h2 : ((((sortByKey (names.map fun n => (n, ()))).map (·.1)).zip ((sortByKey l).map (·.2))).map (·.1)).Pairwise (· ≤ ·) := by
        rw [List.map_fst_zip (by simp [hp])]; exact hs
      rw [List.pairwise_map] at h2
      exact h2.imp (by intro a b hab; simpa using hab)

/-- C79 (calls).  `joint_log_prob(f)` of the program in which the function of each named random variable is a call
(`nest`), with a propagation of its own inside the propagation of `f`, returns what it returns when the functions are
inlined; for every choice of the order in which equations are visited inside each call and outside.  Missing: named random
variables inside the function of another one. -/
theorem nest_joint_log_prob_partial {rules} (h : S.WF) (hT : S.NoTags) (hL : S.Local) (hr : RulesFor rules S)
    (latents : List (String × F)) (args : List F) (res : Except JErr F) :
    NestJointLogProb rules S latents args res ↔ JointLogProb S latents args res := by
  have hout : (S.nprog []).outvars = (S.prog []).outvars := rfl
  by_cases hn : S.names.Nodup
  · by_cases hlen : latents.length ≠ (S.prog []).outvars.length ∨ args.length ≠ S.args.length
    · simp only [NestJointLogProb, JointLogProb, Run, hn, not_true_eq_false, if_false, hout, List.nil_append, List.length_map]
      rw [if_pos hlen, if_pos hlen]
    · have hl : args.length = S.args.length := by
        by_contra hc; exact hlen (.inr hc)
      have hl2 : latents.length = S.names.length := by
        by_contra hc
        refine hlen (.inl fun h => hc ?_)
        simpa [Source.prog, Source.results, Source.names, (sortByKey_perm _).length_eq] using h
      obtain ⟨m, h1, h2, h3⟩ := leaves_order latents S.names hl2
      have e1 : NestJointLogProb rules S latents args res ↔ NestJointLogProb rules S m args res := by
        simp only [NestJointLogProb, h2, h3]
      have e2 : JointLogProb S latents args res ↔ JointLogProb S m args res := by
        simp only [JointLogProb, Run, List.nil_append, List.length_map, h2, h3]
      rw [e1, e2, nest_value h hT hL hr m args hl hn h1, joint_log_prob_value_partial h hT m args hl hn h1]
  · simp only [NestJointLogProb, JointLogProb, Run, hn, not_false_eq_true, if_true]

/-- The rules of the calls exist. -/
theorem rules_exist (S : Source) : ∃ rules, RulesFor rules S := by
  have hD : ∀ D : Draw, ∃ r, Calls D.prog r := by
    intro D
    have hc : ∀ i o : List ICell, ∃ s0 s, Init iOps D.prog.jaxpr [] i o s0 ∧ Steps iOps D.prog.jaxpr s0 s ∧ s.queue = [] := by
      intro i o
      obtain ⟨s0, h0⟩ := init_exists D.prog.jaxpr [] i o
      obtain ⟨s, hst, hqe⟩ := propagate_completes iOps D.prog.jaxpr (draw_sized D) (fun c => if c.isSome then 0 else 1)
        (by intro a b; cases a <;> cases b <;> simp [iOps])
        (by intro a b; cases a <;> cases b <;> simp [iOps]) _ _ _ s0 s0 h0 (.refl _)
      exact ⟨s0, s, h0, hst, hqe⟩
    choose s0 s h1 h2 h3 using hc
    exact ⟨fun i o => (D.prog.invars.map (Propagate.read iOps (s i o).env), D.prog.outvars.map (Propagate.read iOps (s i o).env),
      some (lpFinish D.prog (s i o))), fun i o _ _ => ⟨s0 i o, s i o, h1 i o, h2 i o, h3 i o, rfl⟩⟩
  choose r hr using hD
  exact ⟨r, fun D _ _ => hr D⟩

end Verif.LogProb.Joint
