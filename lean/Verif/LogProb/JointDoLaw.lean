import Verif.LogProb.JointFixThms

/-! C83: the distribution of `joint_sample` of a program some of whose statements no named value depends on (helper
lemmas). -/
namespace Verif.LogProb.Joint

open Verif.Propagate Verif.Inverse Verif.Plate MeasureTheory
open scoped ENNReal

variable {Ω : Type} {S : Source}

/-! ### The samples do not depend on dead statements -/

theorem aval_congr {val val' : ℕ → ℝ} (as : List (Atom F)) (h : ∀ x ∈ vars as, val x = val' x) :
    as.map (aval val) = as.map (aval val') := by
  refine List.map_congr_left fun a ha => ?_
  have hn : ∀ x, a.node = some x → val x = val' x := fun x hx => h x (List.mem_filterMap.2 ⟨a, ha, hx⟩)
  cases a with
  | lit c => rfl
  | var x => simp only [aval]; rw [hn x rfl]
  | drop x => simp only [aval]; rw [hn x rfl]

theorem pushes_congr {val val' : ℕ → ℝ} (ls : List (Link × ℕ))
    (h : ∀ x ∈ vars (ls.flatMap fun l => l.1.operand), val x = val' x) : pushes val ls = pushes val' ls := by
  induction ls with
  | nil => rfl
  | cons p ls ih =>
    obtain ⟨l, y⟩ := p
    rw [List.flatMap_cons, vars_append] at h
    have h1 := aval_congr l.operand fun x hx => h x (List.mem_append_left _ hx)
    have h2 := ih fun x hx => h x (List.mem_append_right _ hx)
    funext x
    simp only [pushes, h2]
    congr 1
    cases l with
    | un p => rfl
    | left p a => simp only [Link.operand, List.map_cons, List.map_nil, List.cons.injEq, and_true] at h1; simp only [Link.map, h1]
    | right p a => simp only [Link.operand, List.map_cons, List.map_nil, List.cons.injEq, and_true] at h1; simp only [Link.map, h1]

theorem setAll_congr (xs : List ℕ) : ∀ (val val' : ℕ → ℝ) (vs : List F) (x : ℕ), val x = val' x →
    setAll val xs vs x = setAll val' xs vs x := by
  induction xs with
  | nil => intro val val' vs x h; cases vs <;> exact h
  | cons y xs ih =>
    intro val val' vs x h
    cases vs with
    | nil => exact h
    | cons v vs =>
      refine ih _ _ _ _ ?_
      simp only [setR]
      split
      · rfl
      · exact h

theorem jointSample_alive (samp : Draw → List F → (Key → Ω) → ℝ) (keyOf : ℕ → Key) (ω : Key → Ω) (hT : S.NoTags)
    (hnm : ∀ D ∈ draws S.alive.body, D.name ≠ none) (suf : List Stmt) : ∀ pre, S.body = pre ++ suf →
    ∀ val val' : ℕ → ℝ, (∀ x, Live S S.Named x → val x = val' x) →
    jointSample samp keyOf ω (suf.filter (keeps S S.Named)) val = jointSample samp keyOf ω suf val' := by
  induction suf with
  | nil => intro pre _ val val' _; rfl
  | cons st suf ih =>
    intro pre hb val val' he
    have ih := ih (pre ++ [st]) (by rw [hb]; simp)
    have hst : st ∈ S.body := by rw [hb]; simp
    have hlast : ∀ D, st = .draw D → D.name ≠ none → Live S S.Named (lastVar D.value D.links) := by
      rintro D rfl hDn
      obtain ⟨n, hn⟩ := Option.ne_none_iff_exists'.1 hDn
      exact .result _ ⟨n, List.mem_flatMap.2 ⟨_, hst, by simp [Stmt.sown, hn]⟩⟩
    by_cases hk : keeps S S.Named st = true
    · have hal : st ∈ S.alive.body := by rw [alive_body]; exact List.mem_filter.2 ⟨hst, hk⟩
      have hlast' : ∀ D, st = .draw D → Live S S.Named (lastVar D.value D.links) := by
        rintro D rfl
        exact hlast D rfl (hnm D (draws_mem.2 hal))
      rw [List.filter_cons_of_pos hk]
      have hu : ∀ x ∈ st.uses, (∀ n a, st ≠ .tag n a) → val x = val' x := by
        intro x hx hnt
        refine he x (keeps_uses hst ?_ hlast' x hx)
        cases st with
        | tag n a => exact absurd rfl (hnt n a)
        | det op ins outs => simpa [keeps, -exists_prop] using hk
        | draw D => simpa [keeps, -exists_prop] using hk
      cases st with
      | tag n a => exact absurd rfl (hT _ hst n a)
      | det op ins outs =>
        simp only [jointSample]
        rw [aval_congr ins fun x hx => hu x hx (by simp)]
        exact ih _ _ fun x hx => setAll_congr _ _ _ _ _ (he x hx)
      | draw D =>
        have hu' : ∀ x ∈ (Stmt.draw D).uses, val x = val' x := fun x hx => hu x hx (by simp)
        have h1 : D.params val = D.params val' := by
          refine aval_congr _ fun x hx => hu' x (mem_uses_operands ?_)
          obtain ⟨a, h2, h3⟩ := List.mem_filterMap.1 hx
          exact List.mem_filterMap.2 ⟨a, List.mem_of_mem_drop (List.mem_of_mem_drop h2), h3⟩
        have h2 := pushes_congr (val := val) (val' := val') D.links fun x hx => hu' x (mem_uses_links hx)
        simp only [jointSample, h1, h2]
        congr 1
        refine ih _ _ fun x hx => ?_
        simp only [setR]
        split
        · rfl
        · exact he x hx
    · rw [List.filter_cons_of_neg hk]
      cases st with
      | tag n a => exact absurd rfl hk
      | draw D =>
        rcases hD : D.name with _ | n
        · simp only [jointSample, hD, List.nil_append]
          refine ih _ _ fun x hx => ?_
          simp only [setR]
          split
          · rename_i hc
            subst hc
            exact absurd (keeps_of ⟨_, lastVar_mem _ _, hx⟩) hk
          · exact he x hx
        · exact absurd (keeps_of ⟨_, lastVar_mem _ _, hlast D rfl (by simp [hD])⟩) hk
      | det op ins outs =>
        simp only [jointSample]
        refine ih _ _ fun x hx => ?_
        rw [he x hx, setAll_other]
        intro hd
        exact hk (keeps_of ⟨x, hd, hx⟩)

/-! ### The program without dead statements -/

theorem filter_defs (p : Stmt → Bool) (body : List Stmt) : ((body.filter p).flatMap Stmt.defs).Sublist (body.flatMap Stmt.defs) := by
  induction body with
  | nil => exact List.Sublist.refl _
  | cons st rest ih =>
    rw [List.flatMap_cons, List.filter_cons]
    split
    · rw [List.flatMap_cons]; exact ih.append_left _
    · exact ih.trans (List.sublist_append_right _ _)

theorem filter_scoped (p : Stmt → Bool) (body : List Stmt) (h : Scoped body) : Scoped (body.filter p) := by
  induction body with
  | nil => trivial
  | cons st rest ih =>
    rw [List.filter_cons]
    split
    · refine ⟨fun x hx hc => h.1 x hx ?_, ih h.2⟩
      rcases List.mem_append.1 hc with hc | hc
      · exact List.mem_append_left _ hc
      · exact List.mem_append_right _ ((filter_defs p rest).subset hc)
    · exact ih h.2

theorem alive_wf (h : S.WF) : S.alive.WF where
  once := by
    rw [alive_body]
    exact h.once.sublist ((List.Sublist.refl _).append (filter_defs _ _))
  order := by rw [alive_body]; exact filter_scoped _ _ h.order
  sized := fun st hst => h.sized st (alive_sub st hst)

theorem alive_noTags (hT : S.NoTags) : S.alive.NoTags := fun st hst => hT st (alive_sub st hst)

theorem alive_local (hL : S.Local) : S.alive.Local := fun st hst x hx D hD =>
  hL st (alive_sub st hst) x hx D (draws_mem.2 (alive_sub _ (draws_mem.1 hD)))

variable [MeasurableSpace Ω]

/-- The density of the samples, when what no named value depends on may have any form. -/
theorem joint_sample_density_unused_partial (P : Measure Ω) [IsProbabilityMeasure P]
    (samp : Draw → List F → (Key → Ω) → ℝ) (keyOf : ℕ → Key) (args : List ℝ) (h : S.WF) (hT : S.NoTags)
    (hn : S.names.Nodup) (hd : Determined S.args S.alive.body) (hl : S.Local) (hk : S.alive.KeysApart keyOf)
    (htot : ∀ st ∈ S.alive.body, st.Total) (hs : ∀ st ∈ S.alive.body, st.Sampled (oracle P) samp)
    (ha : args.length = S.args.length) :
    ∃ lp : (Fin S.names.length → ℝ) → F,
      (∀ y res, JointLogProb S (S.latents y) (args.map some) res ↔ res = .ok (lp y)) ∧
      (oracle P).map (S.samples samp keyOf args)
        = (Measure.pi fun _ => (volume : Measure ℝ)).withDensity fun y => dens (lp y) := by
  have hnm := determined_named S.alive.body S.args hd
  have hnames : S.names = (draws S.alive.body).map fun D => D.name.getD "" := by
    rw [← alive_names]; exact names_draws S.alive.body (alive_noTags hT) hnm
  have hlen : (draws S.alive.body).length = S.names.length := by rw [hnames]; simp
  obtain ⟨lp, h1, h2⟩ := joint_sample_density_partial P S.alive samp keyOf args (alive_wf h) (alive_noTags hT)
    (by rw [alive_names]; exact hn) hd (alive_local hl) hk htot hs ha
  have key : ∀ m (e : (draws S.alive.body).length = m), ∃ lp : (Fin m → ℝ) → F,
      (∀ y res, JointLogProb S (S.names.zip ((List.ofFn y).map some)) (args.map some) res ↔ res = .ok (lp y)) ∧
      (oracle P).map (fun ω (i : Fin m) => ((jointSample samp keyOf ω S.body (startVal S args)).map (·.2)).getD i 0)
        = (Measure.pi fun _ => (volume : Measure ℝ)).withDensity fun y => dens (lp y) := by
    rintro m rfl
    refine ⟨lp, fun y res => ?_, ?_⟩
    · have hdict : S.names.zip ((List.ofFn y).map some) = named S.alive y := by
        rw [named, hnames]
        refine List.ext_getElem (by simp) fun i h1 h2 => ?_
        simp
      have hkeys : (named S.alive y).map (·.1) = S.names := by
        rw [← hdict, List.map_fst_zip]; simp [hlen]
      rw [hdict, ← h1 y res, joint_log_prob_value_partial h hT _ _ (by simpa using ha) hn (by rw [hkeys]),
        joint_log_prob_named_partial (alive_wf h) (alive_noTags hT) _ _ (by rw [List.length_map]; exact ha)
          (by rw [alive_names]; exact hn) (by rw [hkeys, alive_names]) hnm]
    · rw [← h2]
      congr 1
      funext ω i
      have := jointSample_alive samp keyOf ω hT hnm S.body [] rfl (startVal S args) _ fun _ _ => rfl
      rw [← alive_body] at this
      simp only [sampled]
      rw [← this]
      rfl
  exact key _ hlen

end Verif.LogProb.Joint
