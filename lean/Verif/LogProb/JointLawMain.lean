import Verif.LogProb.JointLaw

/-! C81: from the model to the joint density. -/
namespace Verif.LogProb.Joint

open Verif.Propagate Verif.Inverse Verif.Plate MeasureTheory
open scoped ENNReal

variable {Ω : Type}

/-! ### The samples -/

/-- The samples of the model are those of `vec`. -/
theorem jointSample_vec (samp : Draw → List F → (Key → Ω) → ℝ) (keyOf : ℕ → Key) (ω : Key → Ω) (body : List Stmt)
    (hT : ∀ st ∈ body, ∀ n a, st ≠ .tag n a) (hn : ∀ D ∈ draws body, D.name ≠ none) : ∀ val : ℕ → ℝ,
    (jointSample samp keyOf ω body val).map (·.2)
      = List.ofFn (vec samp body val fun i q => ω (q ++ keyOf ((draws body).get i).keyVar)) ∧
    (jointSample samp keyOf ω body val).map (fun p => some p.1) = (draws body).map (·.name) := by
  induction body with
  | nil => intro val; exact ⟨rfl, rfl⟩
  | cons st rest ih =>
    have hT' : ∀ s ∈ rest, ∀ n a, s ≠ .tag n a := fun s hs => hT s (List.mem_cons_of_mem _ hs)
    intro val
    cases st with
    | det op ins outs => exact ih hT' hn _
    | tag n a => exact absurd rfl (hT _ List.mem_cons_self n a)
    | draw D =>
      have hn' : ∀ E ∈ draws rest, E.name ≠ none := fun E hE => hn E (List.mem_cons_of_mem _ hE)
      rcases hD : D.name with _ | n
      · exact absurd hD (hn D List.mem_cons_self)
      obtain ⟨h1, h2⟩ := ih hT' hn' (setR val (lastVar D.value D.links)
        (pushes val D.links (samp D (D.params val) fun q => ω (q ++ keyOf D.keyVar))))
      constructor
      · simp only [jointSample, hD, List.singleton_append, List.map_cons, h1]
        exact (List.ofFn_succ (f := vec samp (.draw D :: rest) val fun i q =>
          ω (q ++ keyOf ((draws (.draw D :: rest)).get i).keyVar))).symm
      · simp only [jointSample, hD, List.singleton_append, List.map_cons, h2]
        simp [draws, hD]

/-! ### The density -/

theorem dens_addF (a b : F) : dens (addF a b) = dens a * dens b := by
  cases a with
  | none => simp [addF, dens]
  | some a =>
    cases b with
    | none => simp [addF, dens]
    | some b => simp [addF, dens, Real.exp_add, ENNReal.ofReal_mul (Real.exp_nonneg a)]

/-- The cells of the run with given values are the values of the variables, except for the local variables `H`; the others are
unknown. -/
def Rel (H : ℕ → Prop) (K : List ℕ) (val : ℕ → ℝ) (env : Env ICell) : Prop :=
  ∀ x, ¬ H x → (x ∈ K → env x = some (some (val x), some 0)) ∧ (x ∉ K → env x = none)

theorem Rel.read {H : ℕ → Prop} {K : List ℕ} {val : ℕ → ℝ} {env : Env ICell} (h : Rel H K val env) (a : Atom F)
    (h1 : ∀ x ∈ vars [a], ¬ H x) (h2 : ∀ x ∈ vars [a], x ∈ K) :
    Propagate.read iOps env a = some (aval val a, some 0) := by
  cases a with
  | lit v => rfl
  | var x => exact (h x (h1 x (by simp [vars, Atom.node]))).1 (h2 x (by simp [vars, Atom.node]))
  | drop x => exact (h x (h1 x (by simp [vars, Atom.node]))).1 (h2 x (by simp [vars, Atom.node]))

theorem mem_vars {as : List (Atom F)} {a : Atom F} (ha : a ∈ as) {x : ℕ} (hx : x ∈ vars [a]) : x ∈ vars as := by
  simp only [vars, List.mem_filterMap, List.mem_singleton, exists_eq_left] at hx ⊢
  exact ⟨a, ha, hx⟩

theorem Rel.reads {H : ℕ → Prop} {K : List ℕ} {val : ℕ → ℝ} {env : Env ICell} (h : Rel H K val env)
    (as : List (Atom F)) (h1 : ∀ x ∈ vars as, ¬ H x) (h2 : ∀ x ∈ vars as, x ∈ K) :
    (as.map (Propagate.read iOps env)).mapM id = some (as.map fun a => (aval val a, some 0)) := by
  have : as.map (Propagate.read iOps env) = as.map fun a => some (aval val a, some 0) :=
    List.map_congr_left fun a ha => h.read a (fun x hx => h1 x (mem_vars ha hx)) fun x hx => h2 x (mem_vars ha hx)
  rw [this]
  clear this h1 h2
  induction as with
  | nil => rfl
  | cons a as ih =>
    rw [List.map_cons, List.mapM_cons, ih]
    rfl

theorem Rel.reads_none {H : ℕ → Prop} {K : List ℕ} {val : ℕ → ℝ} {env : Env ICell} (h : Rel H K val env)
    (as : List (Atom F)) (h1 : ∀ x ∈ vars as, ¬ H x) (h2 : ¬ ∀ x ∈ vars as, x ∈ K) :
    (as.map (Propagate.read iOps env)).mapM id = none := by
  induction as with
  | nil => exact absurd (by simp [vars]) h2
  | cons a as ih =>
    rw [List.map_cons, List.mapM_cons]
    by_cases h3 : ∀ x ∈ vars [a], x ∈ K
    · have h4 : ¬ ∀ x ∈ vars as, x ∈ K := by
        intro h4
        refine h2 fun x hx => ?_
        rw [vars_cons, List.mem_append] at hx
        exact hx.elim (h3 x) (h4 x)
      rw [ih (fun x hx => h1 x (by rw [vars_cons]; exact List.mem_append_right _ hx)) h4]
      cases Propagate.read iOps env a <;> rfl
    · have : Propagate.read iOps env a = none := by
        cases a with
        | lit v => exact absurd (by simp [vars, Atom.node]) h3
        | var x =>
          have hx : x ∉ K := by simpa [vars, Atom.node] using h3
          exact (h x (h1 x (by simp [vars, Atom.node]))).2 hx
        | drop x =>
          have hx : x ∉ K := by simpa [vars, Atom.node] using h3
          exact (h x (h1 x (by simp [vars, Atom.node]))).2 hx
      rw [this]
      rfl

theorem Rel.putAll {H : ℕ → Prop} : ∀ (outs : List ℕ) (vs : List F) {K : List ℕ} {val : ℕ → ℝ} {env : Env ICell},
    Rel H K val env → vs.length = outs.length → (∀ v ∈ vs, v ≠ none) →
    Rel H (outs ++ K) (setAll val outs vs) (Joint.putAll env outs (vs.map fun v => some (v, some 0)))
  | [], vs, K, val, env, h, hl, _ => by
    have : vs = [] := List.length_eq_zero_iff.1 hl
    subst this
    exact h
  | x :: xs, [], _, _, _, _, hl, _ => by simp at hl
  | x :: xs, v :: vs, K, val, env, h, hl, hv => by
    rcases v with _ | r
    · exact absurd rfl (hv none List.mem_cons_self)
    have h1 : Rel H (x :: K) (setR val x r) (put env x (some (some r, some 0))) := by
      intro y hy
      by_cases hyx : y = x
      · subst hyx
        simp [put, setR]
      · simpa [put, setR, hyx] using h y hy
    have h2 := Rel.putAll xs vs h1 (by simpa using hl) fun v hv' => hv v (List.mem_cons_of_mem _ hv')
    intro y hy
    have h3 := h2 y hy
    simp only [List.mem_append, List.mem_cons] at h3 ⊢
    refine ⟨fun hm => h3.1 (by tauto), fun hm => h3.2 (by tauto)⟩

theorem setAll_other (outs : List ℕ) (vs : List F) (val : ℕ → ℝ) (x : ℕ) (hx : x ∉ outs) :
    setAll val outs vs x = val x := by
  induction outs generalizing vs val with
  | nil => rfl
  | cons y outs ih =>
    cases vs with
    | nil => rfl
    | cons v vs =>
      simp only [List.mem_cons, not_or] at hx
      rw [setAll, ih vs _ hx.2]
      simp [setR, hx.1]

theorem chainCell_reads (env env' : Env ICell) (ls : List (Link × ℕ)) (c : ICell)
    (h : ∀ a ∈ ls.flatMap (fun l => l.1.operand), Propagate.read iOps env a = Propagate.read iOps env' a) :
    chainCell env ls c = chainCell env' ls c := by
  induction ls with
  | nil => rfl
  | cons p ls ih =>
    obtain ⟨l, y⟩ := p
    have h1 := ih fun a ha => h a (by simp only [List.flatMap_cons, List.mem_append]; exact Or.inr ha)
    have h2 : ∀ a ∈ l.operand, Propagate.read iOps env a = Propagate.read iOps env' a := fun a ha =>
      h a (by simp only [List.flatMap_cons, List.mem_append]; exact Or.inl ha)
    rw [chainCell, chainCell, h1]
    cases l with
    | un p => rfl
    | left p a => simp only [Link.back, h2 a (by simp [Link.operand])]
    | right p a => simp only [Link.back, h2 a (by simp [Link.operand])]

theorem chainCell_some (val : ℕ → ℝ) (ls : List (Link × ℕ)) (c : F × F) :
    ∃ d, chainCell (fun x => some (some (val x), some 0)) ls (some c) = some d := by
  induction ls with
  | nil => exact ⟨c, rfl⟩
  | cons p ls ih =>
    obtain ⟨l, y⟩ := p
    obtain ⟨d, hd⟩ := ih
    rw [chainCell, hd]
    have hr : ∀ a : Atom F, ∃ w, Propagate.read iOps (fun x => some (some (val x), some 0)) a = some w := by
      intro a
      cases a <;> exact ⟨_, rfl⟩
    cases l with
    | un p => exact ⟨_, rfl⟩
    | left p a => obtain ⟨w, hw⟩ := hr a; simp only [Link.back, hw]; exact ⟨_, rfl⟩
    | right p a => obtain ⟨w, hw⟩ := hr a; simp only [Link.back, hw]; exact ⟨_, rfl⟩

theorem putChain_other (env0 : Env ICell) (ls : List (Link × ℕ)) : ∀ (t : ℕ) (c : ICell) (env : Env ICell) (x : ℕ),
    x ∉ t :: ls.map (·.2) → putChain env0 t ls c env x = env x := by
  induction ls with
  | nil =>
    intro t c env x hx
    simp only [List.map_nil, List.mem_singleton] at hx
    simp [putChain, put, hx]
  | cons p ls ih =>
    obtain ⟨l, y⟩ := p
    intro t c env x hx
    simp only [List.map_cons, List.mem_cons, not_or] at hx
    simp only [putChain, put, hx.1, if_false]
    exact ih y c env x (by simp [hx.2.1, hx.2.2])

theorem lastVar_mem_law (ls : List (Link × ℕ)) : ∀ t : ℕ, lastVar t ls ∈ t :: ls.map (·.2) := by
  induction ls with
  | nil => intro t; simp [lastVar]
  | cons p ls ih =>
    obtain ⟨l, y⟩ := p
    intro t
    exact List.mem_cons_of_mem _ (ih y)

theorem putChain_last (env0 : Env ICell) (ls : List (Link × ℕ)) : ∀ (t : ℕ) (c : ICell) (env : Env ICell),
    (t :: ls.map (·.2)).Nodup → putChain env0 t ls c env (lastVar t ls) = c := by
  induction ls with
  | nil => intro t c env _; simp [putChain, put, lastVar]
  | cons p ls ih =>
    obtain ⟨l, y⟩ := p
    intro t c env hn
    rw [List.map_cons, List.nodup_cons] at hn
    have hne : lastVar y ls ≠ t := fun e => hn.1 (e ▸ lastVar_mem_law ls y)
    simp only [putChain, put, lastVar, hne, if_false]
    exact ih y c env hn.2

theorem inner_or_last (ls : List (Link × ℕ)) : ∀ (t x : ℕ), x ∈ t :: ls.map (·.2) →
    x ∈ (t :: ls.map (·.2)).dropLast ∨ x = lastVar t ls := by
  induction ls with
  | nil => intro t x hx; right; simpa [lastVar] using hx
  | cons p ls ih =>
    obtain ⟨l, y⟩ := p
    intro t x hx
    rw [List.map_cons, List.mem_cons] at hx
    rcases hx with rfl | hx
    · left; simp
    · rcases ih y x hx with h | h
      · left
        simp only [List.map_cons, List.dropLast_cons_cons, List.mem_cons]
        exact Or.inr h
      · exact Or.inr h

/-- The dictionary gives the values `y` to the random variables. -/
def Gives (lat : String → Option F) : (body : List Stmt) → (Fin (draws body).length → ℝ) → Prop
  | [], _ => True
  | .det _ _ _ :: rest, y => Gives lat rest y
  | .draw D :: rest, y => (∃ n, D.name = some n ∧ lat n = some (some (y (0 : Fin ((draws rest).length + 1))))) ∧
      Gives lat rest (Fin.tail (n := (draws rest).length) y)
  | .tag _ _ :: rest, y => Gives lat rest y

/-- Deterministic operations return numbers. -/
def Stmt.Total : Stmt → Prop
  | .det op ins _ => ∀ val : ℕ → ℝ, ∀ v ∈ op.eval (ins.map (aval val)), v ≠ none
  | _ => True

/-- The sum of the terms is the log of the joint density. -/
theorem terms_dens (lat : String → Option F) (H : ℕ → Prop) (body : List Stmt) :
    ∀ (K : List ℕ) (val : ℕ → ℝ) (env : Env ICell) (y : Fin (draws body).length → ℝ), Rel H K val env →
      (∀ st ∈ body, ∀ x ∈ st.uses, ¬ H x) → (∀ D ∈ draws body, ∀ x ∈ D.inner, H x) →
      (∀ op ins outs, Stmt.det op ins outs ∈ body → ∀ vs : List F, vs.length = ins.length →
        (op.eval vs).length = outs.length) →
      (∀ st ∈ body, st.Total) → (body.flatMap Stmt.defs).Nodup →
      (∀ x ∈ K, x ∉ body.flatMap Stmt.defs) → Determined K body → Gives lat body y →
      ∃ ts, (terms lat env body).mapM id = some ts ∧ dens (sumF ts) = jd body val y := by
  induction body with
  | nil =>
    intro K val env y _ _ _ _ _ _ _ _ _
    exact ⟨[], rfl, by simp [sumF, dens, jd]⟩
  | cons st rest ih =>
    intro K val env y hrel huse hin hsz htot hnd hK hdet hg
    have huse' : ∀ s ∈ rest, ∀ x ∈ s.uses, ¬ H x := fun s hs => huse s (List.mem_cons_of_mem _ hs)
    have hsz' : ∀ op ins outs, Stmt.det op ins outs ∈ rest → ∀ vs : List F, vs.length = ins.length →
        (op.eval vs).length = outs.length := fun op ins outs hs => hsz op ins outs (List.mem_cons_of_mem _ hs)
    have htot' : ∀ s ∈ rest, s.Total := fun s hs => htot s (List.mem_cons_of_mem _ hs)
    rw [List.flatMap_cons, List.nodup_append'] at hnd
    obtain ⟨hnd1, hnd2, hnd3⟩ := hnd
    have hKd : ∀ x ∈ K, x ∉ st.defs := fun x hx hd => hK x hx (by
      rw [List.flatMap_cons]; exact List.mem_append_left _ hd)
    have hKr : ∀ x ∈ K, x ∉ rest.flatMap Stmt.defs := fun x hx hd => hK x hx (by
      rw [List.flatMap_cons]; exact List.mem_append_right _ hd)
    cases st with
    | tag n a => exact ih K val env y hrel huse' hin hsz' htot' hnd2 hKr hdet hg
    | det op ins outs =>
      have hu : ∀ x ∈ vars ins, ¬ H x := huse _ List.mem_cons_self
      simp only [terms, List.nil_append]
      by_cases hk : ∀ x ∈ vars ins, x ∈ K
      · have hr := hrel.reads ins hu hk
        have hrun : Stmt.run lat env (.det op ins outs)
            = Joint.putAll env outs ((op.eval (ins.map (aval val))).map fun v => some (v, some 0)) := by
          simp only [Stmt.run, hr, List.map_map, Function.comp_def]
        rw [hrun]
        have hlen := hsz _ _ _ List.mem_cons_self (ins.map (aval val)) (by simp)
        have hrel' := Rel.putAll outs _ hrel hlen (htot _ List.mem_cons_self val)
        have hdet' : Determined (outs ++ K) rest := by
          simpa only [Determined, if_pos hk] using hdet
        refine ih (outs ++ K) _ _ y hrel' huse' hin hsz' htot' hnd2 ?_ hdet' hg
        intro x hx
        rcases List.mem_append.1 hx with h | h
        · exact fun hd => hnd3 h hd
        · exact hKr x h
      · have hr := hrel.reads_none ins hu hk
        have hrun : Stmt.run lat env (.det op ins outs) = env := by
          simp only [Stmt.run, hr]
        rw [hrun]
        have hdet' : Determined K rest := by
          simpa only [Determined, if_neg hk] using hdet
        refine ih K _ env y ?_ huse' hin hsz' htot' hnd2 hKr hdet' hg
        intro x hx
        refine ⟨fun hm => ?_, (hrel x hx).2⟩
        rw [setAll_other outs _ val x (hKd x hm)]
        exact (hrel x hx).1 hm
    | draw D =>
      obtain ⟨⟨n, hn, hlat⟩, hg'⟩ := hg
      obtain ⟨-, hneeds, hdet'⟩ := hdet
      have hgiven : D.given lat = some (some (y (0 : Fin ((draws rest).length + 1))), some 0) := by
        simp [Draw.given, hn, hlat]
      have hu : ∀ x ∈ vars (D.operands ++ D.links.flatMap fun l => l.1.operand), ¬ H x :=
        huse _ List.mem_cons_self
      have hv : ∀ (as bs : List (Atom F)) (x : ℕ), x ∈ vars (as ++ bs) ↔ x ∈ vars as ∨ x ∈ vars bs := by
        intro as bs x
        simp [vars, List.filterMap_append]
      have hup : ∀ x ∈ vars ((D.operands.drop D.numConsts).drop 1), ¬ H x := by
        intro x hx
        refine hu x ((hv _ _ _).2 (Or.inl ?_))
        simp only [vars, List.mem_filterMap] at hx ⊢
        obtain ⟨a, ha, e⟩ := hx
        exact ⟨a, List.mem_of_mem_drop (List.mem_of_mem_drop ha), e⟩
      have hul : ∀ x ∈ vars (D.links.flatMap fun l => l.1.operand), ¬ H x := fun x hx =>
        hu x ((hv _ _ _).2 (Or.inr hx))
      have hps := hrel.reads ((D.operands.drop D.numConsts).drop 1) hup fun x hx =>
        hneeds x (List.mem_append_left _ hx)
      have hch : chainCell env D.links (D.given lat)
          = chainCell (fun x => some (some (val x), some 0)) D.links (D.given lat) := by
        refine chainCell_reads _ _ _ _ fun a ha => ?_
        rw [hrel.read a (fun x hx => hul x (mem_vars ha hx))
          (fun x hx => hneeds x (List.mem_append_right _ (mem_vars ha hx)))]
        cases a <;> rfl
      have hterm : D.term lat env = some (D.lp val (y (0 : Fin ((draws rest).length + 1)))) := by
        rw [Draw.term, hps, hch, hgiven, Draw.lp]
        obtain ⟨⟨v, l⟩, hd⟩ := chainCell_some val D.links (some (y (0 : Fin ((draws rest).length + 1))), some 0)
        rw [hd]
        simp [Draw.params, Function.comp_def]
      have hdefs : (D.value :: D.links.map (·.2)).Nodup := hnd1
      have hrel' : Rel H (D.value :: D.links.map (·.2) ++ K)
          (setR val (lastVar D.value D.links) (y (0 : Fin ((draws rest).length + 1))))
          (Stmt.run lat env (.draw D)) := by
        intro x hx
        simp only [Stmt.run]
        by_cases hm : x ∈ D.value :: D.links.map (·.2)
        · rcases inner_or_last D.links D.value x hm with h | h
          · exact absurd (hin D List.mem_cons_self x h) hx
          · subst h
            refine ⟨fun _ => ?_, fun hc => absurd (List.mem_append_left _ hm) hc⟩
            rw [putChain_last _ _ _ _ _ hdefs, hgiven]
            simp [setR]
        · rw [putChain_other _ _ _ _ _ _ hm]
          have hne : x ≠ lastVar D.value D.links := fun e => hm (e ▸ lastVar_mem_law _ _)
          refine ⟨fun hc => ?_, fun hc => (hrel x hx).2 fun h => hc (List.mem_append_right _ h)⟩
          simp only [setR, hne, if_false]
          exact (hrel x hx).1 ((List.mem_append.1 hc).resolve_left hm)
      obtain ⟨ts, h1, h2⟩ := ih _ _ _ (Fin.tail (n := (draws rest).length) y) hrel' huse'
        (fun E hE => hin E (List.mem_cons_of_mem _ hE)) hsz' htot' hnd2 (by
          intro x hx
          rcases List.mem_append.1 hx with h | h
          · exact fun hd => hnd3 h hd
          · exact hKr x h) hdet' hg'
      refine ⟨D.lp val (y (0 : Fin ((draws rest).length + 1))) :: ts, ?_, ?_⟩
      · simp only [terms, List.singleton_append, List.mapM_cons, hterm, h1]
        rfl
      · rw [show sumF (D.lp val (y (0 : Fin ((draws rest).length + 1))) :: ts)
          = addF (D.lp val (y (0 : Fin ((draws rest).length + 1)))) (sumF ts) from rfl, dens_addF, h2]
        rfl

end Verif.LogProb.Joint
