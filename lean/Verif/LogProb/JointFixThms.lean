import Verif.LogProb.JointFix

/-! C83: the distribution of `joint_sample` of `intervene` and `conditional`. -/
namespace Verif.LogProb.Joint

open Verif.Propagate Verif.Inverse Verif.Plate MeasureTheory
open scoped ENNReal

variable {Ω : Type} {obs : String → Option (Atom F)} {extra : List Nat} {S : Source}

/-! ### The program with assignments -/

theorem fix_cases (obs : String → Option (Atom F)) (D : Draw) :
    (D.name.bind obs = none ∧ fixStmt obs (.draw D) = .draw D) ∨
    ∃ n a, D.name = some n ∧ obs n = some a ∧
      fixStmt obs (.draw D) = .det (.other fun vs => vs) [a] [lastVar D.value D.links] := by
  rcases ho : D.name.bind obs with _ | a
  · exact .inl ⟨rfl, by simp only [fixStmt, ho]⟩
  · obtain ⟨n, h1, h2⟩ := Option.bind_eq_some_iff.1 ho
    exact .inr ⟨n, a, h1, h2, by simp only [fixStmt, ho]⟩

theorem fix_draws (body : List Stmt) :
    draws (body.map (fixStmt obs)) = (draws body).filter fun D => (D.name.bind obs).isNone := by
  induction body with
  | nil => rfl
  | cons st rest ih =>
    cases st with
    | det op ins outs => exact ih
    | tag n a => exact ih
    | draw D =>
      rw [List.map_cons]
      rcases fix_cases obs D with ⟨h1, h2⟩ | ⟨n, a, h1, h2, h3⟩
      · rw [h2]
        simp only [draws, ih]
        rw [List.filter_cons_of_pos (by simp [h1])]
      · rw [h3]
        simp only [draws, ih]
        rw [List.filter_cons_of_neg (by simp [h1, h2])]

theorem fix_defs (body : List Stmt) : ((body.map (fixStmt obs)).flatMap Stmt.defs).Sublist (body.flatMap Stmt.defs) := by
  induction body with
  | nil => exact List.Sublist.refl _
  | cons st rest ih =>
    rw [List.map_cons, List.flatMap_cons, List.flatMap_cons]
    refine List.Sublist.append ?_ ih
    cases st with
    | det op ins outs => exact List.Sublist.refl _
    | tag n a => exact List.Sublist.refl _
    | draw D =>
      rcases fix_cases obs D with ⟨h1, h2⟩ | ⟨n, a, h1, h2, h3⟩
      · rw [h2]
      · rw [h3]
        exact List.singleton_sublist.2 (lastVar_mem _ _)

theorem fix_determined (H : ℕ → Prop) (hp : Plants extra obs) (body : List Stmt) : ∀ K K' : List ℕ,
    (∀ st ∈ body, ∀ x ∈ st.uses, ¬ H x) → (∀ D ∈ draws body, ∀ x ∈ D.inner, H x) →
    (∀ x ∈ K, x ∈ K' ∨ H x) → (∀ e ∈ extra, e ∈ K') → Determined K body → Determined K' (body.map (fixStmt obs)) := by
  induction body with
  | nil => intro K K' _ _ _ _ _; trivial
  | cons st rest ih =>
    intro K K' hu hi hK he hd
    have hu' : ∀ s ∈ rest, ∀ x ∈ s.uses, ¬ H x := fun s hs => hu s (List.mem_cons_of_mem _ hs)
    have hus := hu st List.mem_cons_self
    cases st with
    | tag n a => exact ih K K' hu' hi hK he hd
    | det op ins outs =>
      rw [List.map_cons]
      simp only [fixStmt, Determined] at hd ⊢
      refine ih _ _ hu' hi ?_ ?_ hd
      · intro x hx
        split at hx
        · rename_i hk
          rw [if_pos fun z hz => (hK z (hk z hz)).resolve_right (hus z hz)]
          rcases List.mem_append.1 hx with h | h
          · exact .inl (List.mem_append_left _ h)
          · exact (hK x h).imp (List.mem_append_right _) id
        · refine (hK x hx).imp (fun h => ?_) id
          split
          · exact List.mem_append_right _ h
          · exact h
      · intro e hee
        split
        · exact List.mem_append_right _ (he e hee)
        · exact he e hee
    | draw D =>
      obtain ⟨hd1, hd2, hd3⟩ := hd
      have hi' : ∀ E ∈ draws rest, ∀ x ∈ E.inner, H x := fun E hE => hi E (List.mem_cons_of_mem _ hE)
      rw [List.map_cons]
      rcases fix_cases obs D with ⟨h1, h2⟩ | ⟨n, a, h1, h2, h3⟩
      · rw [h2]
        refine ⟨hd1, fun x hx => (hK x (hd2 x hx)).resolve_right (hus x ?_), ih _ _ hu' hi' ?_ ?_ hd3⟩
        · rcases List.mem_append.1 hx with h | h
          · refine mem_uses_operands ?_
            obtain ⟨a, h2, h3⟩ := List.mem_filterMap.1 h
            exact List.mem_filterMap.2 ⟨a, List.mem_of_mem_drop (List.mem_of_mem_drop h2), h3⟩
          · exact mem_uses_links h
        · intro x hx
          rcases List.mem_append.1 hx with h | h
          · exact .inl (List.mem_append_left _ h)
          · exact (hK x h).imp (List.mem_append_right _) id
        · exact fun e hee => List.mem_append_right _ (he e hee)
      · rw [h3]
        simp only [Determined]
        have hin : ∀ x ∈ vars [a], x ∈ K' := by
          intro x hx
          rcases hp n a h2 with ⟨c, rfl⟩ | ⟨e, hee, rfl⟩
          · simp [vars, Atom.node] at hx
          · simp [vars, Atom.node] at hx
            exact hx ▸ he e hee
        rw [if_pos hin]
        refine ih _ _ hu' hi' ?_ (fun e hee => List.mem_append_right _ (he e hee)) hd3
        intro x hx
        rcases List.mem_append.1 hx with h | h
        · rcases inner_or_last D.links D.value x h with h | h
          · exact .inr (hi D List.mem_cons_self x h)
          · exact .inl (List.mem_append_left _ (by simp [h]))
        · exact (hK x h).imp (List.mem_append_right _) id

/-- Random variables that are left have keys apart. -/
theorem keysApart_sublist {S S' : Source} {keyOf : ℕ → Key} (h : (draws S'.body).Sublist (draws S.body))
    (hk : S.KeysApart keyOf) : S'.KeysApart keyOf := by
  obtain ⟨f, hf⟩ := List.sublist_iff_exists_fin_orderEmbedding_get_eq.1 h
  obtain ⟨k, h1, h2⟩ := hk
  refine ⟨fun i => k (f i), fun i => ?_, fun i j hij => h2 _ _ fun hc => hij (f.injective hc)⟩
  rw [hf i]
  exact h1 (f i)

/-- A dictionary that gives the values `y` to the names of a program, in the order of the program. -/
def Source.latents (S : Source) (y : Fin S.names.length → ℝ) : List (String × F) := S.names.zip ((List.ofFn y).map some)

/-- The values of `joint_sample(f)(key, *args)`, in the order of the program. -/
noncomputable def Source.samples (S : Source) (samp : Draw → List F → (Key → Ω) → ℝ) (keyOf : ℕ → Key) (args : List ℝ)
    (ω : Key → Ω) : Fin S.names.length → ℝ :=
  fun i => ((jointSample samp keyOf ω S.body (startVal S args)).map (·.2)).getD i 0

variable [MeasurableSpace Ω]

/-- The samples of the program with planted values. -/
theorem plant_sample_density (P : Measure Ω) [IsProbabilityMeasure P]
    (samp : Draw → List F → (Key → Ω) → ℝ) (keyOf : ℕ → Key) (h : S.WF) (hT : S.NoTags)
    (hn : S.names.Nodup) (hd : Determined S.args S.body) (hL : S.Local) (hk : S.KeysApart keyOf) (hkk : S.KeysFromKeys)
    (htot : ∀ st ∈ S.body, st.Total) (hs : ∀ st ∈ S.body, st.Sampled (oracle P) samp)
    (hsamp : ∀ (D : Draw) σ, samp (D.replace σ) = samp D)
    (hp : Plants extra obs) (hx : S.Fresh extra) (given : List String) (hg : ∀ n, n ∈ given ↔ obs n ≠ none)
    (hnum : ∀ n c, obs n = some (.lit c) → c ≠ none)
    (args vals : List ℝ) (ha : args.length = S.args.length) (hv : vals.length = extra.length)
    (lat : List (String × F) → String → Option F)
    (h1 : ∀ l n a, obs n = some a → ∃ v, lat l n = some v ∧ ((a = .lit v) ∨ ∃ x, a = .var x ∧ (x, v) ∈ extra.zip (vals.map some)))
    (h2 : ∀ l n, obs n = none → lat l n = dict l n) :
    ∃ lp : (Fin (S.plant extra obs).names.length → ℝ) → F,
      (∀ y res, JointLogProb (S.plant extra obs) ((S.plant extra obs).latents y) ((args ++ vals).map some) res ↔
        res = .ok (lp y)) ∧
      (∀ y, S.jointWithout given (lat ((S.plant extra obs).latents y)) (args.map some) = .ok (lp y)) ∧
      (oracle P).map ((S.plant extra obs).samples samp keyOf (args ++ vals))
        = (Measure.pi fun _ => (volume : Measure ℝ)).withDensity fun y => dens (lp y) := by
  have hnm := determined_named S.body S.args hd
  obtain ⟨hb1, hb2, hb3, -, -⟩ := WF.body h
  have hextra : ∀ e ∈ extra, e ∉ S.body.flatMap Stmt.defs := fun e he hc => (hx.2 e he).1 (by
    simp only [List.cons_append, List.mem_cons, List.mem_append]; exact .inr (.inr hc))
  have hnames : (S.plant extra obs).names = S.names.filter (· ∉ given) := by
    rw [Source.names, Source.plant, plant_names S.body _ hT]
    refine List.filter_congr fun n _ => ?_
    have := hg n
    by_cases hm : n ∈ given
    · have h3 := this.1 hm
      rcases ho : obs n with _ | a
      · exact absurd ho h3
      · simp [hm]
    · have : obs n = none := by by_contra hc; exact hm ((hg n).2 hc)
      simp [hm, this]
  let X : Source := { key := S.key, args := S.args ++ extra, body := S.body.map (fixStmt obs), outs := [] }
  have hdraws : draws X.body = (draws S.body).filter fun D => (D.name.bind obs).isNone := fix_draws S.body
  have hsub : ∀ D ∈ draws X.body, D ∈ draws S.body := fun D hD => by
    rw [hdraws] at hD
    exact (List.mem_filter.1 hD).1
  have hobs : ∀ D ∈ draws X.body, D.name.bind obs = none := fun D hD => by
    rw [hdraws] at hD
    simpa using (List.mem_filter.1 hD).2
  have hnmX : ∀ D ∈ draws X.body, D.name ≠ none := fun D hD => hnm D (hsub D hD)
  have hTX : X.NoTags := by
    intro st hst n a
    obtain ⟨s, hs, rfl⟩ := List.mem_map.1 hst
    cases s with
    | det op ins outs => simp [fixStmt]
    | tag m b => exact absurd rfl (hT _ hs m b)
    | draw D =>
      rcases fix_cases obs D with ⟨-, h2⟩ | ⟨m, b, -, -, h3⟩
      · rw [h2]; simp
      · rw [h3]; simp
  have hnamesX : (S.plant extra obs).names = (draws X.body).map fun D => D.name.getD "" := by
    rw [hnames, show S.names = _ from names_draws S.body hT hnm, hdraws, List.filter_map]
    congr 1
    refine List.filter_congr fun D hD => ?_
    obtain ⟨n, hDn⟩ := Option.ne_none_iff_exists'.1 (hnm D hD)
    simp only [Function.comp_apply, hDn, Option.getD_some, Option.bind_some]
    have := hg n
    rcases ho : obs n with _ | a
    · simp [hg, ho]
    · simp [hg, ho]
  have hlen : (draws X.body).length = (S.plant extra obs).names.length := by rw [hnamesX]; simp
  -- the density
  have hH : ∀ st ∈ X.body, ∀ x ∈ st.uses, ¬ ∃ D ∈ draws S.body, x ∈ D.inner := by
    rintro st hst x hxu ⟨E, hE, hi⟩
    obtain ⟨s, hs, rfl⟩ := List.mem_map.1 hst
    cases s with
    | det op ins outs => exact hL _ hs x hxu E hE hi
    | tag m b => exact absurd rfl (hT _ hs m b)
    | draw D =>
      rcases fix_cases obs D with ⟨-, h2⟩ | ⟨m, b, -, h2, h3⟩
      · rw [h2] at hxu; exact hL _ hs x hxu E hE hi
      · rw [h3] at hxu
        rcases hp m b h2 with ⟨c, rfl⟩ | ⟨e, hee, rfl⟩
        · simp [Stmt.uses, Atom.node] at hxu
        · simp [Stmt.uses, Atom.node] at hxu
          subst hxu
          exact hextra x hee (defs_disjoint (draws_mem.1 hE) x (List.dropLast_subset _ hi))
  have hdX : Determined (S.args ++ extra) X.body := by
    refine fix_determined (fun x => ∃ D ∈ draws S.body, x ∈ D.inner) hp S.body S.args _ ?_ (fun D hD x hx => ⟨D, hD, hx⟩)
      (fun x hx => .inl (List.mem_append_left _ hx)) (fun e he => List.mem_append_right _ he) hd
    rintro st hst x hxu ⟨E, hE, hi⟩
    exact hL _ hst x hxu E hE hi
  have hargs : (args ++ vals).length = (S.args ++ extra).length := by simp [ha, hv]
  have hkeys : ∀ y : Fin (draws X.body).length → ℝ, (named X y).map (·.1) = (S.plant extra obs).names := by
    intro y
    rw [hnamesX, named, List.map_ofFn]
    refine List.ext_getElem (by simp) fun i h1 h2 => ?_
    simp
  have hval : ∀ y : Fin (draws X.body).length → ℝ, ∃ ts,
      (termsWithout given (lat (named X y)) (argEnv S.args (args.map some)) S.body).mapM id = some ts ∧
      dens (sumF ts) = jd X.body (startVal X (args ++ vals)) y := by
    intro y
    have hfix := fix_terms hp S.body hb1 hextra hL (fun st hst x hxu hxe => (hx.2 x hxe).2 st hst hxu) hnm given hg
      (lat (named X y)) (argEnv (S.args ++ extra) ((args ++ vals).map some)) (by
        intro n a ha'
        obtain ⟨v, hv1, hv2⟩ := h1 (named X y) n a ha'
        refine ⟨v, hv1, ?_⟩
        rcases hv2 with rfl | ⟨x, rfl, hxv⟩
        · rfl
        · rw [argEnv, List.map_append, List.map_append, putAll_append _ _ _ _ (by simpa using ha)]
          exact argEnv_nodup extra (vals.map some) _ hx.1 (x, v) hxv) S.body [] rfl
      (argEnv (S.args ++ extra) ((args ++ vals).map some)) (argEnv S.args (args.map some)) (fun _ _ => rfl) (by
        intro x hxH
        rw [argEnv, List.map_append, List.map_append, putAll_append _ _ _ _ (by simpa using ha)]
        exact putAll_frame _ _ _ _ fun hc => hxH (.inr hc))
    rw [← hfix]
    refine terms_dens (lat (named X y)) (fun x => ∃ D ∈ draws S.body, x ∈ D.inner) X.body (S.args ++ extra)
      (startVal X (args ++ vals)) _ y (startVal_rel _ _ _ hargs) hH (fun D hD x hx => ⟨D, hsub D hD, hx⟩) ?_ ?_
      (hb1.sublist (fix_defs S.body)) ?_ hdX ?_
    · intro op ins outs hm vs hvs
      obtain ⟨s, hs, he⟩ := List.mem_map.1 hm
      cases s with
      | det op' ins' outs' =>
        simp only [fixStmt, Stmt.det.injEq] at he
        obtain ⟨rfl, rfl, rfl⟩ := he
        exact ((h.sized _ hs).2 vs hvs).1
      | tag m b => exact absurd rfl (hT _ hs m b)
      | draw D =>
        rcases fix_cases obs D with ⟨-, h2⟩ | ⟨m, b, -, -, h3⟩
        · rw [h2] at he; simp at he
        · rw [h3] at he
          simp only [Stmt.det.injEq] at he
          obtain ⟨rfl, rfl, rfl⟩ := he
          simpa [Op.eval] using hvs
    · intro st hst
      obtain ⟨s, hs, rfl⟩ := List.mem_map.1 hst
      cases s with
      | det op ins outs => exact htot _ hs
      | tag m b => exact absurd rfl (hT _ hs m b)
      | draw D =>
        rcases fix_cases obs D with ⟨-, h2⟩ | ⟨m, b, -, h2, h3⟩
        · rw [h2]; trivial
        · rw [h3]
          intro val v hv
          simp only [Op.eval, List.map_cons, List.map_nil, List.mem_singleton] at hv
          subst hv
          rcases hp m b h2 with ⟨c, rfl⟩ | ⟨e, hee, rfl⟩
          · exact hnum m c h2
          · simp [aval]
    · intro x hx' hc
      have hc' := (fix_defs S.body).subset hc
      rcases List.mem_append.1 hx' with hm | hm
      · exact hb3 x hm hc'
      · exact hextra x hm hc'
    · refine gives_named _ X.body hnmX y fun i => ?_
      have hi := List.get_mem (draws X.body) i
      obtain ⟨n, hDn⟩ := Option.ne_none_iff_exists'.1 (hnmX _ hi)
      have ho := hobs _ hi
      rw [hDn, Option.bind_some] at ho
      rw [hDn, Option.getD_some, h2 _ n ho]
      refine lookup_of_mem ?_ ?_
      · rw [hkeys, hnames]; exact hn.filter _
      · rw [named, List.mem_ofFn]
        exact ⟨i, by rw [hDn]; rfl⟩
  choose ts hts hdens using hval
  -- the samples
  have hsX : ∀ st ∈ X.body, st.Sampled (oracle P) samp := by
    intro st hst
    obtain ⟨s, hs', rfl⟩ := List.mem_map.1 hst
    cases s with
    | det op ins outs => exact hs _ hs'
    | tag m b => exact absurd rfl (hT _ hs' m b)
    | draw D =>
      rcases fix_cases obs D with ⟨-, h2⟩ | ⟨m, b, -, h2, h3⟩
      · rw [h2]; exact hs _ hs'
      · rw [h3]
        simp only [Stmt.Sampled, Op.eval, List.map_cons, List.map_nil, setAll]
        refine measurable_setR measurable_id _ ?_
        cases b with
        | lit c => exact (measurable_const : Measurable fun _ : ℕ → ℝ => c.getD 0)
        | var x => exact measurable_pi_apply x
        | drop x => exact measurable_pi_apply x
  have hlaw := sampled_law P X samp keyOf (args ++ vals) hTX hnmX
    (keysApart_sublist (S := S) (by rw [hdraws]; exact List.filter_sublist) hk) hsX
  obtain ⟨K, hK1, hK2, hK3⟩ := hkk
  have hsame : ∀ ω, jointSample samp keyOf ω (S.plant extra obs).body (startVal (S.plant extra obs) (args ++ vals))
      = jointSample samp keyOf ω X.body (startVal X (args ++ vals)) := fun ω =>
    fix_samples samp keyOf ω hp hnum hsamp S.body hb1 hextra hT htot K hK1 hK2 hK3 S.body [] rfl .var _ _ stands_var
      (fun _ _ => rfl) (fun _ _ => rfl) (fun _ _ => rfl) fun _ => rfl
  -- together
  have key : ∀ m (e : (draws X.body).length = m), ∃ lp : (Fin m → ℝ) → F,
      (∀ y res, JointLogProb (S.plant extra obs) ((S.plant extra obs).names.zip ((List.ofFn y).map some)) ((args ++ vals).map some) res ↔
        res = .ok (lp y)) ∧
      (∀ y, S.jointWithout given (lat ((S.plant extra obs).names.zip ((List.ofFn y).map some))) (args.map some) = .ok (lp y)) ∧
      (oracle P).map (fun ω (i : Fin m) => ((jointSample samp keyOf ω (S.plant extra obs).body
          (startVal (S.plant extra obs) (args ++ vals))).map (·.2)).getD i 0)
        = (Measure.pi fun _ => (volume : Measure ℝ)).withDensity fun y => dens (lp y) := by
    rintro m rfl
    have hdict : ∀ y : Fin (draws X.body).length → ℝ, (S.plant extra obs).names.zip ((List.ofFn y).map some) = named X y := by
      intro y
      rw [named, hnamesX]
      refine List.ext_getElem (by simp) fun i h1 h2 => ?_
      simp
    have hjw : ∀ y, S.jointWithout given (lat (named X y)) (args.map some) = .ok (sumF (ts y)) := by
      intro y
      rw [Source.jointWithout, hts y]
    refine ⟨fun y => sumF (ts y), fun y res => ?_, fun y => ?_, ?_⟩
    · rw [hdict, List.map_append, plant_log_prob h hT hL hn hnm hp hx given hg (named X y) (lat (named X y)) (args.map some)
        (vals.map some) (by simpa using ha) (by simpa using hv) (by rw [hkeys, hnames]) (h1 _) (h2 _), hjw]
    · rw [hdict, hjw]
    · simp only [hdens, hsame]
      exact hlaw
  exact key _ hlen

end Verif.LogProb.Joint
