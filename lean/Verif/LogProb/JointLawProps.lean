import Verif.LogProb.JointLawMain

/-! C81: `joint_log_prob(f)` is the log density of `joint_sample(f)`. -/
namespace Verif.LogProb.Joint

open Verif.Propagate Verif.Inverse Verif.Plate MeasureTheory
open scoped ENNReal

variable {Ω : Type}

/-- A dictionary that gives the values `y` to the names, in the order of the program. -/
def named (S : Source) (y : Fin (draws S.body).length → ℝ) : List (String × F) :=
  List.ofFn fun i => (((draws S.body).get i).name.getD "", some (y i))

/-- The values of `joint_sample(f)(key, *args)`, in the order of the program. -/
noncomputable def sampled (S : Source) (samp : Draw → List F → (Key → Ω) → ℝ) (keyOf : ℕ → Key) (args : List ℝ)
    (ω : Key → Ω) : Fin (draws S.body).length → ℝ :=
  fun i => ((jointSample samp keyOf ω S.body (startVal S args)).map (·.2)).getD i 0

/-- What the program does with its local variables: no statement uses the variables inside the function of a random
variable. -/
def Source.Local (S : Source) : Prop :=
  ∀ st ∈ S.body, ∀ x ∈ st.uses, ∀ D ∈ draws S.body, x ∉ D.inner

/-- The key of a draw: its first operand after the constants. -/
def Draw.HasKey (D : Draw) (k : ℕ) : Prop := D.operands[D.numConsts]? = some (.var k)

/-- Different random variables use different keys, none derived from another. -/
def Source.KeysApart (S : Source) (keyOf : ℕ → Key) : Prop :=
  ∃ k : Fin (draws S.body).length → ℕ, (∀ i, ((draws S.body).get i).HasKey (k i)) ∧
    ∀ i j, i ≠ j → ¬ keyOf (k i) <:+ keyOf (k j)

theorem Draw.HasKey.keyVar {D : Draw} {k : ℕ} (h : D.HasKey k) : D.keyVar = k := by
  have hlt := (List.getElem?_eq_some_iff.1 h).1
  rw [Draw.keyVar, List.drop_eq_getElem_cons hlt, (List.getElem?_eq_some_iff.1 h).2]

theorem determined_named (body : List Stmt) : ∀ K, Determined K body → ∀ D ∈ draws body, D.name ≠ none := by
  induction body with
  | nil => intro K _ D hD; simp [draws] at hD
  | cons st rest ih =>
    intro K h D hD
    cases st with
    | det op ins outs => exact ih _ h D hD
    | tag n a => exact ih _ h D hD
    | draw E =>
      rcases List.mem_cons.1 hD with rfl | hD
      · exact h.1
      · exact ih _ h.2.2 D hD

theorem names_draws (body : List Stmt) (hT : ∀ st ∈ body, ∀ n a, st ≠ .tag n a) (hn : ∀ D ∈ draws body, D.name ≠ none) :
    (body.flatMap Stmt.sown).map (·.1) = (draws body).map fun D => D.name.getD "" := by
  induction body with
  | nil => rfl
  | cons st rest ih =>
    have hT' : ∀ s ∈ rest, ∀ n a, s ≠ .tag n a := fun s hs => hT s (List.mem_cons_of_mem _ hs)
    cases st with
    | det op ins outs => exact ih hT' hn
    | tag n a => exact absurd rfl (hT _ List.mem_cons_self n a)
    | draw D =>
      rcases hD : D.name with _ | n
      · exact absurd hD (hn D List.mem_cons_self)
      · have := ih hT' fun E hE => hn E (List.mem_cons_of_mem _ hE)
        simp [List.flatMap_cons, Stmt.sown, hD, draws, this]

theorem gives_named (lat : String → Option F) (body : List Stmt) (hn : ∀ D ∈ draws body, D.name ≠ none) :
    ∀ y : Fin (draws body).length → ℝ,
      (∀ i, lat (((draws body).get i).name.getD "") = some (some (y i))) → Gives lat body y := by
  induction body with
  | nil => intro y _; trivial
  | cons st rest ih =>
    intro y h
    cases st with
    | det op ins outs => exact ih hn y h
    | tag n a => exact ih hn y h
    | draw D =>
      refine ⟨?_, ih (fun E hE => hn E (List.mem_cons_of_mem _ hE)) _ fun i => h i.succ⟩
      have h0 := h (0 : Fin ((draws rest).length + 1))
      rcases hD : D.name with _ | n
      · exact absurd hD (hn D List.mem_cons_self)
      · refine ⟨n, rfl, ?_⟩
        have e : ((draws (.draw D :: rest)).get (0 : Fin ((draws rest).length + 1))).name.getD "" = n := by
          simp [draws, hD]
        rwa [e] at h0

theorem startVal_rel (H : ℕ → Prop) (xs : List ℕ) (args : List ℝ) (hl : args.length = xs.length) :
    Rel H xs (setAll (fun _ => 0) xs (args.map some)) (argEnv xs (args.map some)) := by
  have h0 : Rel H [] (fun _ => 0) (fun _ => none) := fun x _ => ⟨fun h => absurd h List.not_mem_nil, fun _ => rfl⟩
  have := Rel.putAll xs (args.map some) h0 (by simpa using hl) (by simp)
  simpa [argEnv] using this

variable [MeasurableSpace Ω]

/-- The distribution of the samples. -/
theorem sampled_law (P : Measure Ω) [IsProbabilityMeasure P] (S : Source)
    (samp : Draw → List F → (Key → Ω) → ℝ) (keyOf : ℕ → Key) (args : List ℝ) (hT : S.NoTags)
    (hnm : ∀ D ∈ draws S.body, D.name ≠ none) (hk : S.KeysApart keyOf) (hs : ∀ st ∈ S.body, st.Sampled (oracle P) samp) :
    (oracle P).map (sampled S samp keyOf args)
      = (Measure.pi fun _ => (volume : Measure ℝ)).withDensity (jd S.body (startVal S args)) := by
  have hv := vec_law (oracle P) samp S.body hs (startVal S args)
  rw [← hv]
  obtain ⟨ks, hks, hap⟩ := hk
  have hap' : ∀ i j : Fin (draws S.body).length, i ≠ j →
      ¬ keyOf ((draws S.body).get i).keyVar <:+ keyOf ((draws S.body).get j).keyVar := by
    intro i j hij
    rw [(hks i).keyVar, (hks j).keyVar]
    exact hap i j hij
  have hg := oracle_graft P (fun i => keyOf ((draws S.body).get i).keyVar) hap'
  rw [Measure.infinitePi_eq_pi] at hg
  have hm : Measurable (vec samp S.body (startVal S args)) :=
    vec_measurable (oracle P) samp S.body hs (fun _ => startVal S args) (fun w => w) measurable_const measurable_id
  rw [← hg, Measure.map_map hm (by fun_prop)]
  congr 1
  funext ω i
  have := (jointSample_vec samp keyOf ω S.body hT hnm (startVal S args)).1
  simp only [sampled, this, Function.comp_apply]
  simp

/-- What `joint_log_prob(f)` returns, and its density. -/
theorem joint_density_fun (P : Measure Ω) [IsProbabilityMeasure P] (S : Source)
    (samp : Draw → List F → (Key → Ω) → ℝ) (keyOf : ℕ → Key) (args : List ℝ) (h : S.WF) (hT : S.NoTags)
    (hn : S.names.Nodup) (hd : Determined S.args S.body) (hl : S.Local) (hk : S.KeysApart keyOf)
    (htot : ∀ st ∈ S.body, st.Total) (hs : ∀ st ∈ S.body, st.Sampled (oracle P) samp)
    (ha : args.length = S.args.length) :
    ∃ lp : (Fin (draws S.body).length → ℝ) → F,
      (∀ y res, JointLogProb S (named S y) (args.map some) res ↔ res = .ok (lp y)) ∧
      (Measurable fun y => dens (lp y)) ∧
      (oracle P).map (sampled S samp keyOf args)
        = (Measure.pi fun _ => (volume : Measure ℝ)).withDensity fun y => dens (lp y) := by
  have hnm := determined_named S.body S.args hd
  have hnames : S.names = (draws S.body).map fun D => D.name.getD "" := names_draws S.body hT hnm
  have hkeys : ∀ y, (named S y).map (·.1) = S.names := by
    intro y
    rw [hnames, named, List.map_ofFn]
    refine List.ext_getElem (by simp) fun i h1 h2 => ?_
    simp
  obtain ⟨hb1, hb2, hb3, -, -⟩ := WF.body h
  have hjoint : ∀ y, ∃ ts, (terms (dict (named S y)) (argEnv S.args (args.map some)) S.body).mapM id = some ts ∧
      dens (sumF ts) = jd S.body (startVal S args) y := by
    intro y
    refine terms_dens (dict (named S y)) (fun x => ∃ D ∈ draws S.body, x ∈ D.inner) S.body S.args (startVal S args) _ y
      (startVal_rel _ S.args args ha) ?_ ?_ (fun op ins outs hm vs hv => ((h.sized _ hm).2 vs hv).1) htot hb1 ?_ hd ?_
    · rintro st hst x hx ⟨D, hD, hi⟩
      exact hl st hst x hx D hD hi
    · exact fun D hD x hx => ⟨D, hD, hx⟩
    · exact fun x hx hc => hb3 x hx hc
    · refine gives_named _ S.body hnm y fun i => ?_
      refine lookup_of_mem ?_ ?_
      · rw [hkeys]; exact hn
      · rw [named, List.mem_ofFn]
        exact ⟨i, rfl⟩
  choose ts hts hdens using hjoint
  refine ⟨fun y => sumF (ts y), ?_, ?_, ?_⟩
  · intro y res
    rw [joint_log_prob_named_partial h hT (named S y) (args.map some) (by simpa using ha) hn (by rw [hkeys]) hnm res,
      Source.joint, hts y]
  · simp only [hdens]
    exact jd_measurable (oracle P) samp S.body hs (fun _ => startVal S args) (fun w => w) measurable_const measurable_id
  · simp only [hdens]
    exact sampled_law P S samp keyOf args hT hnm hk hs

/-- **C81.** For a program whose random variables are named, use different keys, and have samplers with the densities of
their distributions: `joint_log_prob(f)` returns on every dictionary, and what it returns, as a function of the values of
the names, is the log density of the joint distribution of the values of `joint_sample(f)(key, *args)`.

Missing: named deterministic values (for which it is false, C79), and random variables inside the function of another. -/
theorem joint_sample_density_partial (P : Measure Ω) [IsProbabilityMeasure P] (S : Source)
    (samp : Draw → List F → (Key → Ω) → ℝ) (keyOf : ℕ → Key) (args : List ℝ) (h : S.WF) (hT : S.NoTags)
    (hn : S.names.Nodup) (hd : Determined S.args S.body) (hl : S.Local) (hk : S.KeysApart keyOf)
    (htot : ∀ st ∈ S.body, st.Total) (hs : ∀ st ∈ S.body, st.Sampled (oracle P) samp)
    (ha : args.length = S.args.length) :
    ∃ lp : (Fin (draws S.body).length → ℝ) → F,
      (∀ y res, JointLogProb S (named S y) (args.map some) res ↔ res = .ok (lp y)) ∧
      (oracle P).map (sampled S samp keyOf args)
        = (Measure.pi fun _ => (volume : Measure ℝ)).withDensity fun y => dens (lp y) := by
  obtain ⟨lp, h1, -, h2⟩ := joint_density_fun P S samp keyOf args h hT hn hd hl hk htot hs ha
  exact ⟨lp, h1, h2⟩

end Verif.LogProb.Joint
