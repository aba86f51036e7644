import Verif.Autoconj.Einsum
import Mathlib.Tactic.Ring

/-
Lemmas about the meaning of einsums.
-/

namespace Verif.Autoconj

variable {R : Type} [CommSemiring R]

/-! ### Sizes of names -/

theorem lookup_zip_map (d : Letter → ℕ) (l : Letter) : ∀ xs : List Letter, l ∈ xs →
    (xs.zip (xs.map d)).lookup l = some (d l)
  | [], h => by simp at h
  | x :: xs, h => by
    simp only [List.map_cons, List.zip_cons_cons, List.lookup_cons]
    by_cases hx : l = x
    · subst hx; simp
    · have : l ∈ xs := by simpa [hx] using h
      rw [beq_eq_false_iff_ne.2 hx]
      exact lookup_zip_map d l xs this

theorem dimOf_fits {ins : List (List Letter)} {d : Letter → ℕ} {l : Letter} (h : l ∈ ins.flatten) :
    dimOf ins (ins.map (·.map d)) l = d l := by
  unfold dimOf
  have : (ins.map (·.map d)).flatten = ins.flatten.map d := by simp [List.map_flatten]
  rw [this, lookup_zip_map d l _ h]; rfl

theorem term_congr {ins : List (List Letter)} {σ σ' : Letter → ℕ} (h : ∀ l ∈ ins.flatten, σ l = σ' l)
    (args : List (Arr R)) : term ins args σ = term ins args σ' := by
  unfold term
  congr 1
  induction ins generalizing args with
  | nil => simp
  | cons s ins ih =>
    rcases args with _ | ⟨a, args⟩
    · simp
    · simp only [List.zipWith_cons_cons, List.cons.injEq]
      constructor
      · congr 1
        apply List.map_congr_left
        intro l hl
        exact h l (by simp [hl])
      · apply ih
        intro l hl
        exact h l (by simp only [List.flatten_cons, List.mem_append]; exact Or.inr hl)

theorem term_map (ρ : Letter → Letter) (τ : Letter → ℕ) (ins : List (List Letter)) (args : List (Arr R)) :
    term (ins.map (·.map ρ)) args τ = term ins args (τ ∘ ρ) := by
  unfold term
  congr 1
  rw [List.zipWith_map_left]
  simp

theorem term_append {i i' : List (List Letter)} {a a' : List (Arr R)} (h : i.length = a.length)
    (σ : Letter → ℕ) : term (i ++ i') (a ++ a') σ = term i a σ * term i' a' σ := by
  unfold term
  rw [List.zipWith_append h, List.prod_append]

theorem term_cons (s : List Letter) (i : List (List Letter)) (x : Arr R) (a : List (Arr R))
    (σ : Letter → ℕ) : term (s :: i) (x :: a) σ = x.val (s.map σ) * term i a σ := by
  unfold term; simp

/-- Which assignments an einsum sums over. -/
structure InSum (f : Formula) (d : Letter → ℕ) (o : List ℕ) (σ : Letter → ℕ) : Prop where
  out : ∀ l ∈ f.out, σ l = pin f.out o l
  lt : ∀ l ∉ f.out, l ∈ f.ins.flatten → σ l < d l
  zero : ∀ l ∉ f.out, l ∉ f.ins.flatten → σ l = 0

theorem mem_choices {f : Formula} {d : Letter → ℕ} {o : List ℕ} {σ : Letter → ℕ} :
    σ ∈ Fintype.piFinset (choices f d o) ↔ InSum f d o σ := by
  rw [Fintype.mem_piFinset]
  constructor
  · intro h
    refine ⟨fun l hl => ?_, fun l hl hi => ?_, fun l hl hi => ?_⟩
    · have := h l; rw [choices, if_pos hl] at this; simpa using this
    · have := h l; rw [choices, if_neg hl, if_pos hi] at this; simpa using this
    · have := h l; rw [choices, if_neg hl, if_neg hi] at this; simpa using this
  · intro h l
    rw [choices]
    split
    · simpa using h.out l (by assumption)
    · split
      · simpa using h.lt l (by assumption) (by assumption)
      · simpa using h.zero l (by assumption) (by assumption)

theorem einsumVal_congr {f : Formula} {d d' : Letter → ℕ} (h : ∀ l ∈ f.ins.flatten, d l = d' l)
    (args : List (Arr R)) (o : List ℕ) : einsumVal f d args o = einsumVal f d' args o := by
  unfold einsumVal
  congr 2
  funext l
  unfold choices
  split
  · rfl
  · split
    · rw [h l (by assumption)]
    · rfl

/-- An einsum whose operands fit the sizes `d` of its names. -/
theorem einsum_fits {f : Formula} {args : List (Arr R)} (d : Letter → ℕ)
    (h : args.map Arr.shape = f.ins.map (·.map d)) (hn : f.out.Nodup)
    (hs : ∀ l ∈ f.out, l ∈ f.ins.flatten) :
    einsum f args = some (mkArr (f.out.map d) (einsumVal f d args)) := by
  have hd : ∀ l ∈ f.ins.flatten, dimOf f.ins (args.map Arr.shape) l = d l := by
    intro l hl; rw [h]; exact dimOf_fits hl
  have hm : f.out.map (dimOf f.ins (args.map Arr.shape)) = f.out.map d :=
    List.map_congr_left fun l hl => hd l (hs l hl)
  have hv : einsumVal f (dimOf f.ins (args.map Arr.shape)) args = einsumVal f d args := by
    funext o; exact einsumVal_congr hd args o
  have hc : args.map Arr.shape = f.ins.map (·.map (dimOf f.ins (args.map Arr.shape))) := by
    conv_lhs => rw [h]
    apply List.map_congr_left
    intro s hs
    apply List.map_congr_left
    intro l hl
    exact (hd l (List.mem_flatten.2 ⟨s, hs, hl⟩)).symm
  unfold einsum einsumShape
  rw [if_pos ⟨hc, hn, hs⟩, Option.map_some, hm, hv]

/-- What it takes for an einsum to have a value. -/
theorem einsum_some {f : Formula} {args : List (Arr R)} {v : Arr R} (h : einsum f args = some v) :
    ∃ d : Letter → ℕ, args.map Arr.shape = f.ins.map (·.map d) ∧ f.out.Nodup ∧
      (∀ l ∈ f.out, l ∈ f.ins.flatten) ∧ v = mkArr (f.out.map d) (einsumVal f d args) := by
  unfold einsum einsumShape at h
  split at h
  · rename_i hc
    refine ⟨_, hc.1, hc.2.1, hc.2.2, ?_⟩
    simpa using h.symm
  · simp at h

theorem mkArr_congr {s s' : List ℕ} {f f' : List ℕ → R} (hs : s = s')
    (h : ∀ o, InBox o s → f o = f' o) : mkArr s f = mkArr s' f' := by
  subst hs
  unfold mkArr
  congr 1
  funext o
  split
  · exact h o (by assumption)
  · rfl

/-! ### Pinned names -/

theorem pin_map {ρ : Letter → Letter} (l : Letter) : ∀ (out : List Letter) (o : List ℕ),
    (∀ x ∈ out, ρ x = ρ l → x = l) → pin (out.map ρ) o (ρ l) = pin out o l
  | [], _, _ => by simp [pin]
  | _ :: _, [], _ => by simp [pin]
  | x :: xs, y :: ys, h => by
    have ih := pin_map (ρ := ρ) l xs ys (fun x hx => h x (by simp [hx]))
    unfold pin at ih ⊢
    simp only [List.map_cons, List.zip_cons_cons, List.lookup_cons]
    by_cases hx : l = x
    · subst hx; simp
    · have : ρ l ≠ ρ x := fun e => hx (h x (by simp) e.symm).symm
      rw [beq_eq_false_iff_ne.2 hx, beq_eq_false_iff_ne.2 this]
      exact ih

theorem pin_lt {d : Letter → ℕ} {l : Letter} : ∀ (out : List Letter) (o : List ℕ),
    InBox o (out.map d) → l ∈ out → pin out o l < d l
  | [], _, _, h => by simp at h
  | x :: xs, o, hb, h => by
    rcases o with _ | ⟨y, ys⟩
    · simp [InBox] at hb
    · simp only [InBox, List.map_cons, List.forall₂_cons] at hb
      unfold pin
      simp only [List.zip_cons_cons, List.lookup_cons]
      by_cases hx : l = x
      · subst hx; simpa using hb.1
      · rw [beq_eq_false_iff_ne.2 hx]
        exact pin_lt xs ys hb.2 (by simpa [hx] using h)

theorem inBox_map {d σ : Letter → ℕ} : ∀ s : List Letter, (∀ l ∈ s, σ l < d l) → InBox (s.map σ) (s.map d)
  | [], _ => by simp [InBox]
  | x :: xs, h => by
    have := inBox_map (d := d) (σ := σ) xs (fun l hl => h l (by simp [hl]))
    simp only [InBox, List.map_cons, List.forall₂_cons]
    exact ⟨h x (by simp), this⟩

theorem pin_child {ρc ρp : Letter → Letter} {l : Letter} : ∀ (cout old : List Letter),
    cout.map ρc = old.map ρp → l ∈ cout →
    ∃ q ∈ old, ρc l = ρp q ∧ ∀ σ : Letter → ℕ, pin cout (old.map σ) l = σ q
  | [], _, _, h => by simp at h
  | x :: xs, old, he, h => by
    rcases old with _ | ⟨y, ys⟩
    · simp at he
    · simp only [List.map_cons, List.cons.injEq] at he
      by_cases hx : l = x
      · subst hx
        exact ⟨y, by simp, he.1, fun σ => by simp [pin]⟩
      · obtain ⟨q, hq, h1, h2⟩ := pin_child xs ys he.2 (by simpa [hx] using h)
        refine ⟨q, by simp [hq], h1, fun σ => ?_⟩
        rw [← h2 σ]
        unfold pin
        simp only [List.map_cons, List.zip_cons_cons, List.lookup_cons]
        rw [beq_eq_false_iff_ne.2 hx]

theorem old_child {ρc ρp : Letter → Letter} {cout old : List Letter} (h : cout.map ρc = old.map ρp)
    {q : Letter} (hq : q ∈ old) : ∃ c ∈ cout, ρc c = ρp q := by
  have : ρp q ∈ cout.map ρc := by rw [h]; exact List.mem_map_of_mem hq
  simpa using this

/-! ### Composition -/

/-- How the index names of the parent and of the child are renamed. -/
structure Renaming (P C cout old : List Letter) (ρp ρc : Letter → Letter) : Prop where
  injp : ∀ a ∈ P, ∀ b ∈ P, ρp a = ρp b → a = b
  injc : ∀ a ∈ C, a ∉ cout → ∀ b ∈ C, ρc a = ρc b → a = b
  fresh : ∀ a ∈ C, a ∉ cout → ∀ b ∈ P, ρc a ≠ ρp b
  link : cout.map ρc = old.map ρp

open Classical in
/-- The combined assignment. -/
noncomputable def glue (P C : List Letter) (ρp ρc : Letter → Letter) (σ κ : Letter → ℕ) : Letter → ℕ :=
  fun m =>
    if h : ∃ l ∈ P, ρp l = m then σ h.choose
    else if h : ∃ l ∈ C, ρc l = m then κ h.choose else 0

theorem glue_par {P C cout old : List Letter} {ρp ρc : Letter → Letter}
    (hr : Renaming P C cout old ρp ρc) {σ κ : Letter → ℕ} {l : Letter} (hl : l ∈ P) :
    glue P C ρp ρc σ κ (ρp l) = σ l := by
  unfold glue
  have h : ∃ x ∈ P, ρp x = ρp l := ⟨l, hl, rfl⟩
  rw [dif_pos h]
  rw [hr.injp _ h.choose_spec.1 _ hl h.choose_spec.2]

theorem glue_child {P C cout old : List Letter} {ρp ρc : Letter → Letter}
    (hr : Renaming P C cout old ρp ρc) (hop : ∀ q ∈ old, q ∈ P) {σ κ : Letter → ℕ}
    (hk : ∀ c ∈ cout, κ c = pin cout (old.map σ) c) {l : Letter} (hl : l ∈ C) :
    glue P C ρp ρc σ κ (ρc l) = κ l := by
  by_cases hc : l ∈ cout
  · obtain ⟨q, hq, h1, h2⟩ := pin_child cout old hr.link hc
    rw [h1, glue_par hr (hop q hq), hk l hc, h2]
  · unfold glue
    have hn : ¬ ∃ x ∈ P, ρp x = ρc l := fun ⟨x, hx, e⟩ => hr.fresh l hl hc x hx e.symm
    have h : ∃ x ∈ C, ρc x = ρc l := ⟨l, hl, rfl⟩
    rw [dif_neg hn, dif_pos h]
    rw [← hr.injc l hl hc _ h.choose_spec.1 h.choose_spec.2.symm]

theorem compose_val {left right cins : List (List Letter)} {old out cout : List Letter}
    {ρp ρc : Letter → Letter} {dp dc dn : Letter → ℕ} {la ca ra : List (Arr R)}
    (hr : Renaming (left ++ old :: right).flatten cins.flatten cout old ρp ρc)
    (hout : ∀ l ∈ out, l ∈ (left ++ old :: right).flatten)
    (hcout : ∀ l ∈ cout, l ∈ cins.flatten)
    (hla : left.length = la.length) (hca : cins.length = ca.length)
    (hsh : cout.map dc = old.map dp)
    (hdp : ∀ l ∈ (left ++ old :: right).flatten, dn (ρp l) = dp l)
    (hdc : ∀ l ∈ cins.flatten, dn (ρc l) = dc l)
    (o : List ℕ) (ho : InBox o (out.map dp)) :
    einsumVal ⟨left ++ old :: right, out⟩ dp
        (la ++ mkArr (cout.map dc) (einsumVal ⟨cins, cout⟩ dc ca) :: ra) o =
      einsumVal ⟨left.map (·.map ρp) ++ cins.map (·.map ρc) ++ right.map (·.map ρp), out.map ρp⟩ dn
        (la ++ ca ++ ra) o := by
  -- Names
  set P := (left ++ old :: right).flatten with hP
  set C := cins.flatten with hC
  have memP : ∀ l, l ∈ P ↔ l ∈ left.flatten ∨ l ∈ old ∨ l ∈ right.flatten := by
    intro l; rw [hP]; simp [List.flatten_append]
  have hop : ∀ q ∈ old, q ∈ P := fun q hq => (memP q).2 (Or.inr (Or.inl hq))
  have memN : ∀ m, m ∈ (left.map (·.map ρp) ++ cins.map (·.map ρc) ++ right.map (·.map ρp)).flatten ↔
      (∃ l ∈ P, ρp l = m) ∨ ∃ l ∈ C, ρc l = m := by
    intro m
    have e : ∀ (x : List (List Letter)) (ρ : Letter → Letter),
        (x.map (·.map ρ)).flatten = x.flatten.map ρ := by intro x ρ; simp [List.map_flatten]
    simp only [List.flatten_append, e, List.mem_append, List.mem_map, hC]
    constructor
    · rintro ((⟨l, hl, h⟩ | ⟨l, hl, h⟩) | ⟨l, hl, h⟩)
      · exact Or.inl ⟨l, (memP l).2 (Or.inl hl), h⟩
      · exact Or.inr ⟨l, hl, h⟩
      · exact Or.inl ⟨l, (memP l).2 (Or.inr (Or.inr hl)), h⟩
    · rintro (⟨l, hl, h⟩ | ⟨l, hl, h⟩)
      · rcases (memP l).1 hl with hl | hl | hl
        · exact Or.inl (Or.inl ⟨l, hl, h⟩)
        · obtain ⟨c, hc, e⟩ := old_child hr.link hl
          exact Or.inl (Or.inr ⟨c, hcout c hc, e.trans h⟩)
        · exact Or.inr ⟨l, hl, h⟩
      · exact Or.inl (Or.inr ⟨l, hl, h⟩)
  have memO : ∀ l ∈ P, ρp l ∈ out.map ρp → l ∈ out := by
    intro l hl h
    obtain ⟨x, hx, e⟩ := List.mem_map.1 h
    rw [← hr.injp x (hout x hx) l hl e]; exact hx
  have pinO : ∀ l ∈ out, pin (out.map ρp) o (ρp l) = pin out o l := by
    intro l hl
    exact pin_map l out o (fun x hx e => hr.injp x (hout x hx) l (hout l hl) e)
  unfold einsumVal
  have step : ∀ σ ∈ Fintype.piFinset (choices ⟨left ++ old :: right, out⟩ dp o),
      term (left ++ old :: right) (la ++ mkArr (cout.map dc) (fun o => ∑ κ ∈ Fintype.piFinset
          (choices ⟨cins, cout⟩ dc o), term cins ca κ) :: ra) σ =
        ∑ κ ∈ Fintype.piFinset (choices ⟨cins, cout⟩ dc (old.map σ)),
          term left la σ * term cins ca κ * term right ra σ := by
    intro σ hσ
    rw [mem_choices] at hσ
    have hb : InBox (old.map σ) (cout.map dc) := by
      rw [hsh]
      apply inBox_map
      intro l hl
      by_cases hlo : l ∈ out
      · rw [hσ.out l hlo]; exact pin_lt out o ho hlo
      · exact hσ.lt l hlo (hop l hl)
    rw [term_append hla, term_cons]
    simp only [mkArr]
    rw [if_pos hb, Finset.sum_mul, Finset.mul_sum]
    apply Finset.sum_congr rfl
    intro κ _
    ring
  rw [Finset.sum_congr rfl step, Finset.sum_sigma']
  refine Finset.sum_bij' (fun p _ => glue P C ρp ρc p.1 p.2)
    (fun τ _ => ⟨fun l => if l ∈ P then τ (ρp l) else 0, fun l => if l ∈ C then τ (ρc l) else 0⟩)
    ?_ ?_ ?_ ?_ ?_
  · rintro ⟨σ, κ⟩ hp
    rw [Finset.mem_sigma, mem_choices, mem_choices] at hp
    obtain ⟨hσ, hκ⟩ := hp
    change InSum _ _ _ σ at hσ
    change InSum _ _ _ κ at hκ
    have gp : ∀ l ∈ P, glue P C ρp ρc σ κ (ρp l) = σ l := fun l hl => glue_par hr hl
    have gc : ∀ l ∈ C, glue P C ρp ρc σ κ (ρc l) = κ l := fun l hl => glue_child hr hop hκ.out hl
    rw [mem_choices]
    constructor
    · intro m hm
      obtain ⟨l, hl, rfl⟩ := List.mem_map.1 hm
      show glue P C ρp ρc σ κ (ρp l) = _
      rw [gp l (hout l hl), hσ.out l hl]
      exact (pinO l hl).symm
    · intro m hm hi
      show glue P C ρp ρc σ κ m < dn m
      have par : ∀ l ∈ P, ρp l = m → glue P C ρp ρc σ κ m < dn m := by
        rintro l hl rfl
        rw [gp l hl, hdp l hl]
        exact hσ.lt l (fun h => hm (List.mem_map_of_mem h)) hl
      rcases (memN m).1 hi with ⟨l, hl, e⟩ | ⟨l, hl, e⟩
      · exact par l hl e
      · by_cases hc : l ∈ cout
        · obtain ⟨q, hq, h1, _⟩ := pin_child cout old hr.link hc
          exact par q (hop q hq) (h1.symm.trans e)
        · subst e
          rw [gc l hl, hdc l hl]
          exact hκ.lt l hc hl
    · intro m _ hi
      have hn := fun h => hi ((memN m).2 h)
      show glue P C ρp ρc σ κ m = 0
      unfold glue
      rw [dif_neg (fun h => hn (Or.inl h)), dif_neg (fun h => hn (Or.inr h))]
  · intro τ hτ
    rw [mem_choices] at hτ
    rw [Finset.mem_sigma, mem_choices, mem_choices]
    constructor
    · constructor
      · intro l hl
        show (if l ∈ P then τ (ρp l) else 0) = pin out o l
        rw [if_pos (hout l hl), ← pinO l hl]
        exact hτ.out _ (List.mem_map_of_mem hl)
      · intro l hl hi
        show (if l ∈ P then τ (ρp l) else 0) < _
        rw [if_pos hi, ← hdp l hi]
        exact hτ.lt _ (fun h => hl (memO l hi h)) ((memN _).2 (Or.inl ⟨l, hi, rfl⟩))
      · intro l _ hi
        show (if l ∈ P then τ (ρp l) else 0) = 0
        exact if_neg hi
    · constructor
      · intro l hl
        show (if l ∈ C then τ (ρc l) else 0) = pin cout (old.map fun l => if l ∈ P then τ (ρp l) else 0) l
        obtain ⟨q, hq, h1, h2⟩ := pin_child cout old hr.link hl
        rw [if_pos (hcout l hl), h2, if_pos (hop q hq), h1]
      · intro l hl hi
        show (if l ∈ C then τ (ρc l) else 0) < _
        rw [if_pos hi, ← hdc l hi]
        refine hτ.lt _ (fun h => ?_) ((memN _).2 (Or.inr ⟨l, hi, rfl⟩))
        obtain ⟨x, hx, e⟩ := List.mem_map.1 h
        exact hr.fresh l hi hl x (hout x hx) e.symm
      · intro l _ hi
        show (if l ∈ C then τ (ρc l) else 0) = 0
        exact if_neg hi
  · rintro ⟨σ, κ⟩ hp
    rw [Finset.mem_sigma, mem_choices, mem_choices] at hp
    obtain ⟨hσ, hκ⟩ := hp
    change InSum _ _ _ σ at hσ
    change InSum _ _ _ κ at hκ
    congr 1
    · funext l
      split
      · exact glue_par hr (by assumption)
      · rename_i h
        exact (hσ.zero l (fun ho => h (hout l ho)) h).symm
    · funext l
      split
      · exact glue_child hr hop hκ.out (by assumption)
      · rename_i h
        exact (hκ.zero l (fun ho => h (hcout l ho)) h).symm
  · intro τ hτ
    rw [mem_choices] at hτ
    funext m
    show glue P C ρp ρc _ _ m = τ m
    unfold glue
    dsimp only
    split
    · rename_i h
      rw [if_pos h.choose_spec.1, h.choose_spec.2]
    · rename_i hn
      split
      · rename_i h
        rw [if_pos h.choose_spec.1, h.choose_spec.2]
      · rename_i hn'
        refine (hτ.zero m (fun h => ?_) (fun h => ?_)).symm
        · obtain ⟨x, hx, e⟩ := List.mem_map.1 h
          exact hn ⟨x, hout x hx, e⟩
        · rcases (memN m).1 h with h | h
          · exact hn h
          · exact hn' h
  · rintro ⟨σ, κ⟩ hp
    rw [Finset.mem_sigma, mem_choices, mem_choices] at hp
    obtain ⟨hσ, hκ⟩ := hp
    change InSum _ _ _ σ at hσ
    change InSum _ _ _ κ at hκ
    show term left la σ * term cins ca κ * term right ra σ = term _ _ (glue P C ρp ρc σ κ)
    rw [term_append (by simp [hla, hca]), term_append (by simp [hla]), term_map, term_map, term_map]
    congr 1
    · congr 1
      · apply term_congr
        intro l hl
        exact (glue_par hr ((memP l).2 (Or.inl hl))).symm
      · apply term_congr
        intro l hl
        exact (glue_child hr hop hκ.out hl).symm
    · apply term_congr
      intro l hl
      exact (glue_par hr ((memP l).2 (Or.inr (Or.inr hl)))).symm

end Verif.Autoconj
