/- The reaped dictionary agrees with the values collected from the log. -/
import Verif.Harvest.LemmasMeta

namespace Verif.Harvest

/-- Relating two computations that may fail: same error, or related results. -/
def ExRel {α β : Type} (R : α → β → Prop) : Except RErr α → Except RErr β → Prop
  | .ok a, .ok b => R a b
  | .error e, .error e' => e = e'
  | _, _ => False

theorem ExRel.bind {α β γ δ : Type} {R : α → β → Prop} {Q : γ → δ → Prop} {x : Except RErr α}
    {y : Except RErr β} {f : α → Except RErr γ} {g : β → Except RErr δ} (h : ExRel R x y)
    (hf : ∀ a b, R a b → ExRel Q (f a) (g b)) : ExRel Q (x >>= f) (y >>= g) := by
  rcases x with e | a <;> rcases y with e' | b <;> simp only [ExRel] at h
  · simpa [ExRel] using h
  · exact hf a b h

theorem ExRel.map {α β γ δ : Type} {R : α → β → Prop} {Q : γ → δ → Prop} {x : Except RErr α}
    {y : Except RErr β} {f : α → γ} {g : β → δ} (h : ExRel R x y)
    (hf : ∀ a b, x = .ok a → y = .ok b → R a b → Q (f a) (g b)) : ExRel Q (x.map f) (y.map g) := by
  rcases x with e | a <;> rcases y with e' | b <;> simp only [ExRel] at h
  · simpa [ExRel] using h
  · exact hf a b rfl rfl h

theorem ExRel.mono {α β : Type} {R Q : α → β → Prop} {x : Except RErr α} {y : Except RErr β}
    (h : ExRel R x y) (hf : ∀ a b, x = .ok a → y = .ok b → R a b → Q a b) : ExRel Q x y := by
  rcases x with e | a <;> rcases y with e' | b <;> simp only [ExRel] at h
  · simpa [ExRel] using h
  · exact hf a b rfl rfl h

/-- The value that counts in a reap: nothing when the predicate is false. -/
def live {V : Type} (r : Reap V) : Option (Val V) :=
  match r.pred with
  | some false => none
  | _ => some r.value

theorem select_eq_live {V : Type} (r : Reap V) : selectFromPred r = (live r).getD .zeros := by
  obtain ⟨v, p, m⟩ := r
  rcases p with _ | _ | _ <;> rfl

/-- The dictionary has exactly the names and modes of the metadata, with predicates for 'cond_clobber'. -/
def Matches {V : Type} (m : Meta) (d : Reaps V) : Prop :=
  ∀ n, (d n).map (·.mode) = m.get n ∧ ∀ r, d n = some r → (r.pred.isSome ↔ r.mode = .condClobber)

theorem Matches.nil {V : Type} : Matches [] (fun _ => none : Reaps V) := by
  intro n; simp

/-- Static compatibility of metadata with the classification `c`. -/
def Fits (c : String → Bool) (m : Meta) : Prop :=
  ∀ n mode, m.get n = some mode → (mode = .condClobber ↔ c n = true)

theorem Regular.declares {V A B : Type} {S : Settings} {c : String → Bool} {p : Prog V A B}
    (h : Regular S c p) : ∀ n mode, declares S n (sites p) = some mode →
      (mode = .condClobber ↔ c n = true) := by
  induction p with
  | pure f => intro n mode hd; simp [sites, Harvest.declares] at hd
  | seq p q ihp ihq =>
    intro n mode hd
    rw [sites, declares_append] at hd
    cases hq : Harvest.declares S n (sites q) with
    | none => rw [hq] at hd; exact ihp h.1 n mode (by simpa using hd)
    | some x => rw [hq] at hd; exact ihq h.2 n mode (by rw [hq]; simpa using hd)
  | sow tag name mode pre pred post =>
    intro n mode' hd
    simp only [sites, Harvest.declares, Site.declares, Option.none_or] at hd
    split at hd
    · rename_i hh
      simp only [Option.some.injEq] at hd
      subst hd
      obtain ⟨rfl, ha⟩ := hh
      exact h ha
    · simp at hd
  | nest scope pre body post ih =>
    intro n mode hd
    simp only [sites, Harvest.declares, Site.declares, Option.none_or] at hd
    split at hd
    · rename_i hh
      simp only [Option.some.injEq] at hd
      subst hd
      obtain ⟨rfl, ha⟩ := hh
      simp [h.2]
    · simp at hd
  | inline pre body post ih => exact ih h
  | call _ pre body post ih => exact ih h
  | cond n sel pre br post ih => exact ih 0 (h 0)
  | scan rev pre body post ih => exact ih h.1
  | whileL pre test body post iht ihb => exact ihb h.1

theorem Fits.metaOf {V A B : Type} {S : Settings} {c : String → Bool} {p : Prog V A B}
    (h : Regular S c p) {m0 m1 : Meta} (hm : metaOf S p m0 = .ok m1) (hf : Fits c m0) : Fits c m1 := by
  intro n mode hn
  rw [(metaOf_get S p hm).1 n] at hn
  cases hd : Harvest.declares S n (sites p) with
  | none => rw [hd] at hn; exact hf n mode (by simpa using hn)
  | some x =>
    rw [hd] at hn
    simp only [Option.some_or, Option.some.injEq] at hn
    subst hn
    exact h.declares n x hd

theorem Fits.nil (c : String → Bool) : Fits c [] := by intro n mode h; simp at h

theorem collect_append {V : Type} (S : Settings) (n : String) (l r : Log V) :
    collect S n (l ++ r) = (collect S n r).or (collect S n l) := by
  induction l with
  | nil => simp [collect]
  | cons e es ih => simp [collect, ih, Option.or_assoc]

theorem collectIters_eq_map {V : Type} (S : Settings) (n : String) (ls : List (Log V)) :
    collectIters S n ls = ls.map (collect S n) := by
  induction ls with
  | nil => simp [collectIters]
  | cons e es ih => simp [collectIters, ih]

/-- What one sow does to the live value. -/
theorem live_newReap {V : Type} (prev : Option (Reap V)) (mode : Mode) (v : Val V) (pred : Bool)
    (hprev : ∀ r, prev = some r → (r.pred.isSome ↔ r.mode = .condClobber))
    (hm : ∀ r, prev = some r → (r.mode = .condClobber ↔ mode = .condClobber)) :
    live (newReap prev mode v pred) =
      if mode = .condClobber then
        (if pred then some v else none).or (prev.bind live)
      else some v := by
  unfold newReap
  by_cases h : mode = .condClobber
  · simp only [h, if_true]
    cases prev with
    | none => cases pred <;> simp [live]
    | some r =>
      have h1 := hprev r rfl
      have h2 := (hm r rfl).2 h
      have h3 : r.mode ≠ .clobber := by rw [h2]; simp
      obtain ⟨rv, rp, rm⟩ := r
      simp only at h1 h2 h3
      subst h2
      simp only [iff_true] at h1
      obtain ⟨b, rfl⟩ := Option.isSome_iff_exists.1 h1
      cases pred <;> cases b <;> simp [live]
  · simp [h, live]

theorem newReap_mode {V : Type} (prev : Option (Reap V)) (mode : Mode) (v : Val V) (pred : Bool) :
    (newReap prev mode v pred).mode = mode := by
  unfold newReap
  split
  · split
    · split
      · rfl
      · split <;> rfl
    · rfl
  · rfl

theorem newReap_pred {V : Type} (prev : Option (Reap V)) (mode : Mode) (v : Val V) (pred : Bool) :
    (newReap prev mode v pred).pred.isSome ↔ mode = .condClobber := by
  unfold newReap
  split
  · rename_i h
    simp only [h, iff_true]
    split
    · split
      · rfl
      · split <;> rfl
    · rfl
  · rename_i h; simp [h]

/-- The relation between the dictionary after a program and the log of the program. -/
def Good {V : Type} (S : Settings) (ss : List Site) (m1 : Meta) (d d' : Reaps V) (l : Log V) : Prop :=
  Matches m1 d' ∧ ∀ n,
    (d' n).map live = (if (declares S n ss).isSome then
      some ((collect S n l).or ((d n).bind live)) else (d n).map live) ∧
    (declares S n ss = none → collect S n l = none)

theorem Good.resow {V : Type} {S : Settings} {c : String → Bool} {ss : List Site} {m0 m1 inner mi : Meta}
    {d di : Reaps V} {l : Log V}
    (hm : m0.resow inner = .ok m1) (hi : ∀ n, inner.get n = declares S n ss)
    (hmi : ∀ n, ((mi.get n).isSome ↔ (inner.get n).isSome) ∧
      (mi.get n = some .condClobber ↔ inner.get n = some .condClobber))
    (hf : Fits c m0) (hfi : Fits c inner) (hd : Matches m0 d)
    (hdm : Matches mi di)
    (hg : ∀ n, (di n).map live = (if (declares S n ss).isSome then some (collect S n l) else none) ∧
      (declares S n ss = none → collect S n l = none)) :
    Good S ss m1 d (d.resow inner di) l := by
  obtain ⟨hr1, hr2, -⟩ := Meta.resow_ok hm
  refine ⟨?_, ?_⟩
  · intro n
    rw [hr1]
    unfold Reaps.resow
    cases h1 : inner.get n with
    | none => simpa using hd n
    | some mode =>
      have hs : (di n).isSome := by
        have := (hdm n).1
        have h2 := (hmi n).1
        rw [h1, ← this] at h2
        simpa using h2
      obtain ⟨r, hr⟩ := Option.isSome_iff_exists.1 hs
      rw [hr]
      refine ⟨by simp [newReap_mode], ?_⟩
      intro r' hr'
      simp only [Option.some.injEq] at hr'
      subst hr'
      rw [newReap_mode]
      exact newReap_pred _ _ _ _
  · intro n
    refine ⟨?_, (hg n).2⟩
    unfold Reaps.resow
    cases h1 : inner.get n with
    | none =>
      have : declares S n ss = none := by rw [← hi, h1]
      simp [this]
    | some mode =>
      have hdec : declares S n ss = some mode := by rw [← hi, h1]
      have hs : (di n).isSome := by
        have := (hdm n).1
        have h2 := (hmi n).1
        rw [h1, ← this] at h2
        simpa using h2
      obtain ⟨r, hr⟩ := Option.isSome_iff_exists.1 hs
      have hgn := (hg n).1
      rw [hdec, hr] at hgn
      simp only [Option.map_some, Option.isSome_some, if_true, Option.some.injEq] at hgn
      rw [hr, hdec]
      simp only [Option.map_some, Option.isSome_some, if_true, Option.some.injEq]
      have hcr : r.mode = .condClobber ↔ mode = .condClobber := by
        have := (hdm n).1
        rw [hr] at this
        simp only [Option.map_some] at this
        have h3 := (hmi n).2
        rw [← this, h1] at h3
        simpa using h3
      have hpr := (hdm n).2 r hr
      rw [live_newReap]
      · by_cases hmode : mode = .condClobber
        · rw [if_pos hmode, ← hgn]
          have hp : r.pred.isSome := hpr.2 (hcr.2 hmode)
          obtain ⟨b, hb⟩ := Option.isSome_iff_exists.1 hp
          cases b <;> simp [live, hb]
        · rw [if_neg hmode, ← hgn]
          have hp : r.pred = none := by
            by_contra hne
            exact hmode (hcr.1 (hpr.1 (Option.isSome_iff_ne_none.2 hne)))
          simp [live, hp]
      · exact (hd n).2
      · intro r' hr'
        have h4 := (hd n).1
        rw [hr'] at h4
        simp only [Option.map_some] at h4
        rw [hf n _ h4.symm, hfi n _ h1]

theorem Good.of_meta {V : Type} {S : Settings} {ss : List Site} {m1 : Meta} {d' : Reaps V} {l : Log V}
    (h : Good S ss m1 (fun _ => none) d' l) : ∀ n, (d' n).map live =
      (if (declares S n ss).isSome then some (collect S n l) else none) ∧
      (declares S n ss = none → collect S n l = none) := by
  intro n
  obtain ⟨h1, h2⟩ := h.2 n
  refine ⟨?_, h2⟩
  rw [h1]; simp

/-! ### Loops -/

/-- The carried entry of name `n` is well formed and its live value is `o`. -/
def CarryIs {V : Type} (m : Meta) (c : Reaps V) (n : String) (o : Option (Val V)) : Prop :=
  (∀ mode, m.get n = some mode → mode.isClobber = true →
    ∃ r, c n = some r ∧ r.mode = mode ∧ (r.pred.isSome ↔ r.mode = .condClobber) ∧ live r = o) ∧
  ((∀ mode, m.get n = some mode → mode.isClobber = false) → c n = none)

/-- One iteration: the carried live value is replaced by the collected value of the iteration. -/
theorem CarryIs.step {V : Type} {S : Settings} {ss : List Site} {m : Meta} {c rd : Reaps V} {n : String}
    {o : Option (Val V)} {l : Log V} (μ : String → Option Mode)
    (hi : ∀ n, m.get n = declares S n ss)
    (hμ : ∀ mode, m.get n = some mode → mode.isClobber = true →
      (μ n = some .condClobber ↔ mode = .condClobber))
    (hc : CarryIs m c n o) (hg : Good S ss m (fun _ => none) rd l) :
    CarryIs m (carryStep μ c rd) n ((collect S n l).or o) := by
  refine ⟨?_, fun h => by simp [carryStep, hc.2 h]⟩
  intro mode hmode hcl
  obtain ⟨r, hr, hrm, hrp, hrl⟩ := hc.1 mode hmode hcl
  have hdec : declares S n ss = some mode := by rw [← hi, hmode]
  have hg1 := (Good.of_meta hg n).1
  rw [hdec] at hg1
  simp only [Option.isSome_some, if_true] at hg1
  cases hrd : rd n with
  | none => rw [hrd] at hg1; simp at hg1
  | some q =>
    rw [hrd] at hg1
    simp only [Option.map_some, Option.some.injEq] at hg1
    have hqm := (hg.1 n).1
    rw [hrd, hmode] at hqm
    simp only [Option.map_some, Option.some.injEq] at hqm
    have hqp := (hg.1 n).2 q hrd
    have hμ' := hμ mode hmode hcl
    unfold carryStep
    rw [hr, hrd]
    refine ⟨_, rfl, ?_⟩
    unfold updateCarry
    by_cases hcond : mode = .condClobber
    · rw [if_pos (hμ'.2 hcond)]
      have hp : q.pred.isSome := hqp.2 (by rw [hqm, hcond])
      obtain ⟨b, hb⟩ := Option.isSome_iff_exists.1 hp
      have hl : live q = if b then some q.value else none := by cases b <;> simp [live, hb]
      rw [← hg1, hl]
      cases b with
      | true => simp [hb, hrm, hcond, live]
      | false => simp [hb, hrm, hcond, hrl]; rw [hrp, hrm, hcond]
    · have hμn : ¬ μ n = some .condClobber := fun h => hcond (hμ'.1 h)
      rw [if_neg hμn]
      have hp : q.pred = none := by
        by_contra hne
        exact hcond (by rw [← hqm]; exact hqp.1 (Option.isSome_iff_ne_none.2 hne))
      have hp' : r.pred = none := by
        by_contra hne
        exact hcond (by rw [← hrm]; exact hrp.1 (Option.isSome_iff_ne_none.2 hne))
      rw [← hg1]
      simp [hrm, hp', hcond, live, hp]

theorem CarryIs.init {V : Type} (m : Meta) (n : String) :
    CarryIs m (carryInit m : Reaps V) n (if m.get n = some .clobber then some .zeros else none) := by
  refine ⟨?_, ?_⟩
  swap
  · intro h
    unfold carryInit
    cases hn : m.get n with
    | none => rfl
    | some mode =>
      have := h mode hn
      cases mode <;> simp [Mode.isClobber] at this <;> rfl
  intro mode hmode hcl
  unfold carryInit
  cases mode <;> simp [Mode.isClobber] at hcl
  · refine ⟨_, by rw [hmode], ?_⟩
    simp [hmode, live]
  · refine ⟨_, by rw [hmode], ?_⟩
    simp [hmode, live]

theorem lastSome_append {α : Type} (l r : List (Option α)) :
    lastSome (l ++ r) = (lastSome r).or (lastSome l) := by
  induction l with
  | nil => simp [lastSome]
  | cons o os ih => simp [lastSome, ih, Option.or_assoc]

/-- Related results of one scan iteration. -/
def IterRel {V : Type} (S : Settings) (ss : List Site) (m : Meta) {Y : Type}
    (y : Y × Reaps V) (z : Y × Log V) : Prop :=
  y.1 = z.1 ∧ Good S ss m (fun _ => none) y.2 z.2

theorem scanM_rel {V K X Y : Type} {S : Settings} {ss : List Site} {m : Meta}
    (μ : String → Option Mode)
    (hi : ∀ n, m.get n = declares S n ss)
    (hμ : ∀ n mode, m.get n = some mode → mode.isClobber = true →
      (μ n = some .condClobber ↔ mode = .condClobber))
    (f : (K × Reaps V) × X → Except RErr ((K × Reaps V) × (Y × Reaps V)))
    (g : K × X → Except RErr (K × (Y × Log V)))
    (h : ∀ k c x, ExRel (fun r s => r.1.1 = s.1 ∧ IterRel S ss m r.2 s.2 ∧
      r.1.2 = carryStep μ c r.2.2) (f ((k, c), x)) (g (k, x)))
    (xs : List X) : ∀ (k : K) (c : Reaps V) (o : String → Option (Val V)),
      (∀ n, CarryIs m c n (o n)) →
      ExRel (fun r s => r.1.1 = s.1 ∧ List.Forall₂ (IterRel S ss m) r.2 s.2 ∧
        ∀ n, CarryIs m r.1.2 n ((lastSome (s.2.map (fun z => collect S n z.2))).or (o n)))
        (scanM f (k, c) xs) (scanM g k xs) := by
  induction xs with
  | nil => intro k c o hc; simpa [scanM, ExRel, lastSome] using hc
  | cons x xs ih =>
    intro k c o hc
    simp only [scanM]
    refine ExRel.bind (h k c x) ?_
    rintro ⟨⟨k1, c1⟩, y⟩ ⟨k2, z⟩ ⟨h1, h2, h3⟩
    simp only at h1 h2 h3
    subst h1
    have hc' : ∀ n, CarryIs m c1 n ((collect S n z.2).or (o n)) := by
      intro n; rw [h3]; exact CarryIs.step μ hi (hμ n) (hc n) h2.2
    have := ih k1 c1 _ hc'
    refine ExRel.bind this ?_
    rintro ⟨⟨k3, c3⟩, ys⟩ ⟨k4, zs⟩ ⟨h4, h5, h6⟩
    simp only [except_pure, ExRel]
    refine ⟨h4, .cons h2 h5, ?_⟩
    intro n
    have := h6 n
    simpa [lastSome, Option.or_assoc] using this

theorem loop_rel {V K : Type} {S : Settings} {ss : List Site} {m : Meta}
    (hi : ∀ n, m.get n = declares S n ss)
    (c' : K × Reaps V → Except RErr Bool) (b' : K × Reaps V → Except RErr (K × Reaps V))
    (c : K → Except RErr (Bool × Log V)) (b : K → Except RErr (K × Log V))
    (hc : ∀ k r, c' (k, r) = (c k).map (·.1))
    (hq : ∀ k r n, c k = .ok r → collect S n r.2 = none)
    (hb : ∀ k r, ExRel (fun x y => x.1 = y.1 ∧ ∃ rd, Good S ss m (fun _ => none) rd y.2 ∧
      x.2 = carryStep m.get r rd) (b' (k, r)) (b k)) (fuel : Nat) :
    ∀ (k : K) (r : Reaps V) (o : String → Option (Val V)), (∀ n, CarryIs m r n (o n)) →
      ExRel (fun x y => x.1 = y.1 ∧ (∀ n, collect S n y.2.2 = none) ∧
        (∀ n, declares S n ss = none → ∀ l ∈ y.2.1, collect S n l = none) ∧
        ∀ n, CarryIs m x.2 n ((lastSome (y.2.1.map (collect S n))).or (o n)))
        (loopM c' b' fuel (k, r)) (loopT c b fuel k) := by
  induction fuel with
  | zero => intro k r o h; simp [loopM, loopT, ExRel]
  | succ n ih =>
    intro k r o h
    simp only [loopM, loopT, hc]
    rcases hck : c k with e | ⟨t, lt⟩
    · simp [ExRel]
    · have hlt : ∀ n, collect S n lt = none := fun n => hq k _ n hck
      simp only [except_map_ok, except_bind_ok]
      cases t with
      | false => simpa [ExRel, lastSome, hlt] using h
      | true =>
        simp only [if_true]
        refine ExRel.bind (hb k r) ?_
        rintro ⟨k1, r1⟩ ⟨k2, l⟩ ⟨h1, rd, h2, h3⟩
        simp only at h1 h2 h3
        subst h1
        have hc' : ∀ n, CarryIs m r1 n ((collect S n l).or (o n)) := by
          intro n; rw [h3]
          exact CarryIs.step m.get hi (fun mode hm _ => by rw [hm]; simp) (h n) h2
        have := ih k1 r1 _ hc'
        simp only [except_bind_ok, except_pure]
        generalize loopM c' b' n (k1, r1) = u at this ⊢
        generalize loopT c b n k1 = w at this ⊢
        rcases u with e | ⟨k3, r3⟩ <;> rcases w with e' | ⟨k4, its, ts⟩ <;>
          simp only [ExRel, except_bind_ok, except_bind_error] at this ⊢
        · exact this
        · obtain ⟨h5, h6, h7, h8⟩ := this
          refine ⟨h5, ?_, ?_, ?_⟩
          · intro n; rw [collect_append, h6, hlt]; rfl
          · intro n hn l' hl'
            rcases List.mem_cons.1 hl' with rfl | hl'
            · exact (Good.of_meta h2 n).2 hn
            · exact h7 n hn l' hl'
          · intro n
            have := h8 n
            simpa [lastSome, Option.or_assoc] using this

theorem scanM_forall {K X Y : Type} (f : K × X → Except RErr (K × Y)) (P : Y → Prop)
    (h : ∀ kx r, f kx = .ok r → P r.2) (xs : List X) :
    ∀ (k : K) (r : K × List Y), scanM f k xs = .ok r → (∀ y ∈ r.2, P y) ∧ r.2.length = xs.length := by
  induction xs with
  | nil => intro k r hr; simp only [scanM, Except.ok.injEq] at hr; subst hr; simp
  | cons x xs ih =>
    intro k r hr
    simp only [scanM] at hr
    rcases h1 : f (k, x) with e | ⟨k1, y⟩ <;> rw [h1] at hr
    · simp at hr
    · simp only [except_bind_ok] at hr
      rcases h2 : scanM f k1 xs with e | ⟨k2, ys⟩ <;> rw [h2] at hr
      · simp at hr
      · simp only [except_bind_ok, except_pure, Except.ok.injEq] at hr
        subst hr
        have := ih k1 _ h2
        have h3 := h _ _ h1
        refine ⟨?_, by simp [this.2]⟩
        intro y' hy'
        rcases List.mem_cons.1 hy' with rfl | hy'
        · exact h3
        · exact this.1 y' hy'

theorem scanDir_forall {K X Y : Type} (rev : Bool) (f : K × X → Except RErr (K × Y)) (P : Y → Prop)
    (h : ∀ kx r, f kx = .ok r → P r.2) (xs : List X) (k : K) (r : K × List Y)
    (hr : scanDir rev f k xs = .ok r) : (∀ y ∈ r.2, P y) ∧ r.2.length = xs.length := by
  cases rev with
  | false => exact scanM_forall f P h xs k r (by simpa [scanDir] using hr)
  | true =>
    simp only [scanDir, if_true] at hr
    rcases h1 : scanM f k xs.reverse with e | s <;> rw [h1] at hr
    · simp at hr
    · simp only [except_map_ok, Except.ok.injEq] at hr
      subst hr
      have := scanM_forall f P h _ _ _ h1
      simpa using this

theorem loopT_forall {V K : Type} (c : K → Except RErr (Bool × Log V)) (b : K → Except RErr (K × Log V))
    (P : Log V → Prop) (Q : Log V → Prop) (hQa : ∀ l r, Q l → Q r → Q (l ++ r))
    (hc : ∀ k r, c k = .ok r → Q r.2) (hb : ∀ k r, b k = .ok r → P r.2) (n : Nat) :
    ∀ k r, loopT c b n k = .ok r → (∀ l ∈ r.2.1, P l) ∧ Q r.2.2 := by
  induction n with
  | zero => intro k r h; simp [loopT] at h
  | succ n ih =>
    intro k r h
    simp only [loopT] at h
    rcases h1 : c k with e | ⟨t, lt⟩ <;> rw [h1] at h
    · simp at h
    · simp only [except_bind_ok] at h
      have hq := hc k _ h1
      cases t with
      | false => simp at h; subst h; exact ⟨by simp, hq⟩
      | true =>
        simp only [if_true] at h
        rcases h2 : b k with e | ⟨k1, l⟩ <;> rw [h2] at h
        · simp at h
        · simp only [except_bind_ok] at h
          rcases h3 : loopT c b n k1 with e | s <;> rw [h3] at h
          · simp at h
          · simp only [except_bind_ok, except_pure, Except.ok.injEq] at h
            subst h
            have h4 := ih k1 s h3
            have h5 := hb k _ h2
            refine ⟨?_, hQa _ _ hq h4.2⟩
            intro l' hl'
            rcases List.mem_cons.1 hl' with rfl | hl'
            · exact h5
            · exact h4.1 l' hl'

theorem quiet_declares {V A B : Type} {S : Settings} (p : Prog V A B) (h : Quiet S p) :
    ∀ n, declares S n (sites p) = none := by
  induction p with
  | pure f => intro n; simp [sites, declares]
  | seq p q ihp ihq => intro n; simp [sites, declares_append, ihp h.1, ihq h.2]
  | sow tag name mode pre pred post =>
    intro n
    simp only [Quiet, AllSows] at h
    simp [sites, declares, Site.declares, h]
  | nest scope pre body post ih =>
    intro n
    have := (anySite_false_iff S _).2 (ih h.2)
    simp [sites, declares, Site.declares, this]
  | inline pre body post ih => exact ih h
  | call _ pre body post ih => exact ih h
  | cond n sel pre br post ih => exact ih 0 (h 0)
  | scan rev pre body post ih => exact ih h
  | whileL pre test body post iht ihb => exact ihb h.2

theorem quiet_collect {V A B : Type} {S : Settings} (fuel : Nat) (p : Prog V A B) (h : Quiet S p) :
    ∀ a r, trace fuel p a = .ok r → ∀ n, collect S n r.2 = none := by
  induction p with
  | pure f =>
    intro a r hr n
    simp only [trace] at hr
    rcases hf : f a with e | b <;> rw [hf] at hr <;> simp at hr
    subst hr; simp [collect]
  | seq p q ihp ihq =>
    intro a r hr n
    simp only [trace] at hr
    rcases h1 : trace fuel p a with e | r1 <;> rw [h1] at hr
    · simp at hr
    · simp only [except_bind_ok] at hr
      rcases h2 : trace fuel q r1.1 with e | r2 <;> rw [h2] at hr
      · simp at hr
      · simp only [except_bind_ok, except_pure, Except.ok.injEq] at hr
        subst hr
        simp [collect_append, ihp h.1 _ _ h1, ihq h.2 _ _ h2]
  | sow tag name mode pre pred post =>
    intro a r hr n
    simp only [trace, Except.ok.injEq] at hr
    subst hr
    simp only [Quiet, AllSows] at h
    simp [collect, Ev.collect, h]
  | nest scope pre body post ih =>
    intro a r hr n
    simp only [trace] at hr
    rcases h1 : trace fuel body (pre a) with e | r1 <;> rw [h1] at hr <;> simp at hr
    subst hr
    have := (anySite_false_iff S _).2 (quiet_declares body h.2)
    simp [collect, Ev.collect, this]
  | inline pre body post ih | call _ pre body post ih =>
    intro a r hr n
    simp only [trace] at hr
    rcases h1 : trace fuel body (pre a) with e | r1 <;> rw [h1] at hr <;> simp at hr
    subst hr
    exact ih h _ _ h1 n
  | cond k sel pre br post ih =>
    intro a r hr n
    simp only [trace] at hr
    rcases h1 : trace fuel (br (sel a)) (pre a) with e | r1 <;> rw [h1] at hr <;> simp at hr
    subst hr
    exact ih _ (h _) _ _ h1 n
  | scan rev pre body post ih =>
    intro a r hr n
    simp only [trace] at hr
    generalize scanDir rev _ _ _ = u at hr
    rcases u with e | u <;> simp at hr
    subst hr
    simp [collect, Ev.collect, quiet_declares body h]
  | whileL pre test body post iht ihb =>
    intro a r hr n
    simp only [trace] at hr
    rcases h1 : loopT (fun k => trace fuel test k) (fun k => trace fuel body k) fuel (pre a) with e | u <;>
      rw [h1] at hr <;> simp at hr
    subst hr
    have := (loopT_forall _ _ (fun _ => True) (fun l => collect S n l = none)
      (by intro l r hl hr; simp [collect_append, hl, hr])
      (fun k r hk => iht (h.1 rfl) k r hk n) (fun _ _ _ => trivial) _ _ _ h1).2
    simp [collect, Ev.collect, quiet_declares body h.2, this]

/-- Leaked mode of a metadata whose names are all / none in mode 'cond_clobber'. -/
theorem mem_insKey {e x : String × Mode} {m : Meta} : x ∈ insKey e m ↔ x = e ∨ x ∈ m := by
  induction m with
  | nil => simp [insKey]
  | cons y ys ih =>
    simp only [insKey]
    split
    · simp
    · simp only [List.mem_cons, ih]; tauto

theorem mem_sortKeys {x : String × Mode} {m : Meta} : x ∈ sortKeys m ↔ x ∈ m := by
  unfold sortKeys
  induction m with
  | nil => simp
  | cons y ys ih => simp [mem_insKey, ih]

theorem leakedMode_mem {m : Meta} {mode : Mode} (h : leakedMode m = some mode) :
    ∃ n, (n, mode) ∈ m := by
  unfold leakedMode at h
  rw [Option.map_eq_some_iff] at h
  obtain ⟨⟨n, md⟩, h1, rfl⟩ := h
  exact ⟨n, mem_sortKeys.1 (List.mem_of_getLast? h1)⟩

theorem leakedMode_isSome {m : Meta} (h : m ≠ []) : (leakedMode m).isSome := by
  unfold leakedMode
  have : sortKeys m ≠ [] := by
    rcases m with _ | ⟨e, m⟩
    · exact absurd rfl h
    · intro hc
      have := (mem_sortKeys (x := e) (m := e :: m)).2 (by simp)
      rw [hc] at this
      simp at this
  cases hl : (sortKeys m).getLast? with
  | none => rw [List.getLast?_eq_none_iff] at hl; exact absurd hl this
  | some x => simp

theorem metaScan_ok {m : Meta} (h : metaScan m = .ok ()) : ∀ n, m.get n ≠ some .strict := by
  unfold metaScan at h
  split at h
  · simp at h
  · rename_i h1
    rw [List.find?_eq_none] at h1
    intro n hn
    have := h1 _ (Meta.mem_of_get hn)
    simp at this

theorem metaWhile_ok {m : Meta} (h : metaWhile m = .ok ()) :
    ∀ n mode, m.get n = some mode → mode.isClobber = true := by
  unfold metaWhile at h
  split at h
  · simp at h
  · rename_i h1
    rw [List.find?_eq_none] at h1
    intro n mode hn
    have := h1 _ (Meta.mem_of_get hn)
    simpa using this

/-- An accepted program has no invalid mode among its declared names. -/
theorem metaOf_valid {V A B : Type} {S : Settings} (p : Prog V A B) :
    ∀ {m0 m1 : Meta}, metaOf S p m0 = .ok m1 → ∀ n, declares S n (sites p) ≠ some .invalid := by
  induction p with
  | pure f => intro m0 m1 h n; simp [sites, declares]
  | seq p q ihp ihq =>
    intro m0 m1 h n
    simp only [metaOf] at h
    rcases hp : metaOf S p m0 with e | m <;> rw [hp] at h
    · simp at h
    · simp only [except_bind_ok] at h
      rw [sites, declares_append]
      have h1 := ihp hp n
      have h2 := ihq h n
      cases hq : declares S n (sites q) with
      | none => simpa [hq] using h1
      | some x => rw [hq] at h2; simpa using h2
  | sow tag name mode pre pred post =>
    intro m0 m1 h n
    simp only [metaOf] at h
    split at h
    · simp at h
    · rename_i hi
      simp only [sites, declares, Site.declares, Option.none_or]
      split <;> simp [hi]
  | nest scope pre body post ih =>
    intro m0 m1 h n
    simp only [sites, declares, Site.declares, Option.none_or]
    split <;> simp
  | inline pre body post ih => intro m0 m1 h n; simp only [metaOf] at h; exact ih h n
  | call _ pre body post ih =>
    intro m0 m1 h n
    simp only [metaOf] at h
    rcases hp : metaOf S body [] with e | m <;> rw [hp] at h
    · simp at h
    · exact ih hp n
  | cond k sel pre br post ih =>
    intro m0 m1 h n
    simp only [metaOf] at h
    rcases hp : metaOf S (br 0) [] with e | m <;> rw [hp] at h
    · simp at h
    · exact ih 0 hp n
  | scan rev pre body post ih =>
    intro m0 m1 h n
    simp only [metaOf] at h
    rcases hp : metaOf S body [] with e | m <;> rw [hp] at h
    · simp at h
    · exact ih hp n
  | whileL pre test body post iht ihb =>
    intro m0 m1 h n
    simp only [metaOf] at h
    rcases hp : metaOf S body [] with e | m <;> rw [hp] at h
    · simp at h
    · exact ihb hp n

theorem forall₂_reverse {α β : Type} {R : α → β → Prop} {l : List α} {r : List β}
    (h : List.Forall₂ R l r) : List.Forall₂ R l.reverse r.reverse := by
  induction h with
  | nil => simp
  | cons h1 _ ih =>
    simp only [List.reverse_cons]
    exact List.rel_append ih (.cons h1 .nil)

theorem scanDir_rel {V K X Y : Type} {S : Settings} {ss : List Site} {m : Meta} (rev : Bool)
    (μ : String → Option Mode)
    (hi : ∀ n, m.get n = declares S n ss)
    (hμ : ∀ n mode, m.get n = some mode → mode.isClobber = true →
      (μ n = some .condClobber ↔ mode = .condClobber))
    (f : (K × Reaps V) × X → Except RErr ((K × Reaps V) × (Y × Reaps V)))
    (g : K × X → Except RErr (K × (Y × Log V)))
    (h : ∀ k c x, ExRel (fun r s => r.1.1 = s.1 ∧ IterRel S ss m r.2 s.2 ∧
      r.1.2 = carryStep μ c r.2.2) (f ((k, c), x)) (g (k, x)))
    (xs : List X) (k : K) (c : Reaps V) (o : String → Option (Val V))
    (hc : ∀ n, CarryIs m c n (o n)) :
      ExRel (fun r s => r.1.1 = s.1 ∧ List.Forall₂ (IterRel S ss m) r.2 s.2 ∧
        ∀ n, CarryIs m r.1.2 n
          ((lastSome (execOrder rev (s.2.map (fun z => collect S n z.2)))).or (o n)))
        (scanDir rev f (k, c) xs) (scanDir rev g k xs) := by
  cases rev with
  | false => simpa [scanDir, execOrder] using scanM_rel μ hi hμ f g h xs k c o hc
  | true =>
    simp only [scanDir, execOrder, if_true]
    refine ExRel.map (scanM_rel μ hi hμ f g h xs.reverse k c o hc) ?_
    rintro ⟨⟨k1, c1⟩, ys⟩ ⟨k2, zs⟩ - - ⟨h1, h2, h3⟩
    refine ⟨h1, forall₂_reverse h2, ?_⟩
    intro n
    have := h3 n
    simpa [List.map_reverse] using this

theorem dispatch_cases {S : Settings} {t n : String} (h : S.dispatch t n ≠ .handle) :
    S.dispatch t n = .drop ∨ S.dispatch t n = .forward := by
  cases hd : S.dispatch t n <;> simp_all

set_option maxHeartbeats 1000000 in
theorem reapT_good {V A B : Type} (S : Settings) (fuel : Nat) (p : Prog V A B) :
    ∀ {c : String → Bool}, Regular S c p → ∀ {m0 m1 : Meta}, metaOf S p m0 = .ok m1 → Fits c m0 →
    ∀ (a : A) (d : Reaps V), Matches m0 d →
      ExRel (fun r s => r.1 = s.1 ∧ Good S (sites p) m1 d r.2 s.2)
        (run fuel (reapT S p) (a, d)) (trace fuel p a) := by
  induction p with
  | pure f =>
    intro c hr m0 m1 hm hf a d hd
    simp only [metaOf, Except.ok.injEq] at hm
    subst hm
    simp only [reapT, run, trace]
    rcases f a with e | b
    · simp [ExRel]
    · simp only [except_map_ok, ExRel, true_and]
      exact ⟨hd, fun n => by simp [sites, declares, collect]⟩
  | seq p q ihp ihq =>
    intro c hr m0 m1 hm hf a d hd
    simp only [metaOf] at hm
    rcases hp : metaOf S p m0 with e | m <;> rw [hp] at hm
    · simp at hm
    · simp only [except_bind_ok] at hm
      simp only [reapT, run, trace]
      refine ExRel.bind (ihp hr.1 hp hf a d hd) ?_
      rintro ⟨b1, d1⟩ ⟨b2, l1⟩ ⟨h1, h2⟩
      simp only at h1 h2
      subst h1
      have h3 := ihq hr.2 hm (Fits.metaOf hr.1 hp hf) b1 d1 h2.1
      generalize run fuel (reapT S q) (b1, d1) = u at h3 ⊢
      generalize trace fuel q b1 = v at h3 ⊢
      rcases u with e | ⟨b3, d3⟩ <;> rcases v with e' | ⟨b4, l3⟩ <;>
        simp only [ExRel, except_bind_ok, except_bind_error, except_pure] at h3 ⊢
      · exact h3
      · obtain ⟨h4, h5⟩ := h3
        refine ⟨h4, h5.1, ?_⟩
        intro n
        obtain ⟨h6, h7⟩ := h2.2 n
        obtain ⟨h8, h9⟩ := h5.2 n
        rw [sites, declares_append, collect_append]
        refine ⟨?_, ?_⟩
        · rw [h8]
          have hb : (d1 n).bind live = ((d1 n).map live).join := by cases d1 n <;> rfl
          rw [hb, h6]
          cases hq : declares S n (sites q) with
          | none =>
            cases hp' : declares S n (sites p) with
            | none => simp
            | some x => simp [h9 hq]
          | some y =>
            cases hp' : declares S n (sites p) with
            | none =>
              simp only [h7 hp']
              cases hdn : d n <;> simp
            | some x => simp [Option.or_assoc]
        · intro hn
          rw [Option.or_eq_none_iff] at hn
          rw [h7 hn.2, h9 hn.1]; rfl
  | sow tag name mode pre pred post =>
    intro c hr m0 m1 hm hf a d hd
    simp only [metaOf] at hm
    split at hm
    · simp at hm
    · rename_i hinv
      simp only [reapT]
      by_cases hdisp : S.dispatch tag name = .handle
      · rw [hdisp] at hm ⊢
        have hact := dispatch_handle.1 hdisp
        obtain ⟨rfl, hcl⟩ := Meta.handle_ok hm
        simp only [run, trace, ExRel, true_and]
        refine ⟨?_, ?_⟩
        · intro n
          unfold Reaps.handle
          rw [Meta.get_set]
          by_cases hn : n = name
          · simp only [hn, if_true, Option.map_some, newReap_mode, true_and]
            intro r hr'
            simp only [Option.some.injEq] at hr'
            subst hr'
            rw [newReap_mode]; exact newReap_pred _ _ _ _
          · simp only [hn, if_false]
            exact hd n
        · intro n
          unfold Reaps.handle
          simp only [sites, declares, Site.declares, collect, Ev.collect, Option.none_or]
          by_cases hn : n = name
          · subst hn
            simp only [hact, and_self, if_true, Option.map_some, Option.isSome_some, true_and,
              Option.some.injEq, reduceCtorEq, false_imp_iff, and_true]
            rw [live_newReap]
            · by_cases hmode : mode = .condClobber
              · cases pred a <;> simp [hmode]
              · simp [hmode]
            · exact (hd n).2
            · intro r hr'
              have h4 := (hd n).1
              rw [hr'] at h4
              simp only [Option.map_some] at h4
              rw [hf n _ h4.symm, hr hact]
          · have : name ≠ n := fun h => hn h.symm
            simp [hn, this]
      · have hna := dispatch_ne_handle.1 hdisp
        have hm' : m0 = m1 := by
          rcases dispatch_cases hdisp with h | h <;> rw [h] at hm <;> simpa using hm
        subst hm'
        have hgood : Good S (sites (.sow tag name mode pre pred post)) m0 d d
            [.sow tag name mode (pre a) (pred a)] :=
          ⟨hd, fun n => by simp [sites, declares, Site.declares, collect, Ev.collect, hna]⟩
        rcases dispatch_cases hdisp with h | h <;> rw [h] <;> simp only [run, trace, ExRel, true_and] <;>
          exact hgood
  | nest scope pre body post ih =>
    intro c hr m0 m1 hm hf a d hd
    simp only [metaOf] at hm
    rcases hp : metaOf S body [] with e | m <;> rw [hp] at hm
    · simp at hm
    · simp only [except_bind_ok] at hm
      have hgm := metaOf_nil_get hp
      simp only [reapT, run, trace]
      refine ExRel.map (ih hr.1 hp (Fits.nil _) (pre a) _ Matches.nil) ?_
      rintro ⟨y, di⟩ ⟨y', l⟩ - - ⟨h1, h2⟩
      simp only at h1 h2
      subst h1
      simp only [true_and]
      rw [metaD_of_ok hp]
      have hg := Good.of_meta h2
      have ha : anySite S (sites body) = !m.isEmpty := by
        cases he : m.isEmpty with
        | true =>
          simp only [Bool.not_true]
          rw [anySite_false_iff]; intro n; rw [← hgm]; exact (Meta.isEmpty_iff m).1 he n
        | false =>
          simp only [Bool.not_false]
          by_contra hc
          rw [Bool.not_eq_true, anySite_false_iff] at hc
          have := (Meta.isEmpty_iff m).2 (fun n => by rw [hgm]; exact hc n)
          rw [he] at this; simp at this
      by_cases hempty : m.isEmpty = true
      · simp only [hempty, if_true, except_pure, Except.ok.injEq] at hm ⊢
        subst hm
        refine ⟨hd, fun n => ?_⟩
        simp [sites, declares, Site.declares, collect, Ev.collect, ha, hempty]
      · simp only [hempty, Bool.false_eq_true, if_false] at hm ⊢
        rw [Bool.not_eq_true] at hempty
        rw [hempty] at ha
        simp only [Bool.not_false] at ha
        by_cases hdisp : S.dispatch S.tag scope = .handle
        · rw [hdisp] at hm ⊢
          have hact := dispatch_handle.1 hdisp
          obtain ⟨rfl, hcl⟩ := Meta.handle_ok hm
          refine ⟨?_, ?_⟩
          · intro n
            unfold Reaps.handle
            rw [Meta.get_set]
            by_cases hn : n = scope
            · simp only [hn, if_true, Option.map_some, newReap_mode, true_and]
              intro r hr'
              simp only [Option.some.injEq] at hr'
              subst hr'
              rw [newReap_mode]; exact newReap_pred _ _ _ _
            · simp only [hn, if_false]
              exact hd n
          · intro n
            unfold Reaps.handle
            simp only [sites, declares, Site.declares, collect, Ev.collect, Option.none_or]
            by_cases hn : n = scope
            · subst hn
              simp only [hact, ha, and_self, if_true, Option.map_some, Option.isSome_some,
                Option.some.injEq, reduceCtorEq, false_imp_iff, and_true]
              simp only [newReap, reduceCtorEq, if_false, live, Option.some_or, Option.some.injEq,
                Val.dict.injEq]
              funext k
              have hk := (hg k).1
              have hdecl := Regular.declares hr.1 k
              cases hdk : declares S k (sites body) with
              | none => rw [hdk] at hk; simpa using hk
              | some mode =>
                rw [hdk] at hk
                simp only [Option.isSome_some, if_true] at hk ⊢
                obtain ⟨r, hrk, hl⟩ := Option.map_eq_some_iff.1 hk
                rw [hrk]
                have hmr := (h2.1 k).1
                rw [hrk, hgm, hdk] at hmr
                simp only [Option.map_some, Option.some.injEq] at hmr
                have hnc : r.mode ≠ .condClobber := by
                  intro hcc
                  have := (hdecl mode hdk).1 (by rw [← hmr, hcc])
                  simp at this
                have hpn : r.pred = none := by
                  by_contra hne
                  exact hnc (((h2.1 k).2 r hrk).1 (Option.isSome_iff_ne_none.2 hne))
                rw [← hl]
                simp [live, hpn]
            · have : scope ≠ n := fun h => hn h.symm
              simp [hn, this]
        · have hna := dispatch_ne_handle.1 hdisp
          have hm' : m0 = m1 := by
            rcases dispatch_cases hdisp with h | h <;> rw [h] at hm <;> simpa using hm
          subst hm'
          have hgood : Good S (sites (.nest scope pre body post)) m0 d d
              [.nest scope (sites body) l] :=
            ⟨hd, fun n => by simp [sites, declares, Site.declares, collect, Ev.collect, hna]⟩
          rcases dispatch_cases hdisp with h | h <;> rw [h] <;> exact hgood
  | inline pre body post ih =>
    intro c hr m0 m1 hm hf a d hd
    simp only [metaOf] at hm
    simp only [reapT, run, trace]
    refine ExRel.map (ih hr hm hf (pre a) d hd) ?_
    rintro ⟨y, di⟩ ⟨y', l⟩ - - ⟨h1, h2⟩
    simp only at h1
    subst h1
    exact ⟨rfl, h2⟩
  | call kind pre body post ih =>
    intro c hr m0 m1 hm hf a d hd
    simp only [metaOf] at hm
    rcases hp : metaOf S body [] with e | m <;> rw [hp] at hm
    · simp at hm
    · simp only [except_bind_ok] at hm
      have hgm := metaOf_nil_get hp
      simp only [reapT, run, trace]
      refine ExRel.map (ih hr hp (Fits.nil _) (pre a) _ Matches.nil) ?_
      rintro ⟨y, di⟩ ⟨y', l⟩ - - ⟨h1, h2⟩
      simp only at h1 h2
      subst h1
      refine ⟨rfl, ?_⟩
      rw [metaD_of_ok hp]
      exact Good.resow hm hgm (fun n => ⟨Iff.rfl, Iff.rfl⟩) hf
        (Fits.metaOf (p := body) hr hp (Fits.nil _)) hd h2.1 (Good.of_meta h2)
  | cond k sel pre br post ih =>
    intro c hr m0 m1 hm hf a d hd
    simp only [metaOf] at hm
    rcases hp : metaOf S (br 0) [] with e | m <;> rw [hp] at hm
    · simp at hm
    · simp only [except_bind_ok] at hm
      rcases hq : (List.finRange (k + 1)).mapM (fun i => metaOf S (br i) []) with e | ms <;>
        rw [hq] at hm
      · simp at hm
      · simp only [except_bind_ok] at hm
        rcases hc : metaCond m ms with e | u <;> rw [hc] at hm
        · simp at hm
        · simp only [except_bind_ok] at hm
          obtain ⟨mi, hmi, hbr⟩ := metaBranch_of_metaOf_cond hq hc (sel a)
          have hbr' := metaBranch_ok (metaOf_nil_keys hmi) hbr
          have hgm := metaOf_nil_get hp
          have hgmi := metaOf_nil_get hmi
          simp only [reapT, run, trace]
          refine ExRel.map (ih (sel a) (hr (sel a)) hmi (Fits.nil _) (pre a) _ Matches.nil) ?_
          rintro ⟨y, di⟩ ⟨y', l⟩ - - ⟨h1, h2⟩
          simp only at h1 h2
          subst h1
          refine ⟨rfl, ?_⟩
          rw [metaD_of_ok hp]
          refine Good.resow (mi := mi) hm hgm hbr' hf (Fits.metaOf (hr 0) hp (Fits.nil _)) hd h2.1 ?_
          intro n
          have h3 := Good.of_meta h2 n
          have h4 : (declares S n (sites (br (sel a)))).isSome ↔
              (declares S n (sites (Prog.cond k sel pre br post))).isSome := by
            have := (hbr' n).1
            rw [hgm, hgmi] at this
            simpa [sites] using this
          refine ⟨?_, ?_⟩
          · rw [h3.1]
            by_cases h5 : (declares S n (sites (br (sel a)))).isSome
            · rw [if_pos h5, if_pos (h4.1 h5)]
            · rw [if_neg h5, if_neg (fun h => h5 (h4.2 h))]
          · intro h6
            apply h3.2
            rw [← Option.not_isSome_iff_eq_none] at h6 ⊢
            exact fun h => h6 (h4.1 h)
  | scan rev pre body post ih =>
    intro c hr m0 m1 hm hf a d hd
    simp only [metaOf] at hm
    rcases hp : metaOf S body [] with e | m <;> rw [hp] at hm
    · simp at hm
    · simp only [except_bind_ok] at hm
      rcases hms : metaScan m with e | u <;> rw [hms] at hm
      · simp at hm
      · simp only [except_bind_ok] at hm
        have hgm := metaOf_nil_get hp
        have hfm : Fits c m := Fits.metaOf hr.1 hp (Fits.nil _)
        have hkeys := metaOf_nil_keys hp
        have hμ : ∀ n mode, m.get n = some mode → mode.isClobber = true →
            (leakedMode m = some .condClobber ↔ mode = .condClobber) := by
          intro n mode hn hcl
          have hne : m ≠ [] := by rintro rfl; simp at hn
          obtain ⟨lm, hlm⟩ := Option.isSome_iff_exists.1 (leakedMode_isSome hne)
          obtain ⟨k, hk⟩ := leakedMode_mem hlm
          have hk' := Meta.get_of_mem hkeys hk
          rw [hlm]
          simp only [Option.some.injEq]
          rw [hfm n mode hn, hfm k lm hk']
          rcases hr.2 with hall | hall
          · rw [hall n (by rw [← hgm, hn]; rfl), hall k (by rw [← hgm, hk']; rfl)]
          · rw [hall n (by rw [← hgm, hn]; rfl), hall k (by rw [← hgm, hk']; rfl)]
        simp only [reapT, run, trace, metaD_of_ok hp]
        refine ExRel.map (scanDir_rel (m := m) rev (fun _ => leakedMode m) hgm hμ _ _ ?_ (pre a).2
          (pre a).1 (carryInit m) (fun n => if m.get n = some .clobber then some .zeros else none)
          (fun n => CarryIs.init m n)) ?_
        · intro k cd x
          simp only [except_bind_ok]
          have h1 := ih hr.1 hp (Fits.nil _) (k, x) _ (Matches.nil (V := V))
          generalize run fuel (reapT S body) ((k, x), fun _ => none) = u at h1 ⊢
          generalize trace fuel body (k, x) = v at h1 ⊢
          rcases u with e | ⟨⟨k1, y1⟩, rd⟩ <;> rcases v with e' | ⟨⟨k2, y2⟩, l⟩ <;>
            simp only [ExRel, except_bind_ok, except_bind_error, except_map_ok, except_map_error,
              Prod.mk.injEq] at h1 ⊢
          · exact h1
          · exact ⟨h1.1.1, ⟨h1.1.2, h1.2⟩, trivial⟩
        · rintro ⟨⟨k1, cd⟩, ys⟩ ⟨k2, zs⟩ - - ⟨h1, h2, h3⟩
          simp only at h1 h2 h3
          subst h1
          have hys : ys.map (·.1) = zs.map (·.1) := by
            clear h3
            induction h2 with
            | nil => rfl
            | cons h _ ih => simp [h.1, ih]
          refine ⟨by rw [hys], ?_⟩
          have hcoll : ∀ n, (declares S n (sites body) = none →
              collect S n [Ev.scan rev (sites body) (zs.map (·.2))] = none) := by
            intro n hn; simp [collect, Ev.collect, hn]
          have hstack : ∀ n, m.get n = some .append →
              (ys.map (·.2)).filterMap (fun rd => (rd n).map (·.value)) =
                (collectIters S n (zs.map (·.2))).map (·.getD .zeros) := by
            intro n hn
            rw [collectIters_eq_map]
            clear h3 hys hcoll
            induction h2 with
            | nil => rfl
            | @cons y z ys zs h _ ih =>
              have hg := (Good.of_meta h.2 n).1
              rw [← hgm, hn] at hg
              simp only [Option.isSome_some, if_true] at hg
              obtain ⟨r, hrk, hl⟩ := Option.map_eq_some_iff.1 hg
              have hmr := (h.2.1 n).1
              rw [hrk, hn] at hmr
              simp only [Option.map_some, Option.some.injEq] at hmr
              have hpn : r.pred = none := by
                by_contra hne
                have := ((h.2.1 n).2 r hrk).1 (Option.isSome_iff_ne_none.2 hne)
                rw [hmr] at this; simp at this
              simp only [List.map_cons, List.filterMap_cons, hrk, Option.map_some, ih, ← hl]
              simp [live, hpn]
          refine Good.resow (mi := m) hm hgm (fun n => ⟨Iff.rfl, Iff.rfl⟩) hf hfm hd ?_ ?_
          · intro n
            unfold scanReaps
            cases hn : m.get n with
            | none => simp [(h3 n).2 (by rw [hn]; simp)]
            | some mode =>
              by_cases hcl : mode.isClobber = true
              · obtain ⟨r, e1, e2, e3, e4⟩ := (h3 n).1 mode hn hcl
                rw [e2] at e3
                cases mode <;> simp [Mode.isClobber] at hcl <;> simp [e1, e2, e3] <;> simpa using e3
              · cases mode <;> simp [Mode.isClobber] at hcl
                · exact absurd hn (metaScan_ok hms n)
                · simp
                · exact absurd (by rw [← hgm, hn]) (metaOf_valid body hp n)
          · intro n
            refine ⟨?_, hcoll n⟩
            simp only [sites]
            unfold scanReaps
            simp only [collect, Ev.collect, Option.none_or, ← hgm]
            cases hn : m.get n with
            | none => simp [(h3 n).2 (by rw [hn]; simp)]
            | some mode =>
              by_cases hcl : mode.isClobber = true
              · obtain ⟨r, e1, e2, e3, e4⟩ := (h3 n).1 mode hn hcl
                rw [hn] at e4
                have hmap : zs.map (fun z => collect S n z.2) = collectIters S n (zs.map (·.2)) := by
                  rw [collectIters_eq_map, List.map_map]; rfl
                rw [hmap] at e4
                cases mode <;> simp [Mode.isClobber] at hcl
                · simp only [if_true] at e4
                  simp only [e1, Option.map_some, e4, Option.isSome_some, if_true]
                  cases lastSome (execOrder rev (collectIters S n (zs.map (·.2)))) <;> simp
                · simp only [Option.some.injEq, reduceCtorEq, if_false, Option.or_none] at e4
                  simp only [e1, Option.map_some, e4, Option.isSome_some, if_true]
              · cases mode <;> simp [Mode.isClobber] at hcl
                · exact absurd hn (metaScan_ok hms n)
                · simp only [Option.map_some, Option.isSome_some, if_true, Option.some.injEq]
                  simp only [live, hstack n hn]
                · exact absurd (by rw [← hgm, hn]) (metaOf_valid body hp n)
  | whileL pre test body post iht ihb =>
    intro c hr m0 m1 hm hf a d hd
    simp only [metaOf] at hm
    rcases hp : metaOf S body [] with e | m <;> rw [hp] at hm
    · simp at hm
    · simp only [except_bind_ok] at hm
      rcases hms : metaWhile m with e | u <;> rw [hms] at hm
      · simp at hm
      · simp only [except_bind_ok] at hm
        have hgm := metaOf_nil_get hp
        have hfm : Fits c m := Fits.metaOf hr.1 hp (Fits.nil _)
        simp only [reapT, run, trace, metaD_of_ok hp]
        refine ExRel.map (loop_rel (S := S) (m := m) hgm _ _ (fun k => trace fuel test k)
          (fun k => trace fuel body k) ?_ ?_ ?_ fuel
          (pre a) (carryInit m) (fun n => if m.get n = some .clobber then some .zeros else none)
          (fun n => CarryIs.init m n)) ?_
        · intro k r
          simp only [except_bind_ok]
          exact run_eq_trace fuel test k
        · intro k r n h
          exact quiet_collect fuel test hr.2 k r h n
        · intro k cd
          simp only [except_bind_ok]
          have h1 := ihb hr.1 hp (Fits.nil _) k _ (Matches.nil (V := V))
          generalize run fuel (reapT S body) (k, fun _ => none) = u at h1 ⊢
          generalize trace fuel body k = v at h1 ⊢
          rcases u with e | ⟨k1, rd⟩ <;> rcases v with e' | ⟨k2, l⟩ <;>
            simp only [ExRel, except_bind_ok, except_bind_error, except_map_ok, except_map_error] at h1 ⊢
          · exact h1
          · exact ⟨h1.1, rd, h1.2, rfl⟩
        · rintro ⟨k1, cd⟩ ⟨k2, its, ts⟩ - - ⟨h1, h2, h3, h4⟩
          simp only at h1 h2 h3 h4
          subst h1
          refine ⟨rfl, ?_⟩
          refine Good.resow (mi := m) hm hgm (fun n => ⟨Iff.rfl, Iff.rfl⟩) hf hfm hd ?_ ?_
          · intro n
            cases hn : m.get n with
            | none => simp [(h4 n).2 (by rw [hn]; simp)]
            | some mode =>
              obtain ⟨r, e1, e2, e3, e4⟩ := (h4 n).1 mode hn (metaWhile_ok hms n mode hn)
              rw [e2] at e3
              simp [e1, e2, e3]
          · intro n
            simp only [sites, collect, Ev.collect, h2 n, Option.none_or, ← hgm]
            refine ⟨?_, by intro h; rw [h]⟩
            cases hn : m.get n with
            | none => simp [(h4 n).2 (by rw [hn]; simp)]
            | some mode =>
              have hcl := metaWhile_ok hms n mode hn
              obtain ⟨r, e1, e2, e3, e4⟩ := (h4 n).1 mode hn hcl
              rw [hn] at e4
              rw [← collectIters_eq_map] at e4
              cases mode <;> simp [Mode.isClobber] at hcl
              · simp only [if_true] at e4
                simp only [e1, Option.map_some, e4, Option.isSome_some, if_true]
                cases lastSome (collectIters S n its) <;> simp
              · simp only [Option.some.injEq, reduceCtorEq, if_false, Option.or_none] at e4
                simp only [e1, Option.map_some, e4, Option.isSome_some, if_true]

end Verif.Harvest
