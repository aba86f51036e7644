import Verif.Harvest.Lift
import Verif.LogProb.Batched

/-! C66 (vmap) and C67 (jvp): harvesting transformed functions. -/
namespace Verif.Harvest.Lift

variable {V W W' X Y : Type}

/-- A dictionary with other values. -/
def Reaps.mapVals (g : X → Y) (r : Reaps X) : Reaps Y := r.map fun e => (e.1, e.2.1, e.2.2.map fun l => (l.1, g l.2))

theorem mapVals_find (g : X → Y) (r : Reaps X) (n : String) :
    (Reaps.mapVals g r).find? (fun e => e.1 == n) = (r.find? (fun e => e.1 == n)).map fun e => (e.1, e.2.1, e.2.2.map fun l => (l.1, g l.2)) := by
  rw [Reaps.mapVals, List.find?_map]
  rfl

theorem mapVals_filter (g : X → Y) (r : Reaps X) (n : String) :
    (Reaps.mapVals g r).filter (fun e => e.1 ≠ n) = Reaps.mapVals g (r.filter (fun e => e.1 ≠ n)) := by
  rw [Reaps.mapVals, List.filter_map]; rfl

theorem handle_mapVals (g : X → Y) (r : Reaps X) (n : String) (mode : Mode) (lv : List (List String × X)) :
    handle (r.mapVals g) n mode (lv.map fun l => (l.1, g l.2)) = (handle r n mode lv).map (Reaps.mapVals g) := by
  unfold handle
  rw [mapVals_find]
  cases r.find? (fun e => e.1 == n) with
  | none => rfl
  | some e =>
    simp only [Option.map_some]
    split
    · rw [mapVals_filter]; rfl
    · rfl

theorem leavesOf_mapVals (g : X → Y) (r : Reaps X) : leavesOf (r.mapVals g) = (leavesOf r).map fun l => (l.1, g l.2) := by
  simp only [leavesOf, Reaps.mapVals, List.flatMap_map, List.map_flatMap, List.map_map]
  rfl

theorem sowInto_mapVals (g : X → Y) (S : Settings) (r : Reaps X) (tag name : String) (mode : Mode) (x : X) :
    sowInto S (r.mapVals g) tag name mode (g x) = (sowInto S r tag name mode x).map (Reaps.mapVals g) := by
  unfold sowInto
  split
  · rfl
  · cases S.dispatch tag name with
    | handle => exact handle_mapVals g r name mode [([], x)]
    | drop => rfl
    | forward => rfl

theorem nestInto_mapVals (g : X → Y) (S : Settings) (r ri : Reaps X) (scope : String) :
    nestInto S (r.mapVals g) (ri.mapVals g) scope = (nestInto S r ri scope).map (Reaps.mapVals g) := by
  unfold nestInto
  have : (ri.mapVals g).isEmpty = ri.isEmpty := by cases ri <;> rfl
  rw [this]
  split
  · rfl
  · cases S.dispatch S.tag scope with
    | handle => simp only; rw [leavesOf_mapVals]; exact handle_mapVals g r scope .strict (leavesOf ri)
    | drop => rfl
    | forward => rfl

/-- What is stored does not influence the run. -/
theorem reapBy_store (L : Rules V W) (store : W → X) (g : X → Y) (S : Settings) (P : Prog V) (env : List W) (r : Reaps X) :
    reapBy L (g ∘ store) S P env (r.mapVals g) = (reapBy L store S P env r).map (fun q => (q.1, q.2.mapVals g)) := by
  induction P generalizing env r with
  | done outs => simp only [reapBy]; cases gets env outs <;> rfl
  | op p ins rest ih =>
    simp only [reapBy]
    cases gets env ins with
    | error e => rfl
    | ok ws => exact ih _ _
  | sow tag name mode x rest ih =>
    simp only [reapBy]
    cases get env x with
    | error e => rfl
    | ok w =>
      simp only [bind, Except.bind, Function.comp]
      rw [sowInto_mapVals]
      cases sowInto S r tag name mode (store w) with
      | error e => rfl
      | ok r' => exact ih _ _
  | nest scope ins body rest ihb ihr =>
    simp only [reapBy]
    cases gets env ins with
    | error e => rfl
    | ok ws =>
      simp only [bind, Except.bind]
      have hb := ihb ws []
      simp only [Reaps.mapVals, List.map_nil] at hb
      rw [hb]
      cases reapBy L store S body ws [] with
      | error e => rfl
      | ok q =>
        simp only [Except.map]
        have hn := nestInto_mapVals g S r q.2 scope
        simp only [Reaps.mapVals] at hn
        simp only [Reaps.mapVals]
        rw [hn]
        cases nestInto S r q.2 scope with
        | error e => rfl
        | ok r' => exact ihr _ _

theorem get_map (h : W → W') (env : List W) (x : Nat) : get (env.map h) x = (get env x).map h := by
  simp only [get, List.getElem?_map]
  cases env[x]? <;> rfl

theorem gets_map (h : W → W') (env : List W) (xs : List Nat) : gets (env.map h) xs = (gets env xs).map (List.map h) := by
  induction xs with
  | nil => rfl
  | cons x xs ih =>
    simp only [gets, get_map, ih]
    cases get env x with
    | error e => rfl
    | ok w => cases gets env xs <;> rfl

/-- `h` translates the values of one transformation into those of another. -/
structure Hom (L : Rules V W) (L' : Rules V W') (h : W → W') (P : Prog V) : Prop where
  op : P.All fun p => ∀ ws, h (L.op p ws) = L'.op p (ws.map h)
  sow : ∀ w, h (L.back w (L.phys w)) = L'.back (h w) (L'.phys (h w))

theorem reapBy_hom (L : Rules V W) (L' : Rules V W') (h : W → W') (store : W' → X) (S : Settings) (P : Prog V)
    (hP : Hom L L' h P) (env : List W) (r : Reaps X) :
    reapBy L' store S P (env.map h) r = (reapBy L (store ∘ h) S P env r).map (fun q => (q.1.map h, q.2)) := by
  obtain ⟨hop, hsow⟩ := hP
  induction P generalizing env r with
  | done outs => simp only [reapBy, gets_map]; cases gets env outs <;> rfl
  | op p ins rest ih =>
    simp only [reapBy, gets_map]
    cases gets env ins with
    | error e => rfl
    | ok ws =>
      have := ih (env ++ [L.op p ws]) r hop.2
      rw [List.map_append, List.map_cons, List.map_nil, hop.1 ws] at this
      exact this
  | sow tag name mode x rest ih =>
    simp only [reapBy, get_map]
    cases get env x with
    | error e => rfl
    | ok w =>
      simp only [bind, Except.bind, Except.map, Function.comp]
      cases sowInto S r tag name mode (store (h w)) with
      | error e => rfl
      | ok r' =>
        have := ih (env ++ [L.back w (L.phys w)]) r' hop
        rw [List.map_append, List.map_cons, List.map_nil, hsow w] at this
        exact this
  | nest scope ins body rest ihb ihr =>
    simp only [reapBy, gets_map]
    cases gets env ins with
    | error e => rfl
    | ok ws =>
      simp only [bind, Except.bind, Except.map]
      rw [ihb ws [] hop.1]
      cases reapBy L (store ∘ h) S body ws [] with
      | error e => rfl
      | ok q =>
        simp only [Except.map]
        cases nestInto S r q.2 scope with
        | error e => rfl
        | ok r' =>
          have := ihr (env ++ q.1) r' hop.2
          rw [List.map_append] at this
          exact this

/-! ## vmap -/

/-- The value of a possibly mapped array in lane `i`, where `take d i x` is the slice `i` of `x` along axis `d`. -/
def lane (take : Nat → Nat → V → V) (i : Nat) (w : V × Option Nat) : V :=
  match w.2 with | some d => take d i w.1 | none => w.1

/-- The batching rules are right: in every lane they compute the primitive (JAX's contract). -/
def GoodBatch (take : Nat → Nat → V → V) (P : Prog V) : Prop :=
  P.All fun p => ∀ i ws, lane take i (p.batch ws) = p.run (ws.map (lane take i))

theorem All.imp {P Q : Prim V → Prop} (h : ∀ p, P p → Q p) : ∀ (A : Prog V), A.All P → A.All Q
  | .done _, _ => trivial
  | .op p _ rest, hA => ⟨h p hA.1, All.imp h rest hA.2⟩
  | .sow _ _ _ _ rest, hA => All.imp h rest hA
  | .nest _ _ body rest, hA => ⟨All.imp h body hA.1, All.imp h rest hA.2⟩

theorem vmap_hom (take : Nat → Nat → V → V) (P : Prog V) (hP : GoodBatch take P) (i : Nat) :
    Hom (vmapped V) (plain V) (lane take i) P :=
  ⟨All.imp (fun p hp ws => hp i ws) P hP, fun w => rfl⟩

/-- C66: reaping a `vmap`.  If reaping raises, reaping every lane raises the same error.  Otherwise there is a position of
the batch axis (or none) for every reaped leaf such that in every lane the outputs and the reaped values are those of
reaping the function in that lane. -/
theorem reap_vmap (take : Nat → Nat → V → V) (S : Settings) (P : Prog V) (hP : GoodBatch take P) (env : List (V × Option Nat)) :
    (∃ e, reapVmap S P env = .error e ∧ ∀ i, reap S P (env.map (lane take i)) = .error e) ∨
    (∃ outs, ∃ rs : Reaps (V × Option Nat), reapVmap S P env = .ok (outs, rs.mapVals Prod.fst) ∧
      ∀ i, reap S P (env.map (lane take i)) = .ok (outs.map (lane take i), rs.mapVals (lane take i))) := by
  have h1 : reapVmap S P env = (reapBy (vmapped V) id S P env []).map (fun q => (q.1, q.2.mapVals Prod.fst)) :=
    reapBy_store (vmapped V) id Prod.fst S P env []
  have h2 : ∀ i, reap S P (env.map (lane take i)) =
      (reapBy (vmapped V) id S P env []).map (fun q => (q.1.map (lane take i), q.2.mapVals (lane take i))) := by
    intro i
    have e1 := reapBy_hom (vmapped V) (plain V) (lane take i) (plain V).phys S P (vmap_hom take P hP i) env []
    have e2 := reapBy_store (vmapped V) id (lane take i) S P env []
    refine e1.trans ?_
    have e3 : reapBy (vmapped V) ((plain V).phys ∘ lane take i) S P env [] =
        (reapBy (vmapped V) id S P env []).map (fun q => (q.1, q.2.mapVals (lane take i))) := e2
    rw [e3]
    cases reapBy (vmapped V) id S P env [] <;> rfl
  cases hr : reapBy (vmapped V) id S P env [] with
  | error e => exact .inl ⟨e, by rw [h1, hr]; rfl, fun i => by rw [h2 i, hr]; rfl⟩
  | ok q => exact .inr ⟨q.1, q.2, by rw [h1, hr]; rfl, fun i => by rw [h2 i, hr]; rfl⟩

/-- C66: reaping does not change what the vmapped function returns. -/
theorem reapBy_outputs (L : Rules V W) (store : W → X) (S : Settings) (P : Prog V) (env : List W) (r : Reaps X) (q)
    (h : reapBy L store S P env r = .ok q) : runBy L P env = .ok q.1 := by
  induction P generalizing env r q with
  | done outs =>
    simp only [reapBy] at h
    cases ho : gets env outs with
    | error e => rw [ho] at h; simp [bind, Except.bind] at h
    | ok o => rw [ho] at h; simp [bind, Except.bind, pure, Except.pure] at h; subst h; exact ho
  | op p ins rest ih =>
    simp only [reapBy, runBy] at h ⊢
    cases ho : gets env ins with
    | error e => rw [ho] at h; simp [bind, Except.bind] at h
    | ok o => rw [ho] at h; exact ih _ _ _ h
  | sow tag name mode x rest ih =>
    simp only [reapBy, runBy] at h ⊢
    cases ho : get env x with
    | error e => rw [ho] at h; simp [bind, Except.bind] at h
    | ok w =>
      rw [ho] at h
      simp only [bind, Except.bind] at h ⊢
      cases hs : sowInto S r tag name mode (store w) with
      | error e => rw [hs] at h; simp at h
      | ok r' => rw [hs] at h; exact ih _ _ _ h
  | nest scope ins body rest ihb ihr =>
    simp only [reapBy, runBy] at h ⊢
    cases ho : gets env ins with
    | error e => rw [ho] at h; simp [bind, Except.bind] at h
    | ok ws =>
      rw [ho] at h
      simp only [bind, Except.bind] at h ⊢
      cases hb : reapBy L store S body ws [] with
      | error e => rw [hb] at h; simp at h
      | ok qb =>
        rw [hb] at h
        simp only at h
        rw [ihb _ _ _ hb]
        cases hn : nestInto S r qb.2 scope with
        | error e => rw [hn] at h; simp at h
        | ok r' => rw [hn] at h; exact ihr _ _ _ h

theorem plantBy_hom (L : Rules V W) (L' : Rules V W') (h : W → W') (S : Settings) (P : Prog V)
    (hP : Hom L L' h P) (env : List W) (pl pl' : Plants V) (pd : List String) (q)
    (hq : plantBy L S P env pl pd = .ok q) (hnone : ∀ p, pl p = none → pl' p = none)
    (hsome : ∀ e ∈ q.2, ∀ v, pl e.1 = some v → ∃ v', pl' e.1 = some v' ∧ L'.back (h e.2) v' = h (L.back e.2 v)) :
    plantBy L' S P (env.map h) pl' pd = .ok (q.1.map h, q.2.map fun e => (e.1, h e.2)) := by
  obtain ⟨hop, hsow⟩ := hP
  induction P generalizing env pl pl' pd q with
  | done outs =>
    simp only [plantBy, gets_map] at hq ⊢
    cases ho : gets env outs with
    | error e => rw [ho] at hq; simp [bind, Except.bind] at hq
    | ok o => rw [ho] at hq; simp [bind, Except.bind, pure, Except.pure] at hq; subst hq; rfl
  | op p ins rest ih =>
    simp only [plantBy, gets_map] at hq ⊢
    cases ho : gets env ins with
    | error e => rw [ho] at hq; simp [bind, Except.bind] at hq
    | ok ws =>
      rw [ho] at hq
      have := ih (env ++ [L.op p ws]) pl pl' pd q hq hnone hsome hop.2
      rw [List.map_append, List.map_cons, List.map_nil, hop.1 ws] at this
      exact this
  | sow tag name mode x rest ih =>
    simp only [plantBy, get_map] at hq ⊢
    cases ho : get env x with
    | error e => rw [ho] at hq; simp [bind, Except.bind] at hq
    | ok w =>
      rw [ho] at hq
      simp only [bind, Except.bind, Except.map] at hq ⊢
      have skip : ∀ pd, plantBy L S rest (env ++ [L.back w (L.phys w)]) pl pd = .ok q →
          plantBy L' S rest (env.map h ++ [L'.back (h w) (L'.phys (h w))]) pl' pd =
            .ok (q.1.map h, q.2.map fun e => (e.1, h e.2)) := by
        intro pd hq
        have := ih (env ++ [L.back w (L.phys w)]) pl pl' pd q hq hnone hsome hop
        rw [List.map_append, List.map_cons, List.map_nil, hsow w] at this
        exact this
      split at hq
      · simp at hq
      · rename_i hm
        rw [if_neg hm]
        cases hd : S.dispatch tag name with
        | drop => rw [hd] at hq; exact skip pd hq
        | forward => rw [hd] at hq; exact skip pd hq
        | handle =>
          rw [hd] at hq
          simp only at hq ⊢
          split at hq
          · simp at hq
          · rename_i hc
            rw [if_neg hc]
            cases hp : pl [name] with
            | none => rw [hp] at hq; rw [hnone _ hp]; exact skip pd hq
            | some v =>
              rw [hp] at hq
              simp only at hq
              cases hr : plantBy L S rest (env ++ [L.back w v]) pl (if mode.isClobber then pd else name :: pd) with
              | error e => rw [hr] at hq; simp at hq
              | ok q0 =>
                rw [hr] at hq
                simp only [pure, Except.pure, Except.ok.injEq] at hq
                subst hq
                obtain ⟨v', hv', hb⟩ := hsome ([name], w) (by simp) v hp
                rw [hv']
                have := ih (env ++ [L.back w v]) pl pl' _ q0 hr hnone
                  (fun e he => hsome e (by simp [he])) hop
                rw [List.map_append, List.map_cons, List.map_nil, ← hb] at this
                simp only [this]
                rfl
  | nest scope ins body rest ihb ihr =>
    simp only [plantBy, gets_map] at hq ⊢
    cases ho : gets env ins with
    | error e => rw [ho] at hq; simp [bind, Except.bind] at hq
    | ok ws =>
      rw [ho] at hq
      simp only [bind, Except.bind, Except.map] at hq ⊢
      cases hb : plantBy L S body ws (fun p => pl (scope :: p)) [] with
      | error e => rw [hb] at hq; simp at hq
      | ok qb =>
        rw [hb] at hq
        simp only at hq
        cases hr : plantBy L S rest (env ++ qb.1) pl pd with
        | error e => rw [hr] at hq; simp at hq
        | ok qr =>
          rw [hr] at hq
          simp only [pure, Except.pure, Except.ok.injEq] at hq
          subst hq
          have e1 := ihb ws (fun p => pl (scope :: p)) (fun p => pl' (scope :: p)) [] qb hb
            (fun p => hnone _) (fun e he => hsome (scope :: e.1, e.2) (by
              rw [List.mem_append, List.mem_map]; exact .inl ⟨e, he, rfl⟩)) hop.1
          have e2 := ihr (env ++ qb.1) pl pl' pd qr hr hnone
            (fun e he => hsome e (by simp [he])) hop.2
          rw [List.map_append] at e2
          rw [e1]
          simp only
          rw [e2]
          simp [pure, Except.pure, Function.comp_def]

/-- C66: planting into a `vmap`.  If the batch axis of every value that is replaced is where `D` says, planting into the
vmapped function is, in every lane, planting the lane's slice of the plants (along the axis that `D` says; the whole
value where the sown value is not mapped). -/
theorem plant_vmap (take : Nat → Nat → V → V) (S : Settings) (P : Prog V) (hP : GoodBatch take P)
    (env : List (V × Option Nat)) (pl : Plants V) (D : List String → Option Nat) (q)
    (hq : plantBy (vmapped V) S P env pl [] = .ok q) (hD : ∀ e ∈ q.2, e.2.2 = D e.1) (i : Nat) :
    ∃ log, plantBy (plain V) S P (env.map (lane take i)) (fun p => (pl p).map fun v => lane take i (v, D p)) [] =
      .ok (q.1.map (lane take i), log) := by
  refine ⟨_, plantBy_hom (vmapped V) (plain V) (lane take i) S P (vmap_hom take P hP i) env pl _ [] q hq
    (fun p hp => by rw [hp]; rfl) (fun e he v hv => ⟨lane take i (v, D e.1), by rw [hv]; rfl, ?_⟩)⟩
  simp [plain, vmapped, hD e he]

/-! ## jvp -/

theorem jvp_hom (P : Prog V) : Hom (jvped V) (plain V) Prod.fst P :=
  ⟨All.imp (fun p (_ : True) ws => rfl) P (by
    induction P with
    | done => trivial
    | op p ins rest ih => exact ⟨trivial, ih⟩
    | sow _ _ _ _ rest ih => exact ih
    | nest _ _ _ _ h1 h2 => exact ⟨h1, h2⟩), fun w => rfl⟩

/-- C67: reaping a `jvp` reaps exactly the primal values, whatever the tangents are; the primal outputs are those of
reaping the function, the output tangents are those of the `jvp` without reaping. -/
theorem reap_jvp (S : Settings) (P : Prog V) (env : List (V × V)) :
    reap S P (env.map Prod.fst) = (reapJvp S P env).map (fun q => (q.1.map Prod.fst, q.2)) ∧
      ∀ q, reapJvp S P env = .ok q → runBy (jvped V) P env = .ok q.1 :=
  ⟨reapBy_hom (jvped V) (plain V) Prod.fst (plain V).phys S P (jvp_hom P) env [],
    fun q hq => reapBy_outputs _ _ S P env [] q hq⟩

/-- C67: planting into a `jvp` plants the primals: the primal outputs are those of planting into the function. -/
theorem plant_jvp_primal (S : Settings) (P : Prog V) (env : List (V × V)) (pl : Plants V) (q)
    (hq : plantBy (jvped V) S P env pl [] = .ok q) :
    ∃ log, plantBy (plain V) S P (env.map Prod.fst) pl [] = .ok (q.1.map Prod.fst, log) :=
  ⟨_, plantBy_hom (jvped V) (plain V) Prod.fst S P (jvp_hom P) env pl pl [] q hq (fun _ h => h)
    (fun e _ v hv => ⟨v, hv, rfl⟩)⟩

end Verif.Harvest.Lift
