/-
C66 with control flow: planting into a vmapped function.
-/
import Verif.Harvest.VmapProps
import Verif.Harvest.WitnessPlant

namespace Verif.Harvest

/-- Lane `i` of a dictionary of plants. -/
def Dict.lane {V : Type} {n : Nat} (i : Fin n) (P : Dict (Fin n → V)) : Dict V := fun k => (P k).map (·.lane i)

theorem inScope_lane {V : Type} {n : Nat} (i : Fin n) (P : Dict (Fin n → V)) (s : String) :
    inScope (Dict.lane i P) s = Dict.lane i (inScope P s) := by
  funext k
  simp only [inScope, Dict.lane]
  rcases P s with _ | v
  · rfl
  · cases v <;> simp [Val.lane, laneO_eq]

theorem subPlants_eq_inScope {V : Type} (P : Dict V) (s : String) : subPlants P s = inScope P s := by
  simp only [subPlants, inScope]
  rcases P s with _ | v
  · rfl
  · cases v <;> rfl

theorem entry_lane {V : Type} {n : Nat} (i : Fin n) (t : Nat) (v : Val (Fin n → V)) :
    (v.lane i).entry t = (v.entry t).map (·.lane i) := by
  cases v <;> simp [Val.lane, Val.entry, laneL_eq]

theorem hasEntries_lane {V : Type} {n : Nat} (i : Fin n) (len : Nat) (v : Val (Fin n → V)) :
    (v.lane i).hasEntries len ↔ v.hasEntries len := by
  cases v <;> simp [Val.lane, Val.hasEntries, laneL_eq]

theorem iterPlant_lane {V : Type} {n : Nat} (S : Settings) {ss ss' : List Site} (h : ∀ k, declares S k ss = declares S k ss')
    (i : Fin n) (P : Dict (Fin n → V)) (t : Nat) :
    iterPlant S ss' (Dict.lane i P) t = Dict.lane i (iterPlant S ss P t) := by
  funext k
  simp only [iterPlant, Dict.lane, h k]
  split
  · rcases P k with _ | v
    · rfl
    · simp [entry_lane]
  · rfl

/-- A program that takes no part in the harvest does not see the plants. -/
theorem quiet_ptrace {V A B : Type} {S : Settings} (fuel : Nat) (p : Prog V A B) : Quiet S p → ∀ (P : Dict V) (a : A) (b : B)
    (l : Log V), ptrace S fuel p P a = .ok (b, l) → ∃ l', trace fuel p a = .ok (b, l') := by
  induction p with
  | pure f => intro _ P a b l h; exact ⟨l, h⟩
  | seq p q ihp ihq =>
    intro hq P a b l h
    simp only [ptrace, trace] at h ⊢
    rcases h1 : ptrace S fuel p P a with e | ⟨b1, l1⟩ <;> rw [h1] at h
    · simp at h
    simp only [except_bind_ok] at h
    rcases h2 : ptrace S fuel q P b1 with e | ⟨b2, l2⟩ <;> rw [h2] at h
    · simp at h
    simp only [except_bind_ok, except_pure, Except.ok.injEq, Prod.mk.injEq] at h
    obtain ⟨rfl, rfl⟩ := h
    obtain ⟨l1', e1⟩ := ihp hq.1 P a b1 l1 h1
    obtain ⟨l2', e2⟩ := ihq hq.2 P b1 b2 l2 h2
    exact ⟨l1' ++ l2', by simp only [e1, except_bind_ok, e2, except_pure]⟩
  | sow tag name mode pre pred post =>
    intro hq P a b l h
    have hq' : S.active tag name = false := hq
    simp only [ptrace, trace, hq', Bool.false_eq_true, if_false] at h ⊢
    refine ⟨[.sow tag name mode (pre a) (pred a)], ?_⟩
    split at h <;> · simp only [Except.ok.injEq, Prod.mk.injEq] at h; rw [h.1]
  | nest scope pre body post ih =>
    intro hq P a b l h
    simp only [ptrace, trace] at h ⊢
    rcases h1 : ptrace S fuel body (inScope P scope) (pre a) with e | ⟨b1, l1⟩ <;> rw [h1] at h <;> simp at h
    obtain ⟨rfl, rfl⟩ := h
    obtain ⟨l1', e1⟩ := ih hq.2 _ _ b1 l1 h1
    exact ⟨_, by rw [e1]; rfl⟩
  | inline pre body post ih =>
    intro hq P a b l h
    simp only [ptrace, trace] at h ⊢
    rcases h1 : ptrace S fuel body P (pre a) with e | ⟨b1, l1⟩ <;> rw [h1] at h <;> simp at h
    obtain ⟨rfl, rfl⟩ := h
    obtain ⟨l1', e1⟩ := ih hq _ _ b1 l1 h1
    exact ⟨_, by rw [e1]; rfl⟩
  | call _ pre body post ih =>
    intro hq P a b l h
    simp only [ptrace, trace] at h ⊢
    rcases h1 : ptrace S fuel body P (pre a) with e | ⟨b1, l1⟩ <;> rw [h1] at h <;> simp at h
    obtain ⟨rfl, rfl⟩ := h
    obtain ⟨l1', e1⟩ := ih hq _ _ b1 l1 h1
    exact ⟨_, by rw [e1]; rfl⟩
  | cond j sel pre br post ih =>
    intro hq P a b l h
    simp only [ptrace, trace] at h ⊢
    rcases h1 : ptrace S fuel (br (sel a)) P (pre a) with e | ⟨b1, l1⟩ <;> rw [h1] at h <;> simp at h
    obtain ⟨rfl, rfl⟩ := h
    obtain ⟨l1', e1⟩ := ih _ (hq _) _ _ b1 l1 h1
    exact ⟨_, by rw [e1]; rfl⟩
  | scan rev pre body post ih =>
    intro hq P a b l h
    simp only [ptrace, trace] at h ⊢
    split at h
    · generalize hm : scanDir rev _ _ _ = u at h
      rcases u with e | ⟨k1, ys⟩ <;> simp at h
      obtain ⟨rfl, rfl⟩ := h
      obtain ⟨zs, hz1, hz2⟩ := scanDir_lane rev id (fun x => x.1) (TY := fun y z => z.1 = y.1)
        (g := fun kx => (trace fuel body kx).map (fun r => (r.1.1, (r.1.2, r.2))))
        (by
          intro k x k2 y hf
          generalize hP : iterPlant S (sites body) P x.2 = Pt at hf
          rcases h1 : ptrace S fuel body Pt (k, x.1) with e | ⟨b1, L1⟩ <;> simp only [h1] at hf <;> simp at hf
          obtain ⟨rfl, rfl⟩ := hf
          obtain ⟨l1, e1⟩ := ih hq _ _ b1 L1 h1
          exact ⟨(b1.2, l1), by simp only [id, e1]; rfl, rfl⟩) _ _ _ _ hm
      have e : (pre a).2.zipIdx.map (fun x => x.1) = (pre a).2 := List.zipIdx_map_fst _ _
      rw [e] at hz1
      have hout : zs.map (·.1) = ys.map (·.1) := by
        clear hz1 hm
        induction hz2 with
        | nil => rfl
        | cons h _ ih => simp only [List.map_cons, ih, h]
      refine ⟨[.scan rev (sites body) (zs.map (·.2))], ?_⟩
      simp only [id] at hz1
      rw [hz1]
      simp only [except_map_ok, hout]
    · simp at h
  | whileL pre test body post iht ihb =>
    intro hq P a b l h
    simp only [ptrace, trace] at h ⊢
    generalize hm : loopT _ _ _ _ = u at h
    rcases u with e | ⟨k1, Ls, Lt⟩ <;> simp at h
    obtain ⟨rfl, rfl⟩ := h
    obtain ⟨ls, lt, e1, -⟩ := loopT_lane id (TL := fun _ _ => True)
      (c' := fun k => trace fuel test k) (b' := fun k => trace fuel body k)
      (by intro k t l hc; exact ⟨l, hc⟩)
      (by
        intro k k2 l hb
        obtain ⟨l', e⟩ := ihb hq.2 P k k2 l hb
        exact ⟨l', e, trivial⟩) _ _ _ hm
    exact ⟨_, by simp only [id] at e1; rw [e1]; rfl⟩

theorem ptrace_allBranches {V X Y : Type} {S : Settings} (fuel : Nat) {P : Dict V} : ∀ {m : Nat} {br : Fin m → Prog V X Y}
    {x : X} {ys : Fin m → Y} {l : Log V}, ptrace S fuel (allBranches br) P x = .ok (ys, l) →
    ∀ i, ∃ li, ptrace S fuel (br i) P x = .ok (ys i, li)
  | 0, _, _, _, _, _, i => i.elim0
  | m + 1, br, x, ys, l, h, i => by
    simp only [allBranches, ptrace, id] at h
    rcases h1 : ptrace S fuel (br 0) P x with e | ⟨y, l1⟩ <;> rw [h1] at h
    · simp at h
    simp only [except_map_ok, except_bind_ok] at h
    rcases h2 : ptrace S fuel (allBranches fun i => br i.succ) P x with e | ⟨ys', l2⟩ <;> rw [h2] at h
    · simp at h
    simp only [except_map_ok, except_bind_ok, except_pure, Except.ok.injEq, Prod.mk.injEq] at h
    obtain ⟨rfl, rfl⟩ := h
    cases i using Fin.cases with
    | zero => exact ⟨l1, h1⟩
    | succ i => exact ptrace_allBranches fuel h2 i

/-- Every lane of a planted execution of the vmapped program is an execution of the program with that lane of the plants. -/
theorem ptrace_vm {V A B : Type} {S : Settings} (fuel n : Nat) (i : Fin (n + 1)) (p : Prog V A B) : ∀ (fl : Flags p) {c},
    QuietBatched S p fl →
    Regular S c p → ∀ (P : Dict (Fin (n + 1) → V)) (a : Fin (n + 1) → A) (b : Fin (n + 1) → B) (L : Log (Fin (n + 1) → V)),
    ptrace S fuel (vm n p fl) P a = .ok (b, L) → ∃ l, ptrace S fuel p (Dict.lane i P) (a i) = .ok (b i, l) := by
  induction p with
  | pure f =>
    intro fl c _ _ P a b L ht
    simp only [vm, ptrace] at ht ⊢
    rcases h1 : allLanes (fun i => f (a i)) with e | b1 <;> rw [h1] at ht <;> simp at ht
    obtain ⟨rfl, rfl⟩ := ht
    exact ⟨[], by rw [allLanes_ok.1 h1 i]; rfl⟩
  | seq p q ihp ihq =>
    intro fl c h hr P a b L ht
    simp only [vm, ptrace] at ht ⊢
    rcases h1 : ptrace S fuel (vm n p fl.1) P a with e | ⟨b1, L1⟩ <;> rw [h1] at ht
    · simp at ht
    simp only [except_bind_ok] at ht
    rcases h2 : ptrace S fuel (vm n q fl.2) P b1 with e | ⟨b2, L2⟩ <;> rw [h2] at ht
    · simp at ht
    simp only [except_bind_ok, except_pure, Except.ok.injEq, Prod.mk.injEq] at ht
    obtain ⟨rfl, rfl⟩ := ht
    obtain ⟨l1, e1⟩ := ihp _ h.1 hr.1 P a b1 L1 h1
    obtain ⟨l2, e2⟩ := ihq _ h.2 hr.2 P b1 b2 L2 h2
    exact ⟨l1 ++ l2, by simp only [e1, except_bind_ok, e2, except_pure]⟩
  | sow tag name mode pre pred post =>
    intro fl c h hr P a b L ht
    simp only [vm, ptrace] at ht ⊢
    generalize hm : allLanes _ = vs at ht
    rcases vs with e | vs
    · simp at ht
    have hi := allLanes_ok.1 hm i
    rcases hp : pre (a i) with v | d | vs' | _ <;> rw [hp] at hi <;> simp at hi
    subst hi
    simp only [except_map_ok, except_bind_ok] at ht
    by_cases hact : S.active tag name = true
    · simp only [hact, if_true, Dict.lane] at ht ⊢
      rcases hP : P name with _ | v <;> simp only [hP, except_bind_ok, except_pure, Except.ok.injEq, Prod.mk.injEq,
        Option.map_some, Option.map_none] at ht ⊢
      · obtain ⟨rfl, -⟩ := ht
        exact ⟨_, rfl, rfl⟩
      · obtain ⟨rfl, -⟩ := ht
        exact ⟨_, rfl, rfl⟩
    · simp only [hact, Bool.false_eq_true, if_false] at ht ⊢
      split at ht
      · rename_i hh
        rw [if_pos hh]
        simp only [except_bind_ok, except_pure, Except.ok.injEq, Prod.mk.injEq] at ht ⊢
        obtain ⟨rfl, -⟩ := ht
        exact ⟨_, rfl, rfl⟩
      · rename_i hh
        rw [if_neg hh]
        simp only [except_bind_ok, except_pure, Except.ok.injEq, Prod.mk.injEq] at ht ⊢
        obtain ⟨rfl, -⟩ := ht
        exact ⟨_, rfl, rfl⟩
  | nest scope pre body post ih =>
    intro fl c h hr P a b L ht
    simp only [vm, ptrace] at ht ⊢
    rcases h1 : ptrace S fuel (vm n body fl) (inScope P scope) (fun i => pre (a i)) with e | ⟨b1, L1⟩ <;>
      rw [h1] at ht <;> simp at ht
    obtain ⟨rfl, rfl⟩ := ht
    obtain ⟨l1, e1⟩ := ih _ h hr.1 _ _ b1 L1 h1
    exact ⟨_, by rw [inScope_lane, e1]; rfl⟩
  | inline pre body post ih =>
    intro fl c h hr P a b L ht
    simp only [vm, ptrace] at ht ⊢
    rcases h1 : ptrace S fuel (vm n body fl) P (fun i => pre (a i)) with e | ⟨b1, L1⟩ <;> rw [h1] at ht <;> simp at ht
    obtain ⟨rfl, rfl⟩ := ht
    obtain ⟨l1, e1⟩ := ih _ h hr P _ b1 L1 h1
    exact ⟨l1, by rw [e1]; rfl⟩
  | call _ pre body post ih =>
    intro fl c h hr P a b L ht
    simp only [vm, ptrace] at ht ⊢
    rcases h1 : ptrace S fuel (vm n body fl) P (fun i => pre (a i)) with e | ⟨b1, L1⟩ <;> rw [h1] at ht <;> simp at ht
    obtain ⟨rfl, rfl⟩ := ht
    obtain ⟨l1, e1⟩ := ih _ h hr P _ b1 L1 h1
    exact ⟨l1, by rw [e1]; rfl⟩
  | cond j sel pre br post ih =>
    intro fl c h hr P a b L ht
    obtain ⟨bt, fl⟩ := fl
    cases bt
    · simp only [vm, ptrace, Bool.false_eq_true, if_false] at ht ⊢
      by_cases hs : everyLane (fun i => sel (a i) == sel (a 0)) = true
      · rw [if_pos hs] at ht
        replace hs : ∀ i, sel (a i) = sel (a 0) := fun i => by simpa using everyLane_iff.1 hs i
        simp only [except_map_ok, except_bind_ok] at ht
        rcases h1 : ptrace S fuel (vm n (br (sel (a 0))) (fl (sel (a 0)))) P (fun i => pre (a i)) with e | ⟨b1, L1⟩ <;>
          rw [h1] at ht <;> simp at ht
        obtain ⟨rfl, rfl⟩ := ht
        obtain ⟨l1, e1⟩ := ih _ _ (h.2 _) (hr _) P _ b1 L1 h1
        exact ⟨l1, by rw [hs i, e1]; rfl⟩
      · rw [if_neg hs] at ht
        simp at ht
    · have hq := h.1 rfl
      simp only [vm, if_true, ptrace] at ht ⊢
      rcases h1 : ptrace S fuel (allBranches fun k => vm n (br k) (fl k)) P (fun i => pre (a i)) with e | ⟨b1, L1⟩ <;>
        rw [h1] at ht <;> simp at ht
      obtain ⟨rfl, rfl⟩ := ht
      obtain ⟨L2, h2⟩ := ptrace_allBranches fuel h1 (sel (a i))
      obtain ⟨l1, e1⟩ := ih _ _ (h.2 _) (hr _) P _ _ L2 h2
      exact ⟨l1, by rw [e1]; rfl⟩
  | scan rev pre body post ih =>
    intro fl
    change Flags body at fl
    intro c h hr P a b L ht
    simp only [vm, ptrace] at ht ⊢
    by_cases hs : everyLane (fun i => (pre (a i)).2.length == (pre (a 0)).2.length) = true
    · rw [if_pos hs] at ht
      replace hs : ∀ i, (pre (a i)).2.length = (pre (a 0)).2.length := fun i => by simpa using everyLane_iff.1 hs i
      simp only [except_map_ok, except_bind_ok, sites] at ht
      have hd := declares_vm n body fl h hr.1
      by_cases hent : entriesOk S (sites (vm n body fl)) P (transposed fun i => (pre (a i)).2).length
      · simp only [hent, if_true] at ht
        rw [if_pos (by
          intro k v hk hv
          simp only [Dict.lane, Option.map_eq_some_iff] at hv
          obtain ⟨w, hw, rfl⟩ := hv
          have hw' := hent k w ((hd k).trans hk) hw
          rw [hasEntries_lane]
          have hlen : (transposed fun i => (pre (a i)).2).length = (pre (a i)).2.length := by
            rw [hs i]; simp [transposed]
          rw [← hlen]
          exact hw')]
        generalize hm : scanDir rev _ _ _ = u at ht
        rcases u with e | ⟨k1, ys⟩ <;> simp at ht
        obtain ⟨rfl, rfl⟩ := ht
        obtain ⟨zs, hz1, hz2⟩ := scanDir_lane rev (fun k => k i) (fun x => (x.1 i, x.2))
          (TY := fun y z => z.1 = y.1 i)
          (g := fun kx : _ × _ × Nat => (ptrace S fuel body (iterPlant S (sites body) (Dict.lane i P) kx.2.2)
            (kx.1, kx.2.1)).map (fun r => (r.1.1, (r.1.2, r.2))))
          (by
            intro k x k2 y hf
            simp only at hf
            generalize hP : iterPlant S (sites (vm n body fl)) P x.2 = Pt at hf
            rcases h1 : ptrace S fuel (vm n body fl) Pt (fun i => (k i, x.1 i)) with e | ⟨b1, L1⟩ <;> simp only [h1] at hf <;>
              simp at hf
            obtain ⟨rfl, rfl⟩ := hf
            obtain ⟨l1, e1⟩ := ih fl h hr.1 Pt _ b1 L1 h1
            subst hP
            refine ⟨((b1 i).2, l1), ?_, rfl⟩
            have e : iterPlant S (sites body) (Dict.lane i P) x.2 = _ := iterPlant_lane S hd i P x.2
            simp only [e]
            have e1' : ptrace S fuel body (Dict.lane i (iterPlant S (sites (vm n body fl)) P x.2)) (k i, x.1 i)
              = .ok (b1 i, l1) := e1
            rw [e1']
            rfl) _ _ _ _ hm
        have e : ((transposed fun i => (pre (a i)).2).zipIdx).map (fun x => (x.1 i, x.2)) = (pre (a i)).2.zipIdx := by
          have e2 := transposed_lane (xs := fun i => (pre (a i)).2) hs i
          conv => rhs; rw [← e2]
          rw [List.zipIdx_map]
          rfl
        rw [e] at hz1
        have hout : zs.map (·.1) = ys.map (fun y => y.1 i) := by
          clear hz1 hm
          induction hz2 with
          | nil => rfl
          | cons h _ ih => simp only [List.map_cons, ih, h]
        exact ⟨_, by rw [hz1]; simp only [except_map_ok, hout]; rfl⟩
      · simp [hent] at ht
    · rw [if_neg hs] at ht
      simp at ht
  | whileL pre test body post iht ihb =>
    intro fl c h hr P a b L ht
    obtain ⟨bt, flt, flb⟩ := fl
    have hrt : Regular S (fun _ => false) test := Quiet.regular _ hr.2 (fun _ => rfl)
    cases bt
    · simp only [vm, ptrace, Bool.false_eq_true, if_false] at ht ⊢
      generalize hm : loopT _ _ _ _ = u at ht
      rcases u with e | ⟨k1, Ls, Lt⟩ <;> simp at ht
      obtain ⟨rfl, rfl⟩ := ht
      obtain ⟨ls, lt, e1, -⟩ := loopT_lane (fun k => k i) (TL := fun _ _ => True)
        (c' := fun k => trace fuel test k) (b' := fun k => ptrace S fuel body (Dict.lane i P) k)
        (by
          intro k t l hc
          simp only [trace] at hc
          rcases h1 : trace fuel (vm n test flt) k with e | ⟨ts, L1⟩ <;> rw [h1] at hc
          · simp at hc
          simp only [except_bind_ok] at hc
          by_cases hs : everyLane (fun i => ts i == ts 0) = true
          · rw [if_pos hs] at hc
            replace hs : ∀ i, ts i = ts 0 := fun i => by simpa using everyLane_iff.1 hs i
            simp only [except_map_ok, except_bind_ok, except_pure, Except.ok.injEq, Prod.mk.injEq] at hc
            obtain ⟨l1, e1, -⟩ := trace_vm fuel n test flt h.2.1 hrt k ts L1 h1 i
            exact ⟨l1, by rw [e1, hs i, hc.1]⟩
          · rw [if_neg hs] at hc
            simp at hc)
        (by
          intro k k2 l hb
          obtain ⟨l', e⟩ := ihb flb h.2.2 hr.1 P k k2 l hb
          exact ⟨l', e, trivial⟩) _ _ _ hm
      exact ⟨_, by rw [e1]; rfl⟩
    · simp only [vm, ptrace, if_true, id] at ht ⊢
      generalize hm : loopT _ _ _ _ = u at ht
      rcases u with e | ⟨k1, Ls, Lt⟩ <;> simp at ht
      obtain ⟨rfl, rfl⟩ := ht
      have hstep : ∀ k k2 l, (do
            let r ← (ptrace S fuel (vm n test flt) P k).map (fun r => ((k, r.1), r.2))
            let s ← (ptrace S fuel (vm n body flb) P r.1.1).map
              (fun s => (fun i => if r.1.2 i then s.1 i else r.1.1 i, s.2))
            pure (s.1, r.2 ++ s.2) : Except RErr ((Fin (n + 1) → _) × Log (Fin (n + 1) → V))) = .ok (k2, l) →
          ∃ t lt, trace fuel test (k i) = .ok (t, lt) ∧
            (t = false → k2 i = k i) ∧ (t = true → ∃ lb, ptrace S fuel body (Dict.lane i P) (k i) = .ok (k2 i, lb)) := by
        intro k k2 l hb
        rcases h1 : ptrace S fuel (vm n test flt) P k with e | ⟨ts, L1⟩ <;> rw [h1] at hb
        · simp at hb
        simp only [except_map_ok, except_bind_ok] at hb
        rcases h2 : ptrace S fuel (vm n body flb) P k with e | ⟨k3, L2⟩ <;> rw [h2] at hb
        · simp at hb
        simp only [except_map_ok, except_bind_ok, except_pure, Except.ok.injEq, Prod.mk.injEq] at hb
        obtain ⟨rfl, rfl⟩ := hb
        obtain ⟨l0, e0⟩ := iht flt h.2.1 hrt P k ts L1 h1
        obtain ⟨l1, e1⟩ := quiet_ptrace fuel test hr.2 _ _ _ _ e0
        obtain ⟨l2, e2⟩ := ihb flb h.2.2 hr.1 P k k3 L2 h2
        refine ⟨ts i, l1, e1, fun ht => by simp [ht], fun ht => ⟨l2, by simp [ht, e2]⟩⟩
      obtain ⟨s, hs⟩ := loopT_until (fun k => k i)
        (c' := fun k => trace fuel test k) (b' := fun k => ptrace S fuel body (Dict.lane i P) k)
        (by
          intro k t l hc
          simp only [trace] at hc
          rcases h1 : trace fuel (vm n test flt) k with e | ⟨ts, L1⟩ <;> rw [h1] at hc
          · simp at hc
          simp only [except_map_ok, except_bind_ok, except_pure, Except.ok.injEq, Prod.mk.injEq] at hc
          obtain ⟨l1, e1, -⟩ := trace_vm fuel n test flt h.2.1 hrt k ts L1 h1 i
          refine ⟨ts i, l1, e1, fun ht => ?_⟩
          rw [← hc.1] at ht
          rcases hti : ts i with _ | _
          · rfl
          · rw [anyLane_iff.2 ⟨i, hti⟩] at ht
            cases ht)
        (by
          intro k k2 l hb ⟨l', hf⟩
          obtain ⟨t, lt, e1, h1, -⟩ := hstep k k2 l hb
          rw [e1] at hf
          simp only [Except.ok.injEq, Prod.mk.injEq] at hf
          exact h1 hf.1)
        (by
          intro k k2 l hb ⟨l', hf⟩
          obtain ⟨t, lt, e1, -, h1⟩ := hstep k k2 l hb
          rw [e1] at hf
          simp only [Except.ok.injEq, Prod.mk.injEq] at hf
          exact h1 hf.1) _ _ _ hm
      exact ⟨_, by rw [hs]; rfl⟩

/-! ### Static checks -/

theorem AllSows.allBranches {V X Y : Type} {t : Bool} {R : String → String → Mode → Prop} {N : String → Prop} :
    ∀ {m : Nat} {br : Fin m → Prog V X Y}, (∀ i, AllSows t R N (br i)) → AllSows t R N (allBranches br)
  | 0, _, _ => trivial
  | _ + 1, _, h => ⟨h 0, AllSows.allBranches (fun i => h i.succ)⟩

theorem AllSows.vm {V A B : Type} {R : String → String → Mode → Prop} {N : String → Prop} (n : Nat) (p : Prog V A B) :
    ∀ (fl : Flags p), AllSows true R N p → AllSows true R N (vm n p fl) := by
  induction p with
  | pure f => intro fl _; trivial
  | seq p q ihp ihq => intro fl h; exact ⟨ihp _ h.1, ihq _ h.2⟩
  | sow tag name mode pre pred post => intro fl h; exact ⟨trivial, h⟩
  | nest scope pre body post ih => intro fl h; exact ⟨h.1, ih _ h.2⟩
  | inline pre body post ih => intro fl h; exact ih _ h
  | call _ pre body post ih => intro fl h; exact ih _ h
  | cond j sel pre br post ih =>
    intro fl h
    obtain ⟨b, fl⟩ := fl
    cases b
    · exact ⟨trivial, fun i => ih i _ (h i)⟩
    · exact AllSows.allBranches (fun i => ih i _ (h i))
  | scan rev pre body post ih => intro fl h; exact ⟨trivial, ih _ h⟩
  | whileL pre test body post iht ihb =>
    intro fl h
    obtain ⟨b, flt, flb⟩ := fl
    have ht := iht flt (h.1 rfl)
    have hb := ihb flb h.2
    cases b
    · exact ⟨fun _ => ⟨ht, trivial⟩, hb⟩
    · exact ⟨fun _ => ⟨ht, trivial⟩, ht, hb⟩

theorem AllSows.false_of_true {V A B : Type} {R : String → String → Mode → Prop} {N : String → Prop} (p : Prog V A B) :
    AllSows true R N p → AllSows false R N p := by
  induction p with
  | pure f => intro _; trivial
  | seq p q ihp ihq => intro h; exact ⟨ihp h.1, ihq h.2⟩
  | sow tag name mode pre pred post => intro h; exact h
  | nest scope pre body post ih => intro h; exact ⟨h.1, ih h.2⟩
  | inline pre body post ih => intro h; exact ih h
  | call _ pre body post ih => intro h; exact ih h
  | cond j sel pre br post ih => intro h i; exact ih i (h i)
  | scan rev pre body post ih => intro h; exact ih h
  | whileL pre test body post iht ihb => intro h; exact ⟨fun hf => absurd hf (by decide), ihb h.2⟩

/-- Planting checks of a program that takes no part in the harvest do not depend on the plants. -/
theorem quiet_plantCheck_ok {V A B : Type} {S : Settings} (p : Prog V A B) : Quiet S p → ∀ {P0 : Dict V}
    {st0 st1 : List String}, plantCheck S p P0 st0 = .ok st1 → st1 = st0 ∧ ∀ P st, plantCheck S p P st = .ok st := by
  induction p with
  | pure f =>
    intro _ P0 st0 st1 h
    simp only [plantCheck, Except.ok.injEq] at h
    exact ⟨h.symm, fun _ _ => rfl⟩
  | seq p q ihp ihq =>
    intro hq P0 st0 st1 h
    simp only [plantCheck] at h ⊢
    rcases h1 : plantCheck S p P0 st0 with e | st <;> rw [h1] at h
    · simp at h
    simp only [except_bind_ok] at h
    obtain ⟨rfl, hp⟩ := ihp hq.1 h1
    obtain ⟨rfl, hq⟩ := ihq hq.2 h
    exact ⟨rfl, fun P st => by rw [hp P st]; exact hq P st⟩
  | sow tag name mode pre pred post =>
    intro hq P0 st0 st1 h
    have h' : S.active tag name = false := hq
    simp only [plantCheck] at h ⊢
    by_cases hi : mode = .invalid
    · simp [hi] at h
    · have hd : S.dispatch tag name ≠ .handle := dispatch_ne_handle.2 h'
      rw [if_neg hi] at h
      rcases hd' : S.dispatch tag name <;> simp_all
  | nest scope pre body post ih =>
    intro hq P0 st0 st1 h
    simp only [plantCheck] at h ⊢
    rcases h1 : plantCheck S body (subPlants P0 scope) [] with e | st <;> rw [h1] at h
    · simp at h
    simp only [except_bind_ok, except_pure, Except.ok.injEq] at h
    obtain ⟨-, hp⟩ := ih hq.2 h1
    exact ⟨h.symm, fun P st => by rw [hp]; rfl⟩
  | inline pre body post ih => intro hq P0 st0 st1 h; exact ih hq h
  | call kind pre body post ih =>
    intro hq P0 st0 st1 h
    have hgen : ∀ {st1}, (do
          let _ ← plantCheck S body P0 []
          pure st0 : Except Err (List String)) = .ok st1 → st1 = st0 ∧ ∀ P (st : List String), (do
          let _ ← plantCheck S body P []
          pure st : Except Err (List String)) = .ok st := by
      intro st1 h
      rcases h1 : plantCheck S body P0 [] with e | st <;> rw [h1] at h
      · simp at h
      simp only [except_bind_ok, except_pure, Except.ok.injEq] at h
      obtain ⟨-, hp⟩ := ih hq h1
      exact ⟨h.symm, fun P st => by rw [hp]; rfl⟩
    cases kind
    all_goals first
      | exact ih hq h
      | exact hgen h
  | cond j sel pre br post ih =>
    intro hq P0 st0 st1 h
    simp only [plantCheck] at h ⊢
    rcases h1 : metaOf S (br 0) [] with e | m <;> rw [h1] at h
    · simp at h
    simp only [except_bind_ok] at h ⊢
    rcases h2 : (List.finRange (j + 1)).mapM (fun i => metaOf S (br i) []) with e | ms <;> rw [h2] at h
    · simp at h
    simp only [except_bind_ok] at h ⊢
    rcases h3 : metaCond m ms with e | u <;> rw [h3] at h
    · simp at h
    simp only [except_bind_ok] at h ⊢
    rcases h4 : (List.finRange (j + 1)).mapM (fun i => plantCheck S (br i) P0 []) with e | sts <;> rw [h4] at h
    · simp at h
    simp only [except_bind_ok, except_pure, Except.ok.injEq] at h
    refine ⟨h.symm, fun P st => ?_⟩
    rw [mapM_const (b := ([] : List String))]
    · rfl
    · intro i _
      obtain ⟨b, -, hb⟩ := mapM_ok_mem h4 i (List.mem_finRange i)
      exact (ih i (hq i) hb).2 P []
  | scan rev pre body post ih =>
    intro hq P0 st0 st1 h
    simp only [plantCheck] at h ⊢
    rcases h1 : metaOf S body [] with e | m <;> rw [h1] at h
    · simp at h
    simp only [except_bind_ok] at h ⊢
    rcases h2 : m.find? (fun e => e.2 == .strict) with _ | e <;> simp only [h2] at h ⊢
    · rcases h3 : plantCheck S body (scanPlants m P0) [] with e | st <;> rw [h3] at h
      · simp at h
      simp only [except_bind_ok, except_pure, Except.ok.injEq] at h
      obtain ⟨-, hp⟩ := ih hq h3
      exact ⟨h.symm, fun P st => by rw [hp]; rfl⟩
    · simp at h
  | whileL pre test body post iht ihb =>
    intro hq P0 st0 st1 h
    simp only [plantCheck] at h ⊢
    rcases h1 : metaOf S body [] with e | m <;> rw [h1] at h
    · simp at h
    simp only [except_bind_ok] at h ⊢
    rcases h2 : metaWhile m with e | u <;> rw [h2] at h
    · simp at h
    simp only [except_bind_ok] at h ⊢
    rcases h3 : plantCheck S body P0 [] with e | st <;> rw [h3] at h
    · simp at h
    simp only [except_bind_ok, except_pure, Except.ok.injEq] at h
    obtain ⟨-, hp⟩ := ihb hq.2 h3
    exact ⟨h.symm, fun P st => by rw [hp]; rfl⟩

theorem quiet_plantCheck_valid {V A B : Type} {S : Settings} (p : Prog V A B) : Quiet S p →
    AllSows true (fun _ _ mode => mode ≠ .invalid) (fun _ => True) p → ∀ P st, plantCheck S p P st = .ok st := by
  induction p with
  | pure f => intro _ _ P st; rfl
  | seq p q ihp ihq =>
    intro h hv P st
    simp only [plantCheck]
    rw [ihp h.1 hv.1 P st]
    exact ihq h.2 hv.2 P st
  | sow tag name mode pre pred post =>
    intro h hv P st
    have h' : S.active tag name = false := h
    have hv' : mode ≠ .invalid := hv
    simp only [plantCheck]
    rw [if_neg hv']
    have hd : S.dispatch tag name ≠ .handle := dispatch_ne_handle.2 h'
    rcases hd' : S.dispatch tag name <;> simp_all
  | nest scope pre body post ih =>
    intro h hv P st
    simp only [plantCheck, ih h.2 hv.2]
    rfl
  | inline pre body post ih => intro h hv P st; exact ih h hv P st
  | call kind pre body post ih =>
    intro h hv P st
    cases kind <;> simp only [plantCheck, ih h hv] <;> rfl
  | cond j sel pre br post ih =>
    intro h hv P st
    simp only [plantCheck, ih _ (h _) (hv _), quiet_meta_valid _ (h _) (hv _), except_bind_ok]
    rw [mapM_const (b := ([] : Meta)) (fun i _ => rfl), mapM_const (b := ([] : List String)) (fun i _ => rfl)]
    simp only [except_bind_ok]
    rw [metaCond_nil (by simp)]
    rfl
  | scan rev pre body post ih =>
    intro h hv P st
    simp only [plantCheck, ih h hv]
    have e : metaOf S body [] = .ok [] := quiet_meta_valid body h hv []
    rw [e]
    rfl
  | whileL pre test body post iht ihb =>
    intro h hv P st
    simp only [plantCheck, ihb h.2 hv.2, quiet_meta_valid _ h.2 hv.2]
    rfl

theorem allBranches_plantCheck {V X Y : Type} {S : Settings} {P : Dict V} : ∀ {m : Nat} {br : Fin m → Prog V X Y},
    (∀ i st, plantCheck S (br i) P st = .ok st) → ∀ st, plantCheck S (allBranches br) P st = .ok st
  | 0, _, _, _ => rfl
  | _ + 1, br, h, st => by
    simp only [allBranches, plantCheck, h 0, except_bind_ok]
    exact allBranches_plantCheck (fun i => h i.succ) st

theorem scanPlants_lane {V : Type} {n : Nat} (i : Fin n) (m : Meta) (P : Dict (Fin n → V)) :
    scanPlants m (Dict.lane i P) = Dict.lane i (scanPlants m P) := by
  funext k
  simp only [scanPlants, Dict.lane]
  split <;> rfl

/-- Plants accepted in a lane are accepted by the vmapped program. -/
theorem plantCheck_vm {V A B : Type} {S : Settings} (n : Nat) (i : Fin (n + 1)) (p : Prog V A B) : ∀ (fl : Flags p) {c},
    QuietBatched S p fl → Regular S c p → ∀ (P : Dict (Fin (n + 1) → V)) {st st' : List String},
    plantCheck S p (Dict.lane i P) st = .ok st' → plantCheck S (vm n p fl) P st = .ok st' := by
  induction p with
  | pure f => intro fl c _ _ P st st' h; exact h
  | seq p q ihp ihq =>
    intro fl c hb hr P st st' h
    simp only [plantCheck, vm] at h ⊢
    rcases h1 : plantCheck S p (Dict.lane i P) st with e | st1 <;> rw [h1] at h
    · simp at h
    simp only [except_bind_ok] at h
    rw [ihp _ hb.1 hr.1 P h1]
    exact ihq _ hb.2 hr.2 P h
  | sow tag name mode pre pred post =>
    intro fl c _ _ P st st' h
    simp only [plantCheck, vm, except_bind_ok, Dict.lane, Option.isSome_map] at h ⊢
    exact h
  | nest scope pre body post ih =>
    intro fl c hb hr P st st' h
    simp only [plantCheck, vm, subPlants_eq_inScope, inScope_lane] at h ⊢
    rcases h1 : plantCheck S body (Dict.lane i (inScope P scope)) [] with e | st1 <;> rw [h1] at h
    · simp at h
    rw [ih fl hb hr.1 _ h1]
    exact h
  | inline pre body post ih => intro fl c hb hr P st st' h; exact ih fl hb hr P h
  | call kind pre body post ih =>
    intro fl c hb hr P st st' h
    have hgen : (do
          let _ ← plantCheck S body (Dict.lane i P) []
          pure st : Except Err (List String)) = .ok st' → (do
          let _ ← plantCheck S (vm n body fl) P []
          pure st : Except Err (List String)) = .ok st' := by
      intro h
      rcases h1 : plantCheck S body (Dict.lane i P) [] with e | st1 <;> rw [h1] at h
      · simp at h
      rw [ih fl hb hr P h1]
      exact h
    cases kind
    all_goals first
      | exact ih fl hb hr P h
      | exact hgen h
  | cond j sel pre br post ih =>
    intro fl c hb hr P st st' h
    obtain ⟨b, fl⟩ := fl
    simp only [plantCheck] at h
    rcases h1 : metaOf S (br 0) [] with e | m <;> rw [h1] at h
    · simp at h
    simp only [except_bind_ok] at h
    rcases h2 : (List.finRange (j + 1)).mapM (fun i => metaOf S (br i) []) with e | ms <;> rw [h2] at h
    · simp at h
    simp only [except_bind_ok] at h
    rcases h3 : metaCond m ms with e | u <;> rw [h3] at h
    · simp at h
    simp only [except_bind_ok] at h
    rcases h4 : (List.finRange (j + 1)).mapM (fun k => plantCheck S (br k) (Dict.lane i P) []) with e | sts <;> rw [h4] at h
    · simp at h
    simp only [except_bind_ok, except_pure, Except.ok.injEq] at h
    subst h
    have hall : ∀ k, ∃ sk, plantCheck S (br k) (Dict.lane i P) [] = .ok sk ∧
        plantCheck S (vm n (br k) (fl k)) P [] = .ok sk := fun k => by
      obtain ⟨sk, -, hk⟩ := mapM_ok_mem h4 k (List.mem_finRange k)
      exact ⟨sk, hk, ih k (fl k) (hb.2 k) (hr k) P hk⟩
    cases b
    · have e : (List.finRange (j + 1)).mapM (fun k => plantCheck S (vm n (br k) (fl k)) P [])
          = (List.finRange (j + 1)).mapM (fun k => plantCheck S (br k) (Dict.lane i P) []) := by
        congr 1
        funext k
        obtain ⟨sk, hk, hk'⟩ := hall k
        rw [hk, hk']
      have em : ∀ k m, metaOf S (vm n (br k) (fl k)) m = metaOf S (br k) m := fun k m =>
        metaOf_vm n (br k) (fl k) (hb.2 k) (hr k) m
      show (do
        let st' ← Except.ok st
        plantCheck S (.cond j _ _ (fun k => vm n (br k) (fl k)) _) P st') = _
      simp only [except_bind_ok, plantCheck, em, e]
      rw [h1]
      simp only [except_bind_ok]
      rw [h2]
      simp only [except_bind_ok]
      rw [h3]
      simp only [except_bind_ok]
      rw [h4]
      rfl
    · have hq := hb.1 rfl
      refine allBranches_plantCheck (fun k st => ?_) st
      obtain ⟨sk, hk, -⟩ := hall k
      have := (quiet_plantCheck_ok _ (hq k) hk).2 (Dict.lane i P) st
      exact ih k (fl k) (hb.2 k) (hr k) P this
  | scan rev pre body post ih =>
    intro fl c hb hr P st st' h
    simp only [plantCheck, vm, except_bind_ok, metaOf, metaOf_vm n body fl hb hr.1] at h ⊢
    rcases h1 : metaOf S body [] with e | m <;> rw [h1] at h
    · simp at h
    simp only [except_bind_ok] at h ⊢
    rcases h2 : m.find? (fun e => e.2 == .strict) with _ | e <;> simp only [h2] at h ⊢
    · rw [scanPlants_lane] at h
      rcases h3 : plantCheck S body (Dict.lane i (scanPlants m P)) [] with e | st1 <;> rw [h3] at h
      · simp at h
      rw [ih fl hb hr.1 _ h3]
      exact h
    · simp at h
  | whileL pre test body post iht ihb =>
    intro fl c hb hr P st st' h
    obtain ⟨b, flt, flb⟩ := fl
    simp only [plantCheck] at h
    rcases h1 : metaOf S body [] with e | m <;> rw [h1] at h
    · simp at h
    simp only [except_bind_ok] at h
    rcases h2 : metaWhile m with e | u <;> rw [h2] at h
    · simp at h
    simp only [except_bind_ok] at h
    rcases h3 : plantCheck S body (Dict.lane i P) [] with e | st1 <;> rw [h3] at h
    · simp at h
    simp only [except_bind_ok, except_pure, Except.ok.injEq] at h
    subst h
    have em := metaOf_vm n body flb hb.2.2 hr.1 []
    have ep := ihb flb hb.2.2 hr.1 P h3
    cases b
    · show (do
        let inner ← metaOf S (vm n body flb) []
        metaWhile inner
        let _ ← plantCheck S (vm n body flb) P []
        pure st) = _
      rw [em, h1]
      simp only [except_bind_ok]
      rw [h2]
      simp only [except_bind_ok]
      rw [ep]
      rfl
    · obtain ⟨hq, hv⟩ := hb.1 rfl
      have hrt : Regular S (fun _ => false) test := Quiet.regular _ hr.2 (fun _ => rfl)
      have et := metaOf_vm n test flt (c := fun _ => false) hb.2.1 hrt []
      rw [quiet_meta_valid _ hr.2 hv []] at et
      have ept := iht flt hb.2.1 hrt P (quiet_plantCheck_valid test hr.2 hv (Dict.lane i P) [])
      show (do
        let inner ← (do
          let m' ← metaOf S (vm n test flt) []
          metaOf S (vm n body flb) m')
        metaWhile inner
        let _ ← (do
          let st' ← plantCheck S (vm n test flt) P []
          plantCheck S (vm n body flb) P st')
        pure st) = _
      rw [et, ept]
      simp only [except_bind_ok]
      rw [em, h1]
      simp only [except_bind_ok]
      rw [h2]
      simp only [except_bind_ok]
      rw [ep]
      rfl

theorem PlainV.lane {V : Type} {n : Nat} (i : Fin n) {o : Option (Val (Fin n → V))} (h : PlainV o) :
    PlainV (o.map (·.lane i)) := by
  induction h with
  | none => exact .none
  | leaf v => exact .leaf _
  | zeros => exact .zeros
  | stack vs h h' ih =>
    simp only [Option.map_some, Val.lane, laneL_eq]
    refine .stack _ ?_ ?_
    · intro v hv
      obtain ⟨w, hw, rfl⟩ := List.mem_map.1 hv
      have := h w hw
      cases w <;> simp_all [Val.lane, Val.isDict]
    · intro v hv
      obtain ⟨w, hw, rfl⟩ := List.mem_map.1 hv
      exact ih w hw
  | dict f h ih =>
    simp only [Option.map_some, Val.lane]
    refine .dict _ (fun k => ?_)
    rw [laneO_eq]
    exact ih k

/-- C66 (partial), planting: if the plants of a lane are accepted then so are the batched plants by the vmapped program, and
every lane of the result of `plant(vmap(f))` is the result of `plant(f)` with the lane's plants on the lane's inputs.
Missing: sows inside a `cond` or `while` whose predicate differs between the lanes. -/
theorem vmap_plant_control_partial {V A B : Type} (S : Settings) (n : Nat) (f : Prog V A B) (fl : Flags f)
    (hq : QuietBatched S f fl) (c : String → Bool) (hr : Regular S c f)
    (hs : AllSows true (fun _ _ _ => True) (fun s => S.active S.tag s = true) f)
    (P : Dict (Fin (n + 1) → V)) (hP : Plain P) (i : Fin (n + 1)) (g : Prog V A B)
    (hg : plant S f (fun k => (P k).map (·.lane i)) = .ok g) :
    ∃ gv, plant S (vm n f fl) P = .ok gv ∧ ∀ (fuel : Nat) (a : Fin (n + 1) → A) (b : Fin (n + 1) → B),
      run fuel gv a = .ok b → run fuel g (a i) = .ok (b i) := by
  have hck : ∃ st, plantCheck S f (Dict.lane i P) [] = .ok st := by
    simp only [plant] at hg
    rcases h1 : plantCheck S f (fun k => (P k).map (·.lane i)) [] with e | st <;> rw [h1] at hg
    · simp at hg
    exact ⟨st, h1⟩
  obtain ⟨st, hst⟩ := hck
  have hv := plantCheck_vm n i f fl hq hr P hst
  obtain ⟨gv, hgv⟩ : ∃ gv, plant S (vm n f fl) P = .ok gv := by
    simp only [plant, hv]
    exact ⟨_, rfl⟩
  refine ⟨gv, hgv, fun fuel a b hrun => ?_⟩
  rw [plant_override_run S _ _ gv hgv (AllSows.false_of_true _ (AllSows.vm n f fl hs)) hP] at hrun
  rw [plant_override_run S _ _ g hg (AllSows.false_of_true _ hs) (fun k => (hP k).lane i)]
  rcases ht : ptrace S fuel (vm n f fl) P a with e | ⟨b', L⟩ <;> rw [ht] at hrun <;> simp at hrun
  subst hrun
  obtain ⟨l, hl⟩ := ptrace_vm fuel n i f fl hq hr P a b' L ht
  have hl' : ptrace S fuel f (fun k => (P k).map (·.lane i)) (a i) = .ok (b' i, l) := hl
  rw [hl']
  rfl

end Verif.Harvest

namespace Verif.Harvest.Ex

/-- Batched plants for `vdemo`: the append name "ys" and "x" inside scope "s". -/
def vplants : Dict (Fin 2 → Nat) := fun k =>
  if k = "ys" then some (.stack [.leaf (two 1 2), .leaf (two 3 4)])
  else if k = "s" then some (.dict (fun k => if k = "x" then some (.leaf (two 50 5)) else none)) else none

theorem vplants_plain : Plain vplants := by
  intro k
  simp only [vplants]
  split
  · exact .stack _ (by simp [Val.isDict]) (by simp; exact ⟨.leaf _, .leaf _⟩)
  · split
    · exact .dict _ (fun k => by split; exact .leaf _; exact .none)
    · exact .none

theorem vdemo_scopes : AllSows true (fun _ _ _ => True) (fun s => S0.active S0.tag s = true) vdemo := by
  simp [vdemo, sw, ns, fn, sc, wh, cd, AllSows, Settings.active, S0]

/-- Hypotheses of `vmap_plant_control_partial`: in lane 1 the output is computed from the planted 5. -/
example : ∃ g, plant S0 vdemo (fun k => (vplants k).map (·.lane 1)) = .ok g ∧ run 4 g 9 = .ok 7 := ⟨_, rfl, rfl⟩

example : ∃ gv, plant S0 (vm 1 vdemo (flags true vdemo)) vplants = .ok gv ∧ ∀ fuel a b, run fuel gv a = .ok b →
    ∃ g, plant S0 vdemo (fun k => (vplants k).map (·.lane 1)) = .ok g ∧ run fuel g (a 1) = .ok (b 1) := by
  obtain ⟨gv, h, h'⟩ := vmap_plant_control_partial S0 1 vdemo (flags true vdemo) vdemo_quiet _ vdemo_regular vdemo_scopes
    vplants vplants_plain 1 _ rfl
  exact ⟨gv, h, fun fuel a b hr => ⟨_, rfl, h' fuel a b hr⟩⟩

end Verif.Harvest.Ex
