/- Basic lemmas: dispatch, logs and runs, transparency of `reapT`. -/
import Verif.Harvest.Spec

namespace Verif.Harvest

theorem dispatch_handle {S : Settings} {t n : String} :
    S.dispatch t n = .handle ↔ S.active t n = true := by
  unfold Settings.dispatch Settings.active
  by_cases h1 : t = S.tag
  · simp only [h1, ne_eq, not_true_eq_false, if_false, beq_self_eq_true, Bool.true_and]
    cases S.allowlist <;> simp
    all_goals by_cases h2 : n ∈ S.blocklist <;> simp [h2]
    all_goals
      rename_i l
      by_cases h3 : n ∈ l <;> simp [h3]
  · simp [h1]; cases S.exclusive <;> simp

theorem dispatch_ne_handle {S : Settings} {t n : String} :
    S.dispatch t n ≠ .handle ↔ S.active t n = false := by
  rw [Ne, dispatch_handle]; simp

@[simp] theorem except_map_ok {ε α β : Type _} (f : α → β) (a : α) :
    Except.map (ε := ε) f (.ok a) = .ok (f a) := rfl
@[simp] theorem except_map_error {ε α β : Type _} (f : α → β) (e : ε) :
    Except.map f (.error e : Except ε α) = .error e := rfl
@[simp] theorem except_bind_ok {ε α β : Type _} (a : α) (f : α → Except ε β) :
    (Except.ok a >>= f) = f a := rfl
@[simp] theorem except_bind_error {ε α β : Type _} (e : ε) (f : α → Except ε β) :
    ((Except.error e : Except ε α) >>= f) = .error e := rfl
@[simp] theorem except_pure {ε α : Type _} (a : α) : (pure a : Except ε α) = .ok a := rfl
@[simp] theorem except_map' {ε α β : Type _} (f : α → β) (x : Except ε α) :
    (f <$> x) = Except.map f x := rfl

theorem scanM_map {K X Y Z : Type} (f : K × X → Except RErr (K × Y)) (g : K × X → Except RErr (K × Z))
    (φ : Y → Z) (h : ∀ kx, g kx = (f kx).map (fun r => (r.1, φ r.2))) (xs : List X) (k : K) :
    scanM g k xs = (scanM f k xs).map (fun r => (r.1, r.2.map φ)) := by
  induction xs generalizing k with
  | nil => simp [scanM]
  | cons x xs ih =>
    simp only [scanM, h]
    rcases f (k, x) with e | r
    · simp
    · simp only [except_map_ok, except_bind_ok, ih]
      rcases scanM f r.1 xs with e | s <;> simp

theorem scanDir_map {K X Y Z : Type} (rev : Bool) (f : K × X → Except RErr (K × Y))
    (g : K × X → Except RErr (K × Z))
    (φ : Y → Z) (h : ∀ kx, g kx = (f kx).map (fun r => (r.1, φ r.2))) (xs : List X) (k : K) :
    scanDir rev g k xs = (scanDir rev f k xs).map (fun r => (r.1, r.2.map φ)) := by
  cases rev
  · simpa [scanDir] using scanM_map f g φ h xs k
  · simp only [scanDir, if_true, scanM_map f g φ h]
    rcases scanM f k xs.reverse with e | s <;> simp

theorem loopT_loopM {V K : Type} (c : K → Except RErr (Bool × Log V)) (b : K → Except RErr (K × Log V))
    (n : Nat) (k : K) :
    loopM (fun k => (c k).map (·.1)) (fun k => (b k).map (·.1)) n k = (loopT c b n k).map (·.1) := by
  induction n generalizing k with
  | zero => simp [loopM, loopT]
  | succ n ih =>
    simp only [loopM, loopT]
    rcases c k with e | ⟨t, lt⟩
    · simp
    · cases t
      · simp
      · simp only [except_map_ok, except_bind_ok, if_true]
        rcases b k with e | r
        · simp
        · simp only [except_map_ok, except_bind_ok, ih]
          rcases loopT c b n r.1 with e | s <;> simp

/-- Recording the log does not change the execution. -/
theorem run_eq_trace {V A B : Type} (fuel : Nat) (p : Prog V A B) (a : A) :
    run fuel p a = (trace fuel p a).map (·.1) := by
  induction p with
  | pure f => simp only [run, trace]; rcases f a with e | b <;> simp
  | seq p q ihp ihq =>
    simp only [run, trace, ihp]
    rcases trace fuel p a with e | r
    · simp
    · simp only [except_map_ok, except_bind_ok, ihq]
      rcases trace fuel q r.1 with e | s <;> simp
  | sow => simp [run, trace]
  | nest _ pre body post ih | inline pre body post ih | call _ pre body post ih =>
    simp only [run, trace, ih]
    rcases trace fuel body (pre a) with e | r <;> simp
  | cond n sel pre br post ih =>
    simp only [run, trace, ih]
    rcases trace fuel (br (sel a)) (pre a) with e | r <;> simp
  | scan rev pre body post ih =>
    simp only [run, trace]
    rw [scanDir_map rev (fun kx => (trace fuel body kx).map (fun r => (r.1.1, (r.1.2, r.2))))
      (fun kx => run fuel body kx) (·.1)]
    · rcases scanDir rev _ _ _ with e | r <;> simp
    · intro kx
      rw [ih]; rcases trace fuel body kx with e | r <;> simp
  | whileL pre test body post iht ihb =>
    simp only [run, trace]
    have := loopT_loopM (fun k => trace fuel test k) (fun k => trace fuel body k) fuel (pre a)
    simp only [← iht, ← ihb] at this
    rw [this]
    rcases loopT _ _ _ _ with e | r <;> simp

/-! ### What a reap leaves in the program: the log with the harvested tag removed -/

mutual
/-- The sites that are still there after reaping with settings `S`. -/
def Site.residual (S : Settings) : Site → List Site
  | .sow tag name mode => if S.dispatch tag name = .forward then [.sow tag name mode] else []
  | .nest scope inner => [.nest scope (residualSites S inner)]
def residualSites (S : Settings) : List Site → List Site
  | [] => []
  | s :: ss => s.residual S ++ residualSites S ss
end

mutual
/-- The log that is still there after reaping with settings `S`. -/
def Ev.residual (S : Settings) : Ev V → Log V
  | .sow tag name mode v pred =>
    if S.dispatch tag name = .forward then [.sow tag name mode v pred] else []
  | .nest scope ss log => [.nest scope (residualSites S ss) (residual S log)]
  | .scan rev ss iters => [.scan rev (residualSites S ss) (residualIters S iters)]
  | .loop ss iters tests => [.loop (residualSites S ss) (residualIters S iters) tests]
def residual (S : Settings) : List (Ev V) → List (Ev V)
  | [] => []
  | e :: es => e.residual S ++ residual S es
def residualIters (S : Settings) : List (List (Ev V)) → List (List (Ev V))
  | [] => []
  | l :: ls => residual S l :: residualIters S ls
end

theorem residualSites_append (S : Settings) (l r : List Site) :
    residualSites S (l ++ r) = residualSites S l ++ residualSites S r := by
  induction l with
  | nil => simp [residualSites]
  | cons s ss ih => simp [residualSites, ih]

theorem residual_append {V : Type} (S : Settings) (l r : Log V) :
    residual S (l ++ r) = residual S l ++ residual S r := by
  induction l with
  | nil => simp [residual]
  | cons s ss ih => simp [residual, ih]

theorem residualIters_eq_map {V : Type} (S : Settings) (ls : List (Log V)) :
    residualIters S ls = ls.map (residual S) := by
  induction ls with
  | nil => simp [residualIters]
  | cons s ss ih => simp [residualIters, ih]

theorem sites_reapT {V A B : Type} (S : Settings) (p : Prog V A B) :
    sites (reapT S p) = residualSites S (sites p) := by
  induction p with
  | pure f => simp [reapT, sites, residualSites]
  | seq p q ihp ihq => simp [reapT, sites, residualSites_append, ihp, ihq]
  | sow tag name mode pre pred post =>
    simp only [reapT, sites, residualSites, Site.residual]
    cases h : S.dispatch tag name <;> simp [sites]
  | nest scope pre body post ih => simp [reapT, sites, residualSites, Site.residual, ih]
  | inline pre body post ih => simp [reapT, sites, ih]
  | call _ pre body post ih => simp [reapT, sites, ih]
  | cond n sel pre br post ih => simp [reapT, sites, ih]
  | scan rev pre body post ih => simp [reapT, sites, ih]
  | whileL pre test body post iht ihb => simp [reapT, sites, ihb]

theorem scanM_sim {K C X Y Z W : Type} (f : (K × C) × X → Except RErr ((K × C) × Z))
    (g : K × X → Except RErr (K × Y)) (φ : Y → W) (ψ : Z → W)
    (h : ∀ k c x, (f ((k, c), x)).map (fun r => (r.1.1, ψ r.2)) = (g (k, x)).map (fun r => (r.1, φ r.2)))
    (xs : List X) (k : K) (c : C) :
    (scanM f (k, c) xs).map (fun r => (r.1.1, r.2.map ψ)) =
      (scanM g k xs).map (fun r => (r.1, r.2.map φ)) := by
  induction xs generalizing k c with
  | nil => simp [scanM]
  | cons x xs ih =>
    have hx := h k c x
    simp only [scanM]
    rcases hf : f ((k, c), x) with e | ⟨⟨k1, c1⟩, z⟩ <;> rcases hg : g (k, x) with e' | ⟨k2, y⟩ <;>
      rw [hf, hg] at hx <;> simp at hx
    · simp [hx]
    · obtain ⟨rfl, hz⟩ := hx
      have := ih k1 c1
      simp only [except_bind_ok]
      generalize scanM f (k1, c1) xs = u at this ⊢
      generalize scanM g k1 xs = v at this ⊢
      rcases u with e | ⟨⟨k3, c3⟩, zs⟩ <;> rcases v with e' | ⟨k4, ys⟩ <;>
        simp at this <;> simp [this, hz]

theorem scanDir_sim {K C X Y Z W : Type} (rev : Bool) (f : (K × C) × X → Except RErr ((K × C) × Z))
    (g : K × X → Except RErr (K × Y)) (φ : Y → W) (ψ : Z → W)
    (h : ∀ k c x, (f ((k, c), x)).map (fun r => (r.1.1, ψ r.2)) = (g (k, x)).map (fun r => (r.1, φ r.2)))
    (xs : List X) (k : K) (c : C) :
    (scanDir rev f (k, c) xs).map (fun r => (r.1.1, r.2.map ψ)) =
      (scanDir rev g k xs).map (fun r => (r.1, r.2.map φ)) := by
  cases rev
  · simpa [scanDir] using scanM_sim f g φ ψ h xs k c
  · have := scanM_sim f g φ ψ h xs.reverse k c
    simp only [scanDir, if_true]
    generalize scanM f (k, c) xs.reverse = u at this ⊢
    generalize scanM g k xs.reverse = v at this ⊢
    rcases u with e | r <;> rcases v with e' | s <;>
      simp at this <;> simp [this]

theorem loopT_sim {V K C : Type} (φ : Log V → Log V)
    (c : K → Except RErr (Bool × Log V)) (b : K → Except RErr (K × Log V))
    (c' : K × C → Except RErr (Bool × Log V)) (b' : K × C → Except RErr ((K × C) × Log V))
    (hc : ∀ k r, c' (k, r) = c k)
    (hb : ∀ k r, (b' (k, r)).map (fun s => (s.1.1, s.2)) = (b k).map (fun s => (s.1, φ s.2)))
    (n : Nat) (k : K) (r : C) :
    (loopT c' b' n (k, r)).map (fun s => (s.1.1, s.2)) =
      (loopT c b n k).map (fun s => (s.1, s.2.1.map φ, s.2.2)) := by
  induction n generalizing k r with
  | zero => simp [loopT]
  | succ n ih =>
    simp only [loopT, hc]
    rcases c k with e | ⟨t, lt⟩
    · simp
    · cases t
      · simp
      · simp only [except_bind_ok, if_true]
        have h1 := hb k r
        rcases h2 : b' (k, r) with e | ⟨⟨k1, r1⟩, l1⟩ <;> rcases h3 : b k with e' | ⟨k2, l2⟩ <;>
          rw [h2, h3] at h1 <;> simp at h1
        · simp [h1]
        · obtain ⟨rfl, rfl⟩ := h1
          have := ih k1 r1
          simp only [except_bind_ok]
          generalize loopT c' b' n (k1, r1) = u at this ⊢
          generalize loopT c b n k1 = v at this ⊢
          rcases u with e | s <;> rcases v with e' | s' <;> simp at this <;> simp [this]

/-- The reaped program computes the same result, and its own log is the log of the original program
without the harvested sows. -/
theorem trace_reapT {V A B : Type} (S : Settings) (fuel : Nat) (p : Prog V A B) (a : A) (d : Reaps V) :
    (trace fuel (reapT S p) (a, d)).map (fun r => (r.1.1, r.2)) =
      (trace fuel p a).map (fun r => (r.1, residual S r.2)) := by
  induction p generalizing d with
  | pure f => simp only [reapT, trace]; rcases f a with e | b <;> simp [residual]
  | seq p q ihp ihq =>
    simp only [reapT, trace]
    have h1 := ihp a d
    rcases h2 : trace fuel (reapT S p) (a, d) with e | ⟨⟨b1, d1⟩, l1⟩ <;>
      rcases h3 : trace fuel p a with e' | ⟨b2, l2⟩ <;> rw [h2, h3] at h1 <;> simp at h1
    · simp [h1]
    · obtain ⟨rfl, rfl⟩ := h1
      simp only [except_bind_ok]
      have h4 := ihq b1 d1
      rcases h5 : trace fuel (reapT S q) (b1, d1) with e | ⟨⟨b3, d3⟩, l3⟩ <;>
        rcases h6 : trace fuel q b1 with e' | ⟨b4, l4⟩ <;> rw [h5, h6] at h4 <;> simp at h4
      · simp [h4]
      · simp [h4, residual_append]
  | sow tag name mode pre pred post =>
    simp only [reapT]
    cases h : S.dispatch tag name <;> simp [trace, residual, Ev.residual, h]
  | nest scope pre body post ih =>
    simp only [reapT, trace]
    have h1 := ih (pre a) (fun _ => none)
    rcases h2 : trace fuel (reapT S body) (pre a, fun _ => none) with e | r <;>
      rcases h3 : trace fuel body (pre a) with e' | s <;> rw [h2, h3] at h1 <;> simp at h1
    · simp [h1]
    · simp [h1, residual, Ev.residual, sites_reapT]
  | inline pre body post ih =>
    simp only [reapT, trace]
    have h1 := ih (pre a) d
    rcases h2 : trace fuel (reapT S body) (pre a, d) with e | r <;>
      rcases h3 : trace fuel body (pre a) with e' | s <;> rw [h2, h3] at h1 <;> simp at h1
    · simp [h1]
    · simp [h1]
  | call _ pre body post ih =>
    simp only [reapT, trace]
    have h1 := ih (pre a) (fun _ => none)
    rcases h2 : trace fuel (reapT S body) (pre a, fun _ => none) with e | r <;>
      rcases h3 : trace fuel body (pre a) with e' | s <;> rw [h2, h3] at h1 <;> simp at h1
    · simp [h1]
    · simp [h1]
  | cond n sel pre br post ih =>
    simp only [reapT, trace]
    have h1 := ih (sel a) (pre a) (fun _ => none)
    rcases h2 : trace fuel (reapT S (br (sel a))) (pre a, fun _ => none) with e | r <;>
      rcases h3 : trace fuel (br (sel a)) (pre a) with e' | s <;> rw [h2, h3] at h1 <;> simp at h1
    · simp [h1]
    · simp [h1]
  | scan rev pre body post ih =>
    simp only [reapT]
    rw [trace, trace]
    have h1 := scanDir_sim rev
      (fun kx => (trace fuel (Prog.seq (.pure (fun (kx : (_ × Reaps V) × _) =>
          .ok (((kx.1.1, kx.2), (fun _ => none : Reaps V)), kx.1.2)))
        (.seq (.inline (fun a => a.1) (reapT S body) (fun a y => (y, a.2)))
          (.pure (fun r => .ok ((r.1.1.1,
            carryStep (fun _ => leakedMode (metaD S body)) r.2 r.1.2), (r.1.1.2, r.1.2)))))) kx).map
              (fun r => (r.1.1, (r.1.2, r.2))))
      (fun kx => (trace fuel body kx).map (fun r => (r.1.1, (r.1.2, r.2))))
      (fun r => (r.1, residual S r.2)) (fun r => (r.1.1, r.2))
      (by
        intro k c x
        simp only [trace, except_map_ok, except_bind_ok]
        have h1 := ih (k, x) (fun _ => none)
        rcases h2 : trace fuel (reapT S body) ((k, x), fun _ => none) with e | r <;>
          rcases h3 : trace fuel body (k, x) with e' | s <;> rw [h2, h3] at h1 <;> simp at h1
        · simp [h1]
        · simp [h1])
      (pre a).2 (pre a).1 (carryInit (metaD S body))
    simp only [] at h1 ⊢
    generalize scanDir rev _ ((pre a).1, carryInit (metaD S body)) (pre a).2 = u at h1 ⊢
    generalize scanDir rev _ (pre a).1 (pre a).2 = v at h1 ⊢
    rcases u with e | u <;> rcases v with e' | v <;> simp at h1
    · simp [h1]
    · obtain ⟨h1, h2⟩ := h1
      have e1 := congrArg (List.map Prod.fst) h2
      have e2 := congrArg (List.map Prod.snd) h2
      simp only [List.map_map] at e1 e2
      simp [residual, Ev.residual, residualIters_eq_map, h1, sites, sites_reapT]
      constructor
      · congr 1
      · exact e2
  | whileL pre test body post iht ihb =>
    simp only [reapT]
    rw [trace, trace]
    have h1 := loopT_sim (residual S) (fun k => trace fuel test k) (fun k => trace fuel body k)
      (fun k => trace fuel (Prog.seq (.pure (fun (k : _ × Reaps V) => .ok k.1)) test) k)
      (fun k => trace fuel (Prog.seq (.pure (fun (k : _ × Reaps V) =>
          .ok ((k.1, (fun _ => none : Reaps V)), k.2)))
        (.seq (.inline (fun a => a.1) (reapT S body) (fun a y => (y, a.2)))
          (.pure (fun r => .ok (r.1.1, carryStep (metaD S body).get r.2 r.1.2))))) k)
      (by intro k r; simp only [trace, except_map_ok, except_bind_ok]
          rcases trace fuel test k with e | s <;> simp)
      (by
        intro k c
        simp only [trace, except_map_ok, except_bind_ok]
        have h1 := ihb k (fun _ => none)
        rcases h2 : trace fuel (reapT S body) (k, fun _ => none) with e | r <;>
          rcases h3 : trace fuel body k with e' | s <;> rw [h2, h3] at h1 <;> simp at h1
        · simp [h1]
        · simp [h1])
      fuel (pre a) (carryInit (metaD S body))
    simp only [] at h1 ⊢
    generalize loopT _ _ fuel (pre a, carryInit (metaD S body)) = u at h1 ⊢
    generalize loopT _ _ fuel (pre a) = v at h1 ⊢
    rcases u with e | u <;> rcases v with e' | v <;> simp at h1
    · simp [h1]
    · simp [residual, Ev.residual, residualIters_eq_map, h1, sites, sites_reapT]

end Verif.Harvest
