import Verif.Harvest.PropsPlant

/-
C03 for `plant`: a strict (or append) name that is planted may be sown only once.  The context of `plant` is created
anew inside calls, branches and loops, so the second sow is noticed only when it is in the same context as the first.
-/

namespace Verif.Harvest

/-- The number of sows of `n` that take part in the harvest, in the current scope. -/
def sowCount (S : Settings) (n : String) : List Site → Nat
  | [] => 0
  | .sow tag name _ :: ss => (if name = n ∧ S.active tag name = true then 1 else 0) + sowCount S n ss
  | .nest _ _ :: ss => sowCount S n ss

theorem sowCount_append (S : Settings) (n : String) (l r : List Site) :
    sowCount S n (l ++ r) = sowCount S n l + sowCount S n r := by
  induction l with
  | nil => simp [sowCount]
  | cons s l ih => cases s <;> simp [sowCount, ih]; omega

/-- `n` is not sown inside a call (other than of a custom-derivative function), a branch or a loop of the current
scope. -/
def Shallow {V : Type} (S : Settings) (n : String) : {A B : Type} → Prog V A B → Prop
  | _, _, .seq p q => Shallow S n p ∧ Shallow S n q
  | _, _, .inline _ body _ => Shallow S n body
  | _, _, .call .customJvp _ body _ => Shallow S n body
  | _, _, .call _ _ body _ => ∀ ss, Path body ss → sowCount S n ss = 0
  | _, _, .cond _ _ _ br _ => ∀ i ss, Path (br i) ss → sowCount S n ss = 0
  | _, _, .scan _ _ body _ => ∀ ss, Path body ss → sowCount S n ss = 0
  | _, _, .whileL _ _ body _ => ∀ ss, Path body ss → sowCount S n ss = 0
  | _, _, _ => True

theorem plantCheck_once {V A B : Type} {S : Settings} {n : String} {k : Mode} (hk : k.isClobber = false)
    (p : Prog V A B) : ∀ (P : Dict V) (st st' : List String), (P n).isSome = true → OnlyMode S n k p →
    Shallow S n p → plantCheck S p P st = .ok st' → ∀ ss, Path p ss →
      (n ∈ st → n ∈ st' ∧ sowCount S n ss = 0) ∧ sowCount S n ss ≤ 1 ∧ (1 ≤ sowCount S n ss → n ∈ st') := by
  have trivialCase : ∀ (st st' : List String) (ss : List Site), st' = st → sowCount S n ss = 0 →
      (n ∈ st → n ∈ st' ∧ sowCount S n ss = 0) ∧ sowCount S n ss ≤ 1 ∧ (1 ≤ sowCount S n ss → n ∈ st') := by
    intro st st' ss h h0
    subst h
    exact ⟨fun h => ⟨h, h0⟩, by omega, by omega⟩
  induction p with
  | pure f =>
    intro P st st' _ _ _ h ss hp
    simp only [plantCheck, Except.ok.injEq] at h
    simp only [Path] at hp
    exact trivialCase _ _ _ h.symm (by rw [hp]; rfl)
  | seq p q ihp ihq =>
    intro P st st' hP ho hs h ss hp
    simp only [plantCheck] at h
    simp only [OnlyMode] at ho
    simp only [Shallow] at hs
    obtain ⟨l, r, hl, hr, rfl⟩ := hp
    rcases h1 : plantCheck S p P st with e | st1 <;> rw [h1] at h
    · simp at h
    simp only [except_bind_ok] at h
    obtain ⟨a1, a2, a3⟩ := ihp P st st1 hP ho.1 hs.1 h1 l hl
    obtain ⟨b1, b2, b3⟩ := ihq P st1 st' hP ho.2 hs.2 h r hr
    rw [sowCount_append]
    refine ⟨fun hn => ?_, ?_, fun hh => ?_⟩
    · have x := a1 hn
      have y := b1 x.1
      exact ⟨y.1, by omega⟩
    · by_cases h0 : 1 ≤ sowCount S n l
      · have := (b1 (a3 h0)).2; omega
      · omega
    · by_cases h0 : 1 ≤ sowCount S n l
      · exact (b1 (a3 h0)).1
      · exact b3 (by omega)
  | sow tag name mode pre pred post =>
    intro P st st' hP ho _ h ss hp
    simp only [Path] at hp
    subst hp
    simp only [plantCheck] at h
    simp only [OnlyMode] at ho
    split at h
    · simp at h
    by_cases hc : name = n ∧ S.active tag name = true
    · obtain ⟨hn, hact⟩ := hc
      subst hn
      rw [dispatch_handle.2 hact] at h
      simp only at h
      have hm := ho rfl hact
      split at h
      · simp at h
      · rename_i hst
        rw [hP, hm, hk] at h
        simp only [Bool.not_false, Bool.and_self, if_true, Except.ok.injEq] at h
        subst h
        refine ⟨fun hn => absurd (by simpa using hn) hst, ?_, fun _ => by simp⟩
        simp [sowCount, hact]
    · have h0 : sowCount S n [Site.sow tag name mode] = 0 := by simp [sowCount, hc]
      rw [h0]
      refine ⟨fun hn => ⟨?_, rfl⟩, by omega, by omega⟩
      rcases hd : S.dispatch tag name with _ | _ | _ <;> rw [hd] at h <;> dsimp only at h
      · injection h with h; exact h ▸ hn
      · injection h with h; exact h ▸ hn
      · split at h
        · simp at h
        · split at h
          · injection h with h; exact h ▸ List.mem_cons_of_mem _ hn
          · injection h with h; exact h ▸ hn
  | nest scope pre body post ih =>
    intro P st st' hP ho hs h ss hp
    simp only [plantCheck] at h
    obtain ⟨l, _, rfl⟩ := hp
    rcases h1 : plantCheck S body (subPlants P scope) [] with e | st1 <;> rw [h1] at h
    · simp at h
    simp only [except_bind_ok, pure, Except.pure, Except.ok.injEq] at h
    exact trivialCase _ _ _ h.symm rfl
  | inline pre body post ih =>
    intro P st st' hP ho hs h ss hp
    simp only [plantCheck] at h
    simp only [OnlyMode] at ho
    simp only [Shallow] at hs
    exact ih P st st' hP ho hs h ss hp
  | call kind pre body post ih =>
    intro P st st' hP ho hs h ss hp
    simp only [OnlyMode] at ho
    simp only [Path] at hp
    cases kind
    case customJvp => exact ih P st st' hP ho hs h ss hp
    all_goals
      simp only [plantCheck] at h
      rcases h1 : plantCheck S body P [] with e | st1 <;> rw [h1] at h
      · simp at h
      simp only [except_bind_ok, pure, Except.pure, Except.ok.injEq] at h
      exact trivialCase _ _ _ h.symm (hs ss hp)
  | cond m sel pre br post ih =>
    intro P st st' hP ho hs h ss hp
    obtain ⟨i, hp⟩ := hp
    have : st' = st := by
      simp only [plantCheck] at h
      rcases h1 : metaOf S (br 0) [] with e | first <;> rw [h1] at h
      · simp at h
      simp only [except_bind_ok] at h
      rcases h2 : (List.finRange (m + 1)).mapM (fun i => metaOf S (br i) []) with e | ms <;> rw [h2] at h
      · simp at h
      simp only [except_bind_ok] at h
      rcases h3 : metaCond first ms with e | _ <;> rw [h3] at h
      · simp at h
      simp only [except_bind_ok] at h
      rcases h4 : (List.finRange (m + 1)).mapM (fun i => plantCheck S (br i) P []) with e | _ <;> rw [h4] at h
      · simp at h
      simp only [except_bind_ok, pure, Except.pure, Except.ok.injEq] at h
      exact h.symm
    exact trivialCase _ _ _ this (hs i ss hp)
  | scan rev pre body post ih =>
    intro P st st' hP ho hs h ss hp
    have : st' = st := by
      simp only [plantCheck] at h
      rcases h1 : metaOf S body [] with e | inner <;> rw [h1] at h
      · simp at h
      simp only [except_bind_ok] at h
      split at h
      · simp at h
      · rcases h2 : plantCheck S body (scanPlants inner P) [] with e | _ <;> rw [h2] at h
        · simp at h
        simp only [except_bind_ok, pure, Except.pure, Except.ok.injEq] at h
        exact h.symm
    exact trivialCase _ _ _ this (hs ss hp)
  | whileL pre test body post ihc ih =>
    intro P st st' hP ho hs h ss hp
    have : st' = st := by
      simp only [plantCheck] at h
      rcases h1 : metaOf S body [] with e | inner <;> rw [h1] at h
      · simp at h
      simp only [except_bind_ok] at h
      rcases h3 : metaWhile inner with e | _ <;> rw [h3] at h
      · simp at h
      simp only [except_bind_ok] at h
      rcases h2 : plantCheck S body P [] with e | _ <;> rw [h2] at h
      · simp at h
      simp only [except_bind_ok, pure, Except.pure, Except.ok.injEq] at h
      exact h.symm
    exact trivialCase _ _ _ this (hs ss hp)

/-- C03 (partial: the sows are not inside calls, branches or loops): planting a strict or append name that is sown
twice is an error. -/
theorem plant_strict_twice_rejected_partial {V A B : Type} (S : Settings) (n : String) (k : Mode)
    (hk : k.isClobber = false) (f : Prog V A B) (ho : OnlyMode S n k f) (hs : Shallow S n f) (P : Dict V)
    (hP : (P n).isSome = true) (ss : List Site) (hp : Path f ss) (h2 : 2 ≤ sowCount S n ss) :
    ∃ e, plant S f P = .error e := by
  rcases h : plantCheck S f P [] with e | st
  · exact ⟨e, by simp [plant, h]⟩
  · have := (plantCheck_once hk f P [] st hP ho hs h ss hp).2.1
    omega

/-- C03 for `plant` fails across a call: a strict name sown once directly and once inside a jitted function is
planted at both places without an error (whereas `reap` rejects the function). -/
theorem plant_strict_twice_in_call :
    ∃ (S : Settings) (f : Prog Nat (Val Nat) (Val Nat)) (P : Dict Nat) (ss : List Site),
      Path f ss ∧ sowCount S "x" ss = 2 ∧ (P "x").isSome = true ∧ (∃ e, callAndReap S f = .error e) ∧
      ∃ g, plant S f P = .ok g := by
  let s : Prog Nat (Val Nat) (Val Nat) := .sow "t" "x" .strict id (fun _ => true) (fun _ v => v)
  refine ⟨⟨"t", [], none, false⟩, .seq s (.call .pjit id s (fun _ v => v)),
    fun _ => some (.leaf 1), [.sow "t" "x" .strict, .sow "t" "x" .strict], ?_, ?_, rfl, ?_, ?_⟩
  · exact ⟨_, _, rfl, rfl, rfl⟩
  · decide +kernel
  · exact (strict_twice_rejected ⟨"t", [], none, false⟩ "x" .strict rfl (.seq s (.call .pjit id s (fun _ v => v)))
      ⟨fun _ _ => rfl, fun _ _ => rfl⟩ [.sow "t" "x" .strict, .sow "t" "x" .strict]
      ⟨_, _, rfl, rfl, rfl⟩ (by decide +kernel)).imp fun _ h => h.1
  · exact ⟨_, rfl⟩

/-- The hypotheses of `plant_strict_twice_rejected_partial` are met by two sows in a row. -/
example : ∃ e, plant (V := Nat) ⟨"t", [], none, false⟩
    (.seq (.sow (A := Val Nat) "t" "x" .strict id (fun _ => true) (fun _ v => v))
      (.sow (C := Val Nat) "t" "x" .strict id (fun _ => true) (fun _ v => v))) (fun _ => some (.leaf 1)) = .error e :=
  plant_strict_twice_rejected_partial (V := Nat) ⟨"t", [], none, false⟩ "x" .strict rfl
    (.seq (.sow (A := Val Nat) "t" "x" .strict id (fun _ => true) (fun _ v => v))
      (.sow (C := Val Nat) "t" "x" .strict id (fun _ => true) (fun _ v => v))) ⟨fun _ _ => rfl, fun _ _ => rfl⟩ ⟨trivial, trivial⟩ _ rfl
    [.sow "t" "x" .strict, .sow "t" "x" .strict] ⟨_, _, rfl, rfl, rfl⟩ (by decide +kernel)

end Verif.Harvest
