/-
Concrete cases for C16-C20 and the restriction on naming a function that has named random variables itself.
-/
import Verif.Ppl.PropsReplace
import Verif.Harvest.WitnessPlant

namespace Verif.Ppl.Ex

open Verif.Harvest Verif.Harvest.Ex

/-- The number in a value. -/
def num : Val Nat → Nat
  | .leaf x => x
  | _ => 0

/-- `random_variable(lambda env: g(env), name)` where the sampled value is pushed on the environment, a list
whose first argument is the key. -/
def rv (name : String) (g : List (Val Nat) → Nat) : Prog Nat (List (Val Nat)) (List (Val Nat)) :=
  .seq (.nest name id (.pure (fun env => .ok (env, Val.leaf (g env)))) (fun _ b => b))
    (.sow rvTag name .strict (·.2) (fun _ => true) (fun b v => v :: b.1))

/-- def model(key): z = rv(key + 1, 'z'); x = rv(2 * z + key, 'x'); w = rv(key * key, 'w'); return x + w -/
def model : Prog Nat (List (Val Nat)) (Val Nat) :=
  .seq (rv "z" (fun e => num (e.getD 0 .zeros) + 1)) <|
  .seq (rv "x" (fun e => 2 * num (e.getD 0 .zeros) + num (e.getD 1 .zeros))) <|
  .seq (rv "w" (fun e => num (e.getD 2 .zeros) * num (e.getD 2 .zeros))) <|
  .pure (fun e => .ok (.leaf (num (e.getD 0 .zeros) + num (e.getD 1 .zeros))))

theorem model_rv : RvProg model := by simp [model, rv, RvProg]

/-- C16 -/
example : ∃ t, trace model = .ok t ∧ ∃ d, run 5 t [.leaf 10] = .ok (.leaf 132, d) ∧
    d "z" = some (.leaf 11) ∧ d "x" = some (.leaf 32) ∧ d "w" = some (.leaf 100) ∧ d "y" = none :=
  ⟨_, rfl, _, rfl, rfl, rfl, rfl, rfl⟩

/-- The dictionary of the trace above. -/
def lat : Dict Nat := fun k =>
  if k = "z" then some (.leaf 11) else if k = "x" then some (.leaf 32) else if k = "w" then some (.leaf 100)
  else none

theorem plain_ite {V : Type} (k n : String) (v : V) (d : Dict V) (hd : Plain d) :
    PlainV (if k = n then some (.leaf v) else d k) := by
  split
  · exact .leaf _
  · exact hd k

example : Plain lat := fun _ => plain_ite _ _ _ _ (fun _ => plain_ite _ _ _ _ (plain_pl "w" 100))
/-- C16: replaying with the latents gives the output, here even for another key. -/
example : ∃ g, intervene model lat = .ok g ∧ run 5 g [.leaf 10] = .ok (.leaf 132) ∧
    run 5 g [.leaf 999] = .ok (.leaf 132) := ⟨_, rfl, rfl, rfl⟩

/-- C17: fixing "x" leaves "z" and "w" (which do not depend on it) alone and removes "x". -/
example : ∃ t, traceDo model (pl "x" 7) = .ok t ∧ ∃ d, run 5 t [.leaf 10] = .ok (.leaf 107, d) ∧
    d "z" = some (.leaf 11) ∧ d "x" = none ∧ d "w" = some (.leaf 100) := ⟨_, rfl, _, rfl, rfl, rfl, rfl⟩
example : notScope rvS "x" (sites model) := by
  intro inner h
  simp [model, rv, sites] at h
  subst h; rfl
/-- C17: "w" is independent of "x". -/
example : IndependentOf 5 model (pl "x" 7) "w" [.leaf 10] := by
  have key : ∀ P : Dict Nat, (∀ k, (P k).isSome = (pl "x" 7 k).isSome) → ∃ v, P = fun k => if k = "x" then some v else none := by
    intro P hP
    have := hP "x"
    simp [pl] at this
    obtain ⟨v, hv⟩ := Option.isSome_iff_exists.1 this
    refine ⟨v, funext fun k => ?_⟩
    by_cases hk : k = "x"
    · subst hk; simp [hv]
    · have := hP k
      simp [pl, hk] at this
      simp [hk, this]
  have val : ∀ P : Dict Nat, (∀ k, (P k).isSome = (pl "x" 7 k).isSome) → ∀ t, traceDo model P = .ok t →
      ∀ r, run 5 t [.leaf 10] = .ok r → r.2 "w" = some (.leaf 100) := by
    intro P hP t ht r hr
    obtain ⟨v, rfl⟩ := key P hP
    have ⟨t0, h0, h1⟩ : ∃ t0, traceDo model (fun k => if k = "x" then some v else none) = .ok t0 ∧
      (run 5 t0 [.leaf 10]).map (fun r => r.2 "w") = .ok (some (.leaf 100)) := ⟨_, rfl, rfl⟩
    rw [h0] at ht
    obtain rfl : t0 = t := by simpa using ht
    rw [hr] at h1
    simpa using h1
  intro P Q _ _ hP hQ t t' ht ht' r r' hr hr'
  rw [val P hP t ht r hr, val Q hQ t' ht' r' hr']

/-- C18 -/
example : ∃ g, conditional model ["z", "w"] [.leaf 10, .leaf 3, .leaf 4] = .ok (g, [.leaf 10]) ∧
    run 5 g [.leaf 10] = .ok (.leaf 20) := ⟨_, rfl, rfl⟩
example : conditional model ["z", "w"] [.leaf 10] = .error .zipLength := rfl

/-- C19 -/
example : ∃ g t, block model ["x"] = .ok g ∧ trace g = .ok t ∧ ∃ d, run 5 t [.leaf 10] = .ok (.leaf 132, d) ∧
    d "z" = some (.leaf 11) ∧ d "x" = none ∧ d "w" = some (.leaf 100) := ⟨_, _, rfl, rfl, _, rfl, rfl, rfl, rfl⟩

/-- A model without nested scopes, whose variables are tagged values. -/
def model2 : Prog Nat (List (Val Nat)) (List (Val Nat)) :=
  .seq (.sow rvTag "z" .strict (fun e => .leaf (num (e.getD 0 .zeros) + 1)) (fun _ => true) (fun e v => v :: e))
    (.sow rvTag "x" .strict (fun e => .leaf (2 * num (e.getD 0 .zeros))) (fun _ => true) (fun e v => v :: e))
example : RvProg model2 ∧ NoNest model2 := by simp [model2, RvProg, NoNest, AllSows]
example : OpenScopes ["q"] model ∧ ∃ g t t', block model ["q"] = .ok g ∧ trace g = .ok t ∧
    callAndReap (blockS ["q"]) model = .ok t' :=
  ⟨by simp [OpenScopes, model, rv, AllSows], _, _, _, rfl, rfl, rfl⟩

/-- Witness: a scope name on the blocklist does not hide the names inside the scope: `block` (a plant) only
drops the sows of that name. Here `block(.., ["s"])` leaves the latent "z" inside scope "s" visible. -/
theorem block_scope_not_hidden : ∃ g t, block (nestOf "s" model2) ["s"] = .ok g ∧ trace g = .ok t ∧
    ∃ r, run 5 t [.leaf 10] = .ok r ∧ ∃ d, r.2 "s" = some (.dict d) ∧ d "z" = some (.leaf 11) :=
  ⟨_, _, rfl, rfl, _, rfl, _, rfl, rfl⟩

/-- C20 -/
example : ∃ h, graphReplace model ["z"] ["w"] [.leaf 10, .leaf 3] = .ok (h, [.leaf 10]) ∧
    run 5 h [.leaf 10] = .ok [.leaf 100] ∧ ∃ th, trace h = .ok th ∧
      ∃ r, run 5 th [.leaf 10] = .ok r ∧ r.2 "x" = some (.leaf 16) ∧ r.2 "w" = none ∧ r.2 "z" = none :=
  ⟨_, rfl, rfl, _, rfl, _, rfl, rfl, rfl, rfl⟩
example : graphReplace model ["z"] ["z"] [.leaf 10, .leaf 3] = .error (.keyError "z") := rfl

end Verif.Ppl.Ex

namespace Verif.Ppl

open Verif.Harvest

/-- Naming (with `random_variable(f, name=n)`) a function that already contains a named random variable makes
`trace` and `joint_sample` fail: the scope and the output use the same strict name. -/
theorem rvFun_inner_rejected {V A B : Type} (n : String) (f : Prog V A B) (enc : B → Val V)
    (dec : B → Val V → B) (t : Prog V A (B × Dict V)) (ht : trace f = .ok t)
    (hany : ∃ k, (declares rvS k (sites f)).isSome) :
    trace (rvFun (some n) f enc dec) = .error (.alreadyReaped n) := by
  obtain ⟨m, hm, -⟩ := callAndReap_ok ht
  obtain ⟨k, hk⟩ := hany
  have hne : m.isEmpty = false := by
    rw [← Bool.not_eq_true, Meta.isEmpty_iff]
    intro h
    rw [← metaOf_nil_get hm, h k] at hk; simp at hk
  have hd : rvS.dispatch rvTag n = .handle := by rw [dispatch_handle, rvS_active]; simp
  have hd' : rvS.dispatch rvS.tag n = .handle := hd
  simp only [trace, callAndReap, rvFun, metaOf, hm, except_bind_ok, hne, hd', hd, Meta.handle, Meta.get_nil]
  simp [Meta.get_set, Mode.isClobber]

/-- A named function without named variables inside adds exactly one latent, its output. -/
theorem rvFun_latent {V A B : Type} (n : String) (f : Prog V A B) (hf : RvProg f) (enc : B → Val V)
    (dec : B → Val V → B) (t : Prog V A (B × Dict V)) (ht : trace f = .ok t)
    (hnone : ∀ k, declares rvS k (sites f) = none) :
    ∃ t', trace (rvFun (some n) f enc dec) = .ok t' ∧ ∀ fuel a,
      run fuel t' a = (run fuel f a).map (fun b =>
        (dec b (enc b), fun k => if k = n then some (enc b) else none)) := by
  obtain ⟨m, hm, -⟩ := callAndReap_ok ht
  have he : m.isEmpty = true := by
    rw [Meta.isEmpty_iff]; intro k; rw [metaOf_nil_get hm, hnone]
  have hd : rvS.dispatch rvTag n = .handle := by rw [dispatch_handle, rvS_active]; simp
  have hacc : ∃ t', trace (rvFun (some n) f enc dec) = .ok t' := by
    simp only [trace, callAndReap, rvFun, metaOf, hm, except_bind_ok, he, hd, Meta.handle, Meta.get_nil,
      if_true, except_pure, reduceCtorEq, if_false]
    exact ⟨_, rfl⟩
  obtain ⟨t', ht'⟩ := hacc
  refine ⟨t', ht', fun fuel a => ?_⟩
  have hrv : RvProg (rvFun (some n) f enc dec) := ⟨hf, fun _ => .inl rfl⟩
  rw [trace_exact _ hrv t' ht', run_eq_trace]
  simp only [rvFun, Harvest.trace, id]
  rcases htr : Harvest.trace fuel f a with e | ⟨b, l⟩
  · rfl
  · simp only [except_map_ok, except_bind_ok, except_pure, Except.ok.injEq, Prod.mk.injEq, true_and]
    have ha : rvS.active rvTag n = true := by rw [rvS_active]; simp
    have hany : anySite rvS (sites f) = false := (anySite_false_iff _ _).2 hnone
    funext k
    by_cases hk : k = n
    · subst hk
      simp [expected, sites, declares, Site.declares, ha, collect, Ev.collect]
    · have hk' : ¬ n = k := fun h => hk h.symm
      simp [expected, sites, declares, Site.declares, hk, hk']

end Verif.Ppl
