/-
Concrete stateful functions meeting the hypotheses of the theorems of `Props` and `InitCall`.
-/
import Verif.State.InitCall
import Verif.State.SeqProps

namespace Verif.State.Ex

open Verif.Harvest

def num : Val Nat → Nat
  | .leaf n => n
  | _ => 0

/-- `def f(x, init_key): w = variable(init_key + 1, 'w'); b = variable(7, 'b'); assign(w + x, 'w');
return w * x + b`. -/
def f : Prog Nat (Nat × Nat) Nat :=
  .seq (variableP "w" .strict (fun a => .leaf (a.1 + 1)) (fun a v => (a.2, num v)))
    (.seq (variableP "b" .strict (fun _ => .leaf 7) (fun a v => (a, num v)))
      (.seq (assignP "w" .clobber (fun a => .leaf (a.1.2 + a.1.1)) (fun a _ => a))
        (.pure (fun a => .ok (a.1.2 * a.1.1 + a.2)))))

/-- The module obtained from `init(f)(3, 5)`, `PRNGKey(0)` being 0. -/
theorem f_init : ∃ m, functionInit 1 0 f none 3 5 = .ok m ∧ m.variables "w" = some (.leaf 4) ∧
    m.variables "b" = some (.leaf 7) ∧ m.variables "c" = none := ⟨_, rfl, rfl, rfl, rfl⟩

theorem f_regular : Regular asgS (fun _ => false) f ∧ Regular varS (fun _ => false) f ∧ NoClobber varS f := by
  refine ⟨⟨fun h => ?_, fun h => ?_, fun _ => by simp, trivial⟩, ⟨fun _ => by simp, fun _ => by simp, fun h => ?_, trivial⟩,
    ⟨fun _ => rfl, fun _ => rfl, fun h => ?_, trivial⟩⟩
  · exact absurd h (by decide)
  · exact absurd h (by decide)
  · exact absurd h (by decide)
  · exact absurd h (by decide)

theorem f_asg (n : String) : declares asgS n (sites f) = if n = "w" then some .clobber else none := by
  by_cases h : n = "w"
  · subst h; rfl
  · have : ¬ "w" = n := fun e => h e.symm
    simp [f, sites, variableP, assignP, declares, Site.declares, Settings.active, asgS, variableTag, assignTag,
      h, this]

/-- The variables of a module initialised from `f` (any key and argument) are plain leaves. -/
theorem f_vars (key x : Nat) (m : FModule Nat Nat Nat) (h : functionInit 1 0 f none key x = .ok m) :
    m.variables "w" = some (.leaf (key + 1)) ∧ m.variables "b" = some (.leaf 7) ∧
    ∀ n, m.variables n = none ∨ ∃ v, m.variables n = some (.leaf v) := by
  obtain ⟨y, log, ht, hv⟩ := init_variables 1 0 f none key x m h _ (regular_reap_var f f_regular.2.1)
  have : trace 1 f (key, x) = .ok ((key + 1) * x + 7, [.sow variableTag "w" .strict (.leaf (key + 1)) true,
    .sow variableTag "b" .strict (.leaf 7) true, .sow assignTag "w" .clobber (.leaf (key + 1 + x)) true]) := rfl
  rw [this] at ht
  simp only [Except.ok.injEq, Prod.mk.injEq] at ht
  obtain ⟨-, rfl⟩ := ht
  rw [hv]
  refine ⟨rfl, rfl, fun n => ?_⟩
  by_cases h1 : n = "w"
  · subst h1; exact .inr ⟨key + 1, rfl⟩
  · by_cases h2 : n = "b"
    · subst h2; exact .inr ⟨7, rfl⟩
    · left
      have h1' : ¬ "w" = n := fun e => h1 e.symm
      have h2' : ¬ "b" = n := fun e => h2 e.symm
      simp [expected, f, sites, variableP, assignP, declares, Site.declares, h1', h2']

theorem f_plain (key x : Nat) (m : FModule Nat Nat Nat) (h : functionInit 1 0 f none key x = .ok m) :
    Plain m.variables := by
  intro n
  rcases (f_vars key x m h).2.2 n with h | ⟨v, h⟩ <;> rw [h]
  · exact .none
  · exact .leaf v

/-- `AssignsFit` holds: the assigned value is always a leaf. -/
theorem f_fit (m : FModule Nat Nat Nat) (h : functionInit 1 0 f none 3 5 = .ok m) :
    AssignsFit 1 0 f m.variables := by
  intro vars x y log ht n hn hs
  rw [f_asg] at hn
  by_cases hw : n = "w"
  · subst hw
    have hl : ∃ v, collect asgS "w" log = some (.leaf v) := by
      have ha : varS.active assignTag "w" = false := rfl
      have hb : varS.active variableTag "w" = true := rfl
      have hc : varS.active variableTag "b" = true := rfl
      have hd : (assignTag ≠ varS.tag ∧ varS.exclusive = false) := ⟨by decide, rfl⟩
      simp only [f, variableP, assignP, ptrace, hb, hc, ha, if_true, Bool.false_eq_true, if_false] at ht
      simp only [if_pos hd] at ht
      rcases hw : vars "w" with _ | v1 <;> rcases hb : vars "b" with _ | v2 <;> rw [hw, hb] at ht <;>
        simp [Except.map] at ht <;> obtain ⟨rfl, rfl⟩ := ht <;> exact ⟨_, rfl⟩
    obtain ⟨v, hv⟩ := hl
    rw [hv, (f_vars 3 5 m h).1]
    exact ⟨.flat _ _ rfl rfl, .leaf v⟩
  · simp [hw] at hn

/-- The hypotheses of `updates_last`, `callAndUpdate_spec` and `init_then_call` are met by a real module,
and two updates leave the value of the last assignment. -/
example : ∃ m, functionInit 1 0 f none 3 5 = .ok m ∧ Regular asgS (fun _ => false) f ∧ Plain m.variables ∧
    AssignsFit 1 0 f m.variables ∧ ∃ m', updates 1 m [10, 20] = .ok m' ∧ m'.variables "w" = some (.leaf 34) ∧
    m'.variables "b" = some (.leaf 7) ∧ m'.call 1 2 = .ok 75 := by
  obtain ⟨m, hm, -⟩ := f_init
  refine ⟨m, hm, f_regular.1, f_plain 3 5 m hm, f_fit m hm, ?_⟩
  have : functionInit 1 0 f none 3 5 = .ok m := hm
  cases hm
  exact ⟨_, rfl, rfl, rfl, rfl⟩

/-- `init_then_call` applies: the output of the module is that of the function. -/
example : ∃ m y, functionInit 1 0 f none 3 5 = .ok m ∧ run 1 f (3, 5) = .ok y ∧ m.call 1 5 = .ok y := by
  obtain ⟨m, hm, -⟩ := f_init
  have hv := f_vars 3 5 m hm
  obtain ⟨y, h1, h2⟩ := init_then_call 1 0 f none 3 5 m hm _ f_regular.1 f_regular.2.2 f_regular.2.1
    (f_plain 3 5 m hm) (by
      intro n hn
      rw [f_asg] at hn
      by_cases hw : n = "w"
      · subst hw; rw [hv.1]; rfl
      · simp [hw] at hn)
    (.inr (by
      have hb : varS.active variableTag "w" = true := rfl
      have hc : varS.active variableTag "b" = true := rfl
      simp [f, variableP, ptrace, hb, hc, hv.1, hv.2.1]))
  exact ⟨m, y, hm, h1, h2⟩

/-- `unknown_assign` applies: `assign` without a variable raises. -/
def bad : Prog Nat (Nat × Nat) Nat := assignP "w" .clobber (fun a => .leaf a.2) (fun a _ => a.2)

example : ∃ m, functionInit 1 0 bad none 3 5 = .ok m ∧ m.callAndUpdate 1 5 = .error (.noVariable "w") :=
  ⟨_, rfl, rfl⟩

end Verif.State.Ex
