import Verif.Inverse.ArrRules
import Verif.Propagate.Lemmas

/-! C72: a join function with the required choices exists, every propagation problem has an executable order, and a
program with slices and a concatenation on which `inverse` returns. -/
namespace Verif.Inverse

open Verif.Propagate

/-! ### A join function -/

variable {V : Type}

theorem lexLe_total (a b : List Nat) : lexLe a b = true ∨ lexLe b a = true := by
  induction a generalizing b with
  | nil => left; rfl
  | cons x a ih =>
    rcases b with _ | ⟨y, b⟩
    · right; rfl
    · simp only [lexLe, Bool.or_eq_true, decide_eq_true_eq, Bool.and_eq_true, beq_iff_eq]
      rcases Nat.lt_trichotomy x y with h | h | h
      · left; left; exact h
      · rcases ih b with h' | h'
        · left; right; exact ⟨h, h'⟩
        · right; right; exact ⟨h.symm, h'⟩
      · right; left; exact h

theorem lexLe_trans {a b c : List Nat} (h1 : lexLe a b = true) (h2 : lexLe b c = true) : lexLe a c = true := by
  induction a generalizing b c with
  | nil => rfl
  | cons x a ih =>
    rcases b with _ | ⟨y, b⟩
    · simp [lexLe] at h1
    rcases c with _ | ⟨z, c⟩
    · simp [lexLe] at h2
    simp only [lexLe, Bool.or_eq_true, decide_eq_true_eq, Bool.and_eq_true, beq_iff_eq] at h1 h2 ⊢
    rcases h1 with h1 | ⟨h1, h1'⟩ <;> rcases h2 with h2 | ⟨h2, h2'⟩
    · left; omega
    · left; omega
    · left; omega
    · right; exact ⟨h1.trans h2, ih h1' h2'⟩

/-- Insert a slice in a list sorted by the starts. -/
def insertND (n : ND V) : List (ND V) → List (ND V)
  | [] => [n]
  | m :: l => if lexLe (starts n.slices) (starts m.slices) then n :: m :: l else m :: insertND n l

/-- Sort slices by their starts. -/
def sortND : List (ND V) → List (ND V)
  | [] => []
  | n :: l => insertND n (sortND l)

theorem insertND_perm (n : ND V) (l : List (ND V)) : (insertND n l).Perm (n :: l) := by
  induction l with
  | nil => exact .refl _
  | cons m l ih =>
    simp only [insertND]
    split
    · exact .refl _
    · exact (ih.cons m).trans (.swap n m l)

theorem sortND_perm (l : List (ND V)) : (sortND l).Perm l := by
  induction l with
  | nil => exact .refl _
  | cons n l ih => exact (insertND_perm n _).trans (ih.cons n)

theorem insertND_sorted (n : ND V) (l : List (ND V))
    (h : l.Pairwise (fun m k => lexLe (starts m.slices) (starts k.slices) = true)) :
    (insertND n l).Pairwise (fun m k => lexLe (starts m.slices) (starts k.slices) = true) := by
  induction l with
  | nil => simp [insertND]
  | cons m l ih =>
    rw [List.pairwise_cons] at h
    simp only [insertND]
    split
    · rename_i hle
      refine List.pairwise_cons.2 ⟨fun k hk => ?_, List.pairwise_cons.2 h⟩
      rcases List.mem_cons.1 hk with rfl | hk
      · exact hle
      · exact lexLe_trans hle (h.1 k hk)
    · rename_i hle
      refine List.pairwise_cons.2 ⟨fun k hk => ?_, ih h.2⟩
      rcases List.mem_cons.1 ((insertND_perm n l).mem_iff.1 hk) with rfl | hk
      · exact (lexLe_total _ _).resolve_left hle
      · exact h.1 k hk

theorem sortND_sorted (l : List (ND V)) :
    (sortND l).Pairwise (fun m k => lexLe (starts m.slices) (starts k.slices) = true) := by
  induction l with
  | nil => exact .nil
  | cons n l ih => exact insertND_sorted n _ ih

/-- The merge of a sorted list (core.py:107-119). -/
def mergeSorted (aval : List Nat) : List (ND V) → Cell V
  | [] => ⟨aval, []⟩
  | n :: rest => ⟨aval, mergeGo aval.length [] n rest⟩

/-- A `join` (core.py:96-120) that iterates over the sets in the order of the lists. -/
def joinS (a b : Cell V) : Cell V :=
  if b.top then b
  else if b.bottom then a
  else if a.eq b then a
  else if b.lt a then a
  else if a.lt b then b
  else mergeSorted a.aval (sortND (unionSlices a.slices b.slices))

/-- There is a function that makes choices `join` allows. -/
theorem joinS_joins (a b : Cell V) : Joins a b (joinS a b) := by
  unfold joinS
  split
  · exact .otherTop ‹_›
  rename_i h1
  rw [Bool.not_eq_true] at h1
  split
  · exact .otherBottom h1 ‹_›
  rename_i h2
  rw [Bool.not_eq_true] at h2
  split
  · exact .same h1 h2 ‹_›
  rename_i h3
  rw [Bool.not_eq_true] at h3
  split
  · exact .below h1 h2 h3 ‹_›
  rename_i h4
  rw [Bool.not_eq_true] at h4
  split
  · exact .above h1 h2 h3 h4 ‹_›
  rename_i h5
  rw [Bool.not_eq_true] at h5
  have hp := sortND_perm (unionSlices a.slices b.slices)
  have hs := sortND_sorted (unionSlices a.slices b.slices)
  rcases hl : sortND (unionSlices a.slices b.slices) with _ | ⟨n, rest⟩
  · rw [hl] at hp
    have := hp.symm.eq_nil
    exfalso
    unfold unionSlices at this
    rw [List.append_eq_nil_iff] at this
    obtain ⟨e1, e2⟩ := this
    rw [e1] at e2
    rcases hb : b.slices with _ | ⟨m, l⟩
    · rw [Cell.bottom, hb] at h2; simp at h2
    · rw [hb] at e2; simp [hasKey] at e2
  · rw [hl] at hp hs
    exact .merge h1 h2 h3 h4 h5 n rest hp hs

/-! ### An executable order of propagation -/

section
variable {C L S : Type} (O : CellOps C L)

/-- The equations next to a variable. -/
def nbrs (J : Jaxpr C L S) (x : Nat) : List Nat :=
  (List.range J.eqns.length).filter (fun e => match J.eqns[e]? with
    | some q => ((q.ins ++ q.outs).map Atom.node).contains (some x)
    | none => false)

theorem mem_nbrs (J : Jaxpr C L S) (x e : Nat) : e ∈ nbrs J x ↔ Nbr J x e := by
  unfold nbrs Nbr
  rw [List.mem_filter, List.mem_range]
  constructor
  · rintro ⟨h1, h2⟩
    rcases hq : J.eqns[e]? with _ | q <;> rw [hq] at h2 <;> simp only at h2
    · cases h2
    · exact ⟨q, rfl, by simpa using h2⟩
  · rintro ⟨q, hq, hx⟩
    refine ⟨(List.getElem?_eq_some_iff.1 hq).1, ?_⟩
    rw [hq]
    simpa using hx

/-- The pushes of propagate.py:220-228 with the sets in increasing order. -/
def pushR (J : Jaxpr C L S) (cur : Nat) : List Nat → List Nat → List Nat
  | [], q => q
  | x :: xs, q => pushR J cur xs ((nbrs J x).filter (fun e => !q.contains e && e != cur) ++ q)

theorem pushR_pushes (J : Jaxpr C L S) (cur : Nat) (xs q : List Nat) : Pushes J cur xs q (pushR J cur xs q) := by
  induction xs generalizing q with
  | nil => exact .nil q
  | cons x xs ih =>
    have hn : (nbrs J x).Nodup := List.Nodup.filter _ List.nodup_range
    refine .cons x xs q ((nbrs J x).filter (fun e => !q.contains e && e != cur)) _ (hn.filter _) (fun e => ?_) (ih _)
    rw [List.mem_filter, mem_nbrs]
    simp

/-- One iteration, in that order. -/
def stepR (J : Jaxpr C L S) (s : St C S) : St C S :=
  match s.queue with
  | [] => s
  | e :: rest =>
    match J.eqns[e]? with
    | none => s
    | some q =>
      ⟨(exec O s.env q).1, pushR J e (progressed O (q.ins ++ q.outs)
        (q.ins.map (read O s.env) ++ q.outs.map (read O s.env))
        ((exec O s.env q).2.1 ++ (exec O s.env q).2.2.1)) rest,
        fun i => if i = e then some (exec O s.env q).2.2.2 else s.states i⟩

/-- A number of iterations, in that order. -/
def runR (J : Jaxpr C L S) : Nat → St C S → St C S
  | 0, s => s
  | n + 1, s => stepR O J (runR J n s)

theorem runR_steps (J : Jaxpr C L S) (n : Nat) (s : St C S) : Steps O J s (runR O J n s) := by
  induction n with
  | zero => exact .refl s
  | succ n ih =>
    show Steps O J s (stepR O J (runR O J n s))
    generalize runR O J n s = t at ih
    unfold stepR
    split
    · exact ih
    · rename_i e rest hq
      split
      · exact ih
      · rename_i q he
        exact .tail _ _ _ ih (.mk t e rest q _ hq he (pushR_pushes J e _ rest))

end

/-! ### A program: `x ↦ concatenate [exp x[0:1], x[1:2]]` -/

/-- Variable 0 is the input, 1 and 2 its halves, 3 is `exp` of the first, 4 the output. -/
def exA : AProg where
  consts := []
  shp x := if x = 0 ∨ x = 4 then [2] else [1]
  invars := [0]
  outvars := [.var 4]
  eqns := [(.slice [0] [1], [.var 0], [.var 1]), (.slice [1] [2], [.var 0], [.var 2]), (.un .exp, [.var 1], [.var 3]),
    (.cat 0, [.var 3, .var 2], [.var 4])]

/-- The execution of that program on the array `[0, 1]`. -/
noncomputable def exVal (x : Nat) (k : List Nat) : ℝ :=
  if x = 0 then (k.getD 0 0 : ℝ) else if x = 1 then 0 else if x = 2 then 1 else 1

theorem exA_executes : exA.Executes exVal := by
  refine ⟨fun c hc => by simp [exA] at hc, ?_⟩
  intro q hq
  simp only [exA, List.mem_cons, List.not_mem_nil, or_false] at hq
  have one : ∀ k, inBox (fullBox [1]) k → k = [0] := by
    intro k hk
    rcases k with _ | ⟨a, _ | ⟨b, k⟩⟩ <;> simp [fullBox, inBox] at hk
    subst hk; rfl
  have two : ∀ k, inBox (fullBox [2]) k → k = [0] ∨ k = [1] := by
    intro k hk
    rcases k with _ | ⟨a, _ | ⟨b, k⟩⟩ <;> simp [fullBox, inBox] at hk
    rcases hk with _ | _ | _ <;> simp
  rcases hq with rfl | rfl | rfl | rfl
  · refine .cons ⟨rfl, fun k hk => ?_⟩ .nil
    obtain rfl := one k hk
    simp [AProg.arr, exVal, shift]
  · refine .cons ⟨rfl, fun k hk => ?_⟩ .nil
    obtain rfl := one k hk
    simp [AProg.arr, exVal, shift]
  · refine .cons ⟨rfl, fun k hk => ?_⟩ .nil
    obtain rfl := one k hk
    simp [AProg.arr, exVal, Un.f]
  · refine .cons ⟨rfl, fun k hk => ?_⟩ .nil
    rcases two k hk with rfl | rfl
    · simp [AProg.arr, exVal, catVal, exA]
    · simp [AProg.arr, exVal, catVal, exA]

theorem exA_typed : exA.Typed exVal := by
  refine ⟨?_, ?_⟩ <;> intro q hq <;> simp only [exA, List.mem_cons, List.not_mem_nil, or_false] at hq
  · rcases hq with rfl | rfl | rfl | rfl
    · exact ⟨.cons (by decide) .nil, .cons (by decide) .nil, rfl⟩
    · exact ⟨.cons (by decide) .nil, .cons (by decide) .nil, rfl⟩
    · exact ⟨by simp, rfl⟩
    · refine ⟨by decide, ?_, rfl⟩
      intro t ht
      exact ⟨1, by simpa [AProg.arr, exA] using ht⟩
  · rcases hq with rfl | rfl | rfl | rfl <;> intro a ha v <;> simp at ha <;> subst ha <;> simp

theorem exA_ok : ∀ q ∈ exA.eqns, q.1.Ok (q.2.1.map (exA.arr exVal)) := by
  intro q hq
  simp only [exA, List.mem_cons, List.not_mem_nil, or_false] at hq
  rcases hq with rfl | rfl | rfl | rfl
  · trivial
  · trivial
  · intro k hk; exact ⟨_, rfl, trivial⟩
  · trivial

/-- The initial state of the run below. -/
noncomputable def exInit : St ACell Bool :=
  ⟨initEnv (aOps joinS exA.shp) (exA.jaxpr joinS) [] [⟨[2], []⟩] [newCell [2] (fun k => some (exVal 4 k))], [3, 0, 1],
    fun _ => none⟩

/-- On that program, with the two halves of the input known at different times, `inverse` returns. -/
theorem exA_returns : ∃ res, ArrayRun joinS exA ([Atom.var 4].map (exA.arr exVal)) (some res) := by
  have hq : (runR (aOps joinS exA.shp) (exA.jaxpr joinS) 5 exInit).queue = [] := by rfl
  have ht : ∃ v, topVal ((runR (aOps joinS exA.shp) (exA.jaxpr joinS) 5 exInit).env 0) = some v := by
    exact ⟨_, rfl⟩
  obtain ⟨v, hv⟩ := ht
  refine ⟨[v], exInit, _, ⟨rfl, ⟨by decide, ?_⟩, fun _ => rfl⟩, runR_steps _ _ 5 exInit, hq, ?_⟩
  · intro e
    constructor
    · intro h
      simp only [exInit, List.mem_cons, List.not_mem_nil, or_false] at h
      rcases h with rfl | rfl | rfl
      · exact ⟨4, by simp [AProg.jaxpr, exA, Atom.node], _, rfl, by simp [Atom.node]⟩
      · exact ⟨0, by simp [AProg.jaxpr, exA, Atom.node], _, rfl, by simp [Atom.node]⟩
      · exact ⟨0, by simp [AProg.jaxpr, exA, Atom.node], _, rfl, by simp [Atom.node]⟩
    · rintro ⟨x, hx, q, he, hn⟩
      simp [AProg.jaxpr, exA, Atom.node] at hx
      rcases e with _ | _ | _ | _ | e <;> simp [AProg.jaxpr, exA] at he <;> simp [exInit]
      subst he
      simp [Atom.node] at hn
      omega
  · show some [v] = List.mapM topVal [_]
    simp [hv]

/-- The hypotheses of `C72_values` are met by that program, and its conclusion is about a run that returns. -/
example : (∀ a b : ACell, Joins a b (joinS a b)) ∧ exA.Executes exVal ∧ exA.Typed exVal ∧
    (∀ q ∈ exA.eqns, q.1.Ok (q.2.1.map (exA.arr exVal))) ∧
    ∃ res, ArrayRun joinS exA (exA.outvars.map (exA.arr exVal)) (some res) ∧
      List.Forall₂ (fun x v => ∀ k, inBox (fullBox (exA.shp x)) k → (v k).1 = some (exVal x k)) exA.invars res := by
  obtain ⟨res, hr⟩ := exA_returns
  exact ⟨joinS_joins, exA_executes, exA_typed, exA_ok, res, hr,
    C72_values joinS_joins exA exVal exA_executes exA_typed exA_ok res hr⟩

end Verif.Inverse
