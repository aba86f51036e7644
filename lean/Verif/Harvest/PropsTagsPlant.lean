import Verif.Harvest.PropsTags
import Verif.Harvest.PropsPlant

/-! C11 for `plant` and `harvest`: planting nothing with one tag leaves the sows of the others alone. -/
namespace Verif.Harvest

theorem metaOf_plantT_other {V A B : Type} {S S' : Settings} (ht : S'.tag ≠ S.tag) (hx : S.exclusive = false) (p : Prog V A B) :
    (∃ st st', plantCheck S p (fun _ => none) st = .ok st') →
    ∀ m, metaOf S' (plantT S p (fun _ => none)) m = metaOf S' p m := by
  induction p with
  | pure f => intro _ m; rfl
  | seq p q ihp ihq =>
    rintro ⟨st, st', h⟩ m
    obtain ⟨st1, h1, h2⟩ := plantCheck_seq h
    simp only [plantT, metaOf, ihp ⟨_, _, h1⟩]
    congr 1
    funext m'
    exact ihq ⟨_, _, h2⟩ m'
  | sow tag name mode pre pred post =>
    rintro ⟨st, st', h⟩ m
    simp only [plantCheck] at h
    split at h
    · simp at h
    rename_i hinv
    simp only [plantT]
    cases hd : S.dispatch tag name
    · have hne := dispatch_other ht hx (S' := S') (tag := tag) (name := name) (by rw [hd]; simp)
      simp only [metaOf, hinv, if_false]
    · simp [metaOf, hinv]
    · simp [metaOf, hinv]
  | nest scope pre body post ih =>
    rintro ⟨st, st', h⟩ m
    obtain ⟨st2, h2⟩ := plantCheck_nest h
    simp only [plantT, metaOf, subPlants_eq, inScope_none, ih ⟨_, _, h2⟩]
  | inline pre body post ih =>
    rintro ⟨st, st', h⟩ m
    simp only [plantT, metaOf]; exact ih ⟨_, _, h⟩ m
  | call kind pre body post ih =>
    rintro ⟨st, st', h⟩ m
    obtain ⟨st1, st2, h2⟩ := plantCheck_call h
    simp only [plantT, metaOf, ih ⟨_, _, h2⟩]
  | cond j sel pre br post ih =>
    rintro ⟨st, st', h⟩ m
    have : ∀ i, metaOf S' (plantT S (br i) (fun _ => none)) [] = metaOf S' (br i) [] := by
      intro i
      obtain ⟨⟨st2, h2⟩, -⟩ := plantCheck_cond h i
      exact ih i ⟨_, _, h2⟩ []
    simp only [plantT, metaOf, this]
  | scan rev pre body post ih =>
    rintro ⟨st, st', h⟩ m
    obtain ⟨mb, st2, hm, h2, -⟩ := plantCheck_scan h
    rw [scanPlants_none] at h2
    simp only [plantT, metaOf, scanPlants_none, ih ⟨_, _, h2⟩, except_bind_ok]
    rcases metaOf S' body [] with e | mb <;> rfl
  | whileL pre test body post iht ihb =>
    rintro ⟨st, st', h⟩ m
    obtain ⟨mb, st2, hm, h2⟩ := plantCheck_while h
    simp only [plantT, metaOf, ihb ⟨_, _, h2⟩]

/-- Reaping one tag after planting nothing with another is reaping. -/
theorem run_reapT_plantT_other {V A B : Type} {S S' : Settings} (ht : S'.tag ≠ S.tag) (hx : S.exclusive = false) (fuel : Nat) (p : Prog V A B) :
    (∃ st st', plantCheck S p (fun _ => none) st = .ok st') → ∀ (a : A) (d : Reaps V),
    run fuel (reapT S' (plantT S p (fun _ => none))) ((a, fun _ => none), d) =
      (run fuel (reapT S' p) (a, d)).map (fun r => ((r.1, fun _ => none), r.2)) := by
  induction p with
  | pure f =>
    intro _ a d
    simp only [plantT, reapT, run]
    rcases f a with e | b <;> rfl
  | seq p q ihp ihq =>
    rintro ⟨st, st', h⟩ a d
    obtain ⟨st1, h1, h2⟩ := plantCheck_seq h
    simp only [plantT, reapT, run, ihp ⟨_, _, h1⟩]
    rcases run fuel (reapT S' p) (a, d) with e | r
    · rfl
    · simp only [except_map_ok, except_bind_ok]
      exact ihq ⟨_, _, h2⟩ r.1 r.2
  | sow tag name mode pre pred post =>
    rintro - a d
    simp only [plantT]
    cases hd : S.dispatch tag name
    · have hne := dispatch_other ht hx (S' := S') (tag := tag) (name := name) (by rw [hd]; simp)
      simp only [reapT]
      cases hd' : S'.dispatch tag name <;> first | rfl | exact absurd hd' hne
    · cases hd' : S'.dispatch tag name <;> simp [reapT, run, hd']
    · cases hd' : S'.dispatch tag name <;> simp [reapT, run, hd']
  | nest scope pre body post ih =>
    rintro ⟨st, st', h⟩ a d
    obtain ⟨st2, h2⟩ := plantCheck_nest h
    have hm := metaOf_plantT_other ht hx body ⟨_, _, h2⟩ []
    simp only [plantT, reapT, run, subPlants_eq, inScope_none, metaD_congr hm]
    rw [ih ⟨_, _, h2⟩]
    rcases run fuel (reapT S' body) (pre a, fun _ => none) with e | r <;> rfl
  | inline pre body post ih =>
    rintro ⟨st, st', h⟩ a d
    simp only [plantT, reapT, run]
    rw [ih ⟨_, _, h⟩]
    rcases run fuel (reapT S' body) (pre a, d) with e | r <;> rfl
  | call kind pre body post ih =>
    rintro ⟨st, st', h⟩ a d
    obtain ⟨st1, st2, h2⟩ := plantCheck_call h
    have hm := metaOf_plantT_other ht hx body ⟨_, _, h2⟩ []
    simp only [plantT, reapT, run, metaD_congr hm]
    rw [ih ⟨_, _, h2⟩]
    rcases run fuel (reapT S' body) (pre a, fun _ => none) with e | r <;> rfl
  | cond j sel pre br post ih =>
    rintro ⟨st, st', h⟩ a d
    obtain ⟨⟨st2, h2⟩, -⟩ := plantCheck_cond h (sel a)
    obtain ⟨⟨st3, h3⟩, -⟩ := plantCheck_cond h 0
    have hm := metaOf_plantT_other ht hx (br 0) ⟨_, _, h3⟩ []
    simp only [plantT, reapT, run, metaD_congr hm]
    rw [ih _ ⟨_, _, h2⟩]
    rcases run fuel (reapT S' (br (sel a))) (pre a, fun _ => none) with e | r <;> rfl
  | scan rev pre body post ih =>
    rintro ⟨st, st', h⟩ a d
    obtain ⟨mb, st2, hm, h2, -⟩ := plantCheck_scan h
    rw [scanPlants_none] at h2
    have hmp := metaOf_plantT_other ht hx body ⟨_, _, h2⟩ []
    have hmd : metaD S' (Prog.seq (Prog.pure (V := V)
        (fun kx : _ × _ × Dict V => Except.ok ((kx.1, kx.2.1), kx.2.2)))
        ((plantT S body (fun _ => none)).seq (Prog.pure (fun r => Except.ok r.1)))) = metaD S' body := by
      apply metaD_congr
      simp only [metaOf, except_bind_ok, hmp]
      rcases metaOf S' body [] with e | m <;> rfl
    simp only [plantT, scanPlants_none, reapT, run, hmd, allIterPlants, appendNames_none,
      clobberPlants_none, iterPlants, except_bind_ok, except_pure, except_map_ok]
    rw [scanDir_forall2 rev _ (fun kx => do
            let r ←
              Except.map (fun y => (y, kx.fst.snd)) (run fuel (reapT S' body) ((kx.fst.fst, kx.snd), fun x => none))
            Except.ok
                ((r.fst.fst.fst, carryStep (fun x => leakedMode (metaD S' body)) r.snd r.fst.snd), r.fst.fst.snd,
                  r.fst.snd)) (fun u v => u = (v, fun _ => none)) ?_ _ (pre a).2 _ ?_]
    · rcases scanDir rev _ _ _ with e | r <;> rfl
    · rintro k x x' rfl
      simp only
      rw [ih ⟨_, _, h2⟩]
      rcases run fuel (reapT S' body) ((k.1, x'), fun _ => none) with e | r <;> rfl
    · rw [List.forall₂_iff_get]
      exact ⟨by simp, fun i h1 h2 => by simp⟩
  | whileL pre test body post iht ihb =>
    rintro ⟨st, st', h⟩ a d
    obtain ⟨mb, st2, hm, h2⟩ := plantCheck_while h
    have hmp := metaOf_plantT_other ht hx body ⟨_, _, h2⟩ []
    simp only [plantT, reapT, run, metaD_congr hmp, except_bind_ok]
    have key := fun (b' : (_ × Dict V) × Reaps V → Except RErr ((_ × Dict V) × Reaps V)) hb =>
      loopM_conj (fun k => run fuel test k.1) (fun k => do
            let r ← Except.map (fun y => (y, k.snd)) (run fuel (reapT S' body) (k.fst, fun x => none))
            Except.ok (r.fst.fst, carryStep (metaD S' body).get r.snd r.fst.snd))
        (fun k : _ × Reaps V => ((k.1, (fun _ => none : Dict V)), k.2))
        (fun k => run fuel test k.fst.fst) b' (fun _ => rfl) hb fuel (pre a, carryInit (metaD S' body))
    simp only at key
    rw [key]
    · rcases loopM _ _ fuel _ with e | r <;> rfl
    · intro k
      rw [ihb ⟨_, _, h2⟩]
      rcases run fuel (reapT S' body) (k.1, fun _ => none) with e | r <;> rfl


/-- C11 for `harvest` with nothing to plant: after `harvest` of one tag (not exclusive), another tag is reaped exactly as
from the original function: it is accepted or rejected with the same error, and the output and the dictionary are the
same. -/
theorem harvest_tags_isolated {V A B : Type} (S S' : Settings) (ht : S'.tag ≠ S.tag) (hx : S.exclusive = false)
    (f : Prog V A B) (g : Prog V A (B × Dict V)) (h : harvest S f (fun _ => none) = .ok g) :
    (∀ e, callAndReap S' g = .error e ↔ callAndReap S' f = .error e) ∧
    ∀ g', callAndReap S' f = .ok g' → ∃ gg, callAndReap S' g = .ok gg ∧ ∀ fuel a,
      (run fuel gg a).map (fun r => (r.1.1, r.2)) = run fuel g' a ∧
      (run fuel gg a).map (·.1) = run fuel g a := by
  simp only [harvest] at h
  rcases hp : plant S f (fun _ => none) with e | p <;> rw [hp] at h
  · simp at h
  simp only [except_bind_ok] at h
  obtain ⟨⟨st, hc⟩, hpeq⟩ := plant_ok hp
  have hmm := metaOf_plantT_other ht hx f ⟨_, _, hc⟩ []
  have hmeta : metaOf S' p [] = metaOf S' f [] := by
    rw [hpeq]
    simp only [metaOf, except_bind_ok, hmm]
    rcases metaOf S' f [] with e | m <;> rfl
  obtain ⟨h1, h2⟩ := tags_isolated S S' ht hx p g h
  refine ⟨fun e => ?_, fun g' hg' => ?_⟩
  · rw [h1]
    simp only [callAndReap, hmeta]
    rcases metaOf S' f [] with e | m <;> simp
  · obtain ⟨m', hm', -⟩ := callAndReap_ok hg'
    have hacc : ∃ p', callAndReap S' p = .ok p' := by
      simp only [callAndReap, hmeta, hm']
      exact ⟨_, rfl⟩
    obtain ⟨p', hp'⟩ := hacc
    obtain ⟨gg, hgg, hrun⟩ := h2 p' hp'
    refine ⟨gg, hgg, fun fuel a => ⟨?_, (hrun fuel a).2⟩⟩
    rw [(hrun fuel a).1, run_callAndReap hp', run_callAndReap hg', hpeq]
    simp only [reapT, run, except_bind_ok, except_map_ok]
    rw [run_reapT_plantT_other ht hx fuel f ⟨_, _, hc⟩]
    rcases run fuel (reapT S' f) (a, fun _ => none) with e | r <;> rfl

end Verif.Harvest
