import Verif.Proof.IocpClose

/-! What `wait` has collected. -/

namespace Polling.IocpM
open Iocp IocpSpec

/-- The events the `wait` in progress has collected. -/
def Phase.collected : Phase → Option (List (Event EventExtra))
  | .top _ _ => some []
  | .start w | .pop w | .upd w _ | .port w | .unpoll w _ | .feed w _ => some w.evs
  | .feedUpd w _ _ ev => some (w.evs ++ ev.toList)
  | .fin evs => some evs
  | .idle | .fail .. | .drain .. | .stuck => none

/-- The completions the `wait` in progress has taken and not processed. -/
def Phase.batch : Phase → List PId
  | .unpoll _ b | .feed _ b | .feedUpd _ b _ _ | .drain _ _ b => b
  | _ => []

/-- The local variables of the `wait` in progress. -/
def Phase.w? : Phase → Option W
  | .start w | .pop w | .upd w _ | .port w | .unpoll w _ | .feed w _ | .feedUpd w _ _ _ | .fail w _ | .drain w _ _ => some w
  | _ => none

theorem addEvent_evs (w ev) : (addEvent w ev).evs = w.evs ++ ev.toList := by
  cases ev <;> simp [addEvent]

/-- The observation adds nothing to what was found. -/
def NoFind : IObs → Prop
  | .deliver .. | .received .. | .waitBegin | .waitAgain => False
  | _ => True

theorem found_noFind {o tr} (h : NoFind o) : found (o :: tr) = found tr := by
  cases o <;> first | rfl | exact absurd h id

/-- The observations of `update_packet`. -/
def UObs : IObs → Prop
  | .tau | .queued _ | .popped _ | .polled _ _ => True
  | _ => False

theorem uobs_updateObs (p m) : UObs (updateObs p m) := by unfold updateObs; split <;> trivial

theorem uobs_ustep {fault c u c' out o} (h : ustep fault c u = (c', out, o)) : UObs o := by
  cases u with
  | load p => simp only [ustep] at h; cases h; trivial
  | run p => simp only [ustep] at h; cases h; exact uobs_updateObs _ _
  | push p => simp only [ustep] at h; split at h <;> (cases h; trivial)
  | pop p n => simp only [ustep] at h; split at h <;> (cases h; trivial)
  | drain p n q => simp only [ustep] at h; cases h; exact uobs_updateObs _ _

theorem UObs.noFind {o} (h : UObs o) : NoFind o := by cases o <;> first | trivial | exact absurd h id

theorem noFind_updateObs (p m) : NoFind (updateObs p m) := (uobs_updateObs p m).noFind

theorem noFind_ustep {fault c u c' out o} (h : ustep fault c u = (c', out, o)) : NoFind o := (uobs_ustep h).noFind

theorem noFind_goCall {s t fault s' o} (h : goCall s t fault = some (s', o)) : NoFind o ∧ s'.phase = s.phase := by
  unfold goCall at h
  split at h
  · split at h <;> (cases h; exact ⟨trivial, rfl⟩)
  · repeat' split at h
    all_goals (cases h; exact ⟨trivial, rfl⟩)
  · split at h
    · cases h; exact ⟨trivial, rfl⟩
    · cases h
  · cases h; exact ⟨trivial, rfl⟩
  · split at h <;> (rename_i hu; cases h; exact ⟨noFind_ustep hu, rfl⟩)
  · cases h; exact ⟨trivial, rfl⟩
  · cases h

/-- What `wait` returns is what it found. -/
theorem reach_found {n P s tr} (h : Reach n P s tr) : ∀ evs, s.phase.collected = some evs → evs = found tr := by
  induction h with
  | init => nofun
  | @step s tr a s' o hr _ hs ih =>
    have keep : NoFind o → s'.phase = s.phase → ∀ evs, s'.phase.collected = some evs → evs = found (o :: tr) := by
      intro h1 h2 evs h3
      rw [found_noFind h1]; exact ih evs (by rw [← h2]; exact h3)
    have keep' : NoFind o → s'.phase.collected = s.phase.collected → ∀ evs, s'.phase.collected = some evs → evs = found (o :: tr) := by
      intro h1 h2 evs h3
      rw [found_noFind h1]; exact ih evs (by rw [← h2]; exact h3)
    cases a with
    | call t call =>
      simp only [step] at hs
      repeat' split at hs
      all_goals cases hs
      all_goals exact keep trivial rfl
    | go t fault =>
      simp only [step] at hs
      split at hs
      · cases hs
      · obtain ⟨h1, h2⟩ := noFind_goCall hs
        exact keep h1 h2
    | waitBegin timed cap =>
      simp only [step] at hs
      repeat' split at hs
      all_goals cases hs
      intro evs he; cases he; rfl
    | wait fault =>
      simp only [step, goWait] at hs
      split at hs
      · rename_i hph; cases hs; exact keep' trivial (by rw [hph]; rfl)
      · rename_i hph; cases hs; exact keep' trivial (by rw [hph]; rfl)
      · rename_i hph; split at hs <;> (cases hs; exact keep' trivial (by rw [hph]; rfl))
      · rename_i hph; split at hs
        · cases hs; exact keep' (noFind_updateObs _ _) (by rw [hph]; rfl)
        · cases hs; nofun
      · rename_i hph; cases hs; exact keep' trivial (by rw [hph]; rfl)
      · unfold waitFail at hs
        split at hs
        · cases hs; intro evs he; cases he; rfl
        · cases hs; nofun
      · unfold waitFail at hs
        split at hs
        · cases hs; intro evs he; cases he; rfl
        · cases hs; nofun
      · cases hs; nofun
      · rename_i w p batch hph
        split at hs
        · cases hs; exact keep' trivial (by rw [hph]; rfl)
        · cases hs; exact keep' trivial (by rw [hph]; rfl)
        · rename_i ev _ _; cases hs
          intro evs he
          have := ih w.evs (by rw [hph]; rfl)
          injection he with he
          rw [addEvent_evs] at he
          rw [← he, this]; rfl
        · cases hs; nofun
        · rename_i k fd ev c _; cases hs
          intro evs he
          have := ih w.evs (by rw [hph]; rfl)
          injection he with he
          rw [← he, this]
          cases ev with
          | none => simp [found]
          | some ev => rfl
      · rename_i w batch u ev hph
        split at hs
        · rename_i hu; cases hs; exact keep' (noFind_ustep hu) (by rw [hph]; rfl)
        · rename_i hu; cases hs; exact keep' (noFind_ustep hu) (by rw [hph]; exact congrArg some (addEvent_evs w ev))
        · cases hs; nofun
      · cases hs; nofun
      · cases hs
    | getFail e =>
      simp only [step] at hs
      repeat' split at hs
      all_goals cases hs
      all_goals nofun
    | get =>
      simp only [step] at hs
      repeat' split at hs
      all_goals cases hs
      all_goals (rename_i hph _; exact keep' trivial (by rw [hph]; rfl))
    | decide e =>
      simp only [step] at hs
      repeat' split at hs
      all_goals cases hs
      all_goals (rename_i hph _; exact keep' trivial (by rw [hph]; rfl))
    | _ =>
      simp only [step] at hs
      repeat' split at hs
      all_goals cases hs
      all_goals exact keep trivial rfl

/-- A completed `wait`. -/
theorem waitOk_found {n P s tr a s' m evs} (h : Reach n P s tr) (hs : step n s a = some (s', .waitOk m evs)) :
    evs = (found tr).filter (fun ev => ev.key != NOTIFY_KEY) ∧ m = evs.length := by
  cases a with
  | wait fault =>
    simp only [step, goWait] at hs
    split at hs
    · cases hs
    · cases hs
    · split at hs <;> cases hs
    · split at hs <;> (injection hs with hs; injection hs with _ hs; unfold updateObs at hs; split at hs <;> cases hs)
    · cases hs
    · unfold waitFail at hs; split at hs <;> cases hs
    · unfold waitFail at hs; split at hs <;> cases hs
    · cases hs
    · split at hs <;> try cases hs
      rename_i k fd ev c _; cases ev <;> cases hs
    · split at hs
      · rename_i hu; cases hs; exact absurd (uobs_ustep hu) id
      · rename_i hu; cases hs; exact absurd (uobs_ustep hu) id
      · rename_i hu; cases hs; exact absurd (uobs_ustep hu) id
    · rename_i evs' hph
      cases hs
      exact ⟨by rw [← reach_found h evs' (by rw [hph]; rfl)]; rfl, rfl⟩
    · cases hs
  | go t fault =>
    simp only [step, goCall] at hs
    repeat' split at hs
    all_goals try cases hs
    all_goals (rename_i hu; exact absurd (uobs_ustep hu) id)
  | _ =>
    simp only [step] at hs
    repeat' split at hs
    all_goals cases hs

end Polling.IocpM
