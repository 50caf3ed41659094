import Verif.Proof.IocpOps

/-! The queue of updates, the flag `polling` and the counters of `wait`. -/

namespace Polling.IocpM
open Iocp IocpSpec

/-- `wait` has set `polling`. -/
def Phase.polls : Phase → Bool
  | .pop _ | .upd _ _ | .port _ | .unpoll _ _ | .fail _ _ => true
  | _ => false

theorem ustep_frame {fault c u c' out o} (hu : ustep fault c u = (c', out, o)) :
    c'.polling = c.polling ∧ c'.table = c.table ∧ c'.next = c.next ∧ c'.port = c.port := by
  cases u with
  | load p => simp only [ustep] at hu; cases hu; exact ⟨rfl, rfl, rfl, rfl⟩
  | run p =>
    simp only [ustep] at hu; cases hu
    obtain ⟨a, b, c, d, e, _⟩ := update_frame fault c p
    exact ⟨d, b, a, e⟩
  | push p => simp only [ustep] at hu; split at hu <;> (cases hu; exact ⟨rfl, rfl, rfl, rfl⟩)
  | pop p n => simp only [ustep] at hu; split at hu <;> (cases hu; exact ⟨rfl, rfl, rfl, rfl⟩)
  | drain p n q =>
    simp only [ustep] at hu; cases hu
    obtain ⟨a, b, c, d, e, _⟩ := update_frame fault c q
    exact ⟨d, b, a, e⟩

theorem dropEntries_rest (c : Core) (batch) : (dropEntries c batch).pending = c.pending ∧ (dropEntries c batch).polling = c.polling ∧
    (dropEntries c batch).table = c.table := by
  unfold dropEntries
  induction batch generalizing c with
  | nil => exact ⟨rfl, rfl, rfl⟩
  | cons p l ih =>
    rw [List.foldl_cons]
    obtain ⟨a, b, d⟩ := ih (dropEntry c p)
    obtain ⟨_, e, f, g, _, _⟩ := dropEntry_frame c p
    exact ⟨a.trans f, b.trans g, d.trans e⟩

theorem setEvents_frame (c : Core) (p ev mode) : (setEvents c p ev mode).2.pending = c.pending ∧
    (setEvents c p ev mode).2.polling = c.polling ∧ (setEvents c p ev mode).2.port = c.port ∧ (setEvents c p ev mode).2.next = c.next ∧
    (setEvents c p ev mode).2.table = c.table ∧ ∀ q, q ≠ p → (setEvents c p ev mode).2.pk q = c.pk q := by
  unfold setEvents
  split
  · exact ⟨rfl, rfl, rfl, rfl, rfl, fun q h => setPk_other _ _ h⟩
  · exact ⟨rfl, rfl, rfl, rfl, rfl, fun q h => setPk_other _ _ h⟩
  · exact ⟨rfl, rfl, rfl, rfl, rfl, fun _ _ => rfl⟩

/-- The flag `polling` is set exactly from the swap to the end of `port.wait`. -/
theorem reach_polling {n P s tr} (h : Reach n P s tr) : s.c.polling = s.phase.polls := by
  induction h with
  | init => rfl
  | @step s tr a s' o hr hp hs ih =>
    cases a with
    | call t call =>
      simp only [step] at hs
      repeat' split at hs
      all_goals cases hs
      all_goals exact ih
    | go t fault =>
      simp only [step, goCall] at hs
      split at hs
      · cases hs
      split at hs
      · split at hs <;> (cases hs; exact ih)
      · repeat' split at hs
        all_goals cases hs
        all_goals exact ih
      · split at hs
        · cases hs; exact ((setEvents_frame _ _ _ _).2.1).trans ih
        · cases hs
      · cases hs; exact ((beginDelete_frame _ _ _).2.2.2.1).trans ih
      · split at hs
        · rename_i hu; cases hs; exact (ustep_frame hu).1.trans ih
        · rename_i hu; cases hs; exact (ustep_frame hu).1.trans ih
      · cases hs; exact ih
      · cases hs
    | wait fault =>
      simp only [step, goWait] at hs
      split at hs
      · rename_i hp; cases hs; exact ih.trans (by rw [hp]; rfl)
      · cases hs; rfl
      · rename_i hp; split at hs <;> (cases hs; exact ih.trans (by rw [hp]; rfl))
      · rename_i w q hp
        have hf := (update_frame fault s.c q).2.2.2.1
        split at hs
        · rename_i he; rw [he] at hf; cases hs; exact hf.trans (ih.trans (by rw [hp]; rfl))
        · rename_i he; rw [he] at hf; cases hs; exact hf.trans (ih.trans (by rw [hp]; rfl))
      · cases hs; rfl
      · unfold waitFail at hs
        split at hs <;> (cases hs; rfl)
      · rename_i hp
        have h0 : s.c.polling = false := ih.trans (by rw [hp]; rfl)
        unfold waitFail at hs
        split at hs <;> (cases hs; exact h0)
      · rename_i w e p batch hp
        have h0 : s.c.polling = false := ih.trans (by rw [hp]; rfl)
        cases hs; exact (dropEntries_rest s.c [p]).2.1.trans h0
      · rename_i w p batch hp
        have hf := (feed_frame s.c p).2.2.2.1
        have h0 : s.c.polling = false := ih.trans (by rw [hp]; rfl)
        split at hs <;> (rename_i he; rw [he] at hf; cases hs; exact hf.trans h0)
      · rename_i w batch u ev hp
        have h0 : s.c.polling = false := ih.trans (by rw [hp]; rfl)
        split at hs
        · rename_i hu; cases hs; exact (ustep_frame hu).1.trans h0
        · rename_i hu; cases hs; exact (ustep_frame hu).1.trans h0
        · rename_i hu; cases hs; exact (ustep_frame hu).1.trans h0
      · rename_i hp; cases hs; exact ih.trans (by rw [hp]; rfl)
      · cases hs
    | newPacket _ => simp only [step] at hs; repeat' split at hs
                     all_goals cases hs
                     all_goals exact ih
    | post _ _ => simp only [step] at hs; repeat' split at hs
                  all_goals cases hs
                  all_goals exact ih
    | notifyCas _ => simp only [step] at hs; repeat' split at hs
                     all_goals cases hs
                     all_goals exact ih
    | notifyPost _ _ => simp only [step] at hs; repeat' split at hs
                        all_goals cases hs
                        all_goals exact ih
    | waitBegin _ _ => simp only [step] at hs; repeat' split at hs
                       all_goals cases hs
                       all_goals (exact ih.trans (by simp [Phase.polls, *]))
    | waitBusy => simp only [step] at hs; repeat' split at hs
                  all_goals cases hs
                  all_goals exact ih
    | get => simp only [step] at hs; repeat' split at hs
             all_goals cases hs
             all_goals (exact ih.trans (by simp [Phase.polls, *]))
    | getFail _ => simp only [step] at hs; repeat' split at hs
                   all_goals cases hs
                   all_goals (exact ih.trans (by simp [Phase.polls, *]))
    | decide _ => simp only [step] at hs; repeat' split at hs
                  all_goals cases hs
                  all_goals (exact ih.trans (by simp [Phase.polls, *]))
    | complete _ _ => simp only [step] at hs; repeat' split at hs
                      all_goals cases hs
                      all_goals exact ih
    | fire _ => simp only [step] at hs; repeat' split at hs
                all_goals cases hs
                all_goals exact ih
    | callback _ => simp only [step] at hs; repeat' split at hs
                    all_goals cases hs
                    all_goals exact ih
    | callbackPost _ _ => simp only [step] at hs; repeat' split at hs
                          all_goals cases hs
                          all_goals exact ih

/-- The observation is not about the queue. -/
def NoQueue : IObs → Prop
  | .queued _ | .popped _ => False
  | _ => True

theorem noQueue_updateObs (p m) : NoQueue (updateObs p m) := by unfold updateObs; split <;> trivial

/-- The steps by their effect on the queue of updates. -/
inductive QStep : List PId → IObs → List PId → Prop
  | same {q o} : NoQueue o → QStep q o q
  | push {q p} : q.length < CAPACITY → QStep q (.queued p) (q ++ [p])
  | pop {q p} : QStep (p :: q) (.popped p) q

theorem ustep_queue {fault c u c' out o} (hu : ustep fault c u = (c', out, o)) : QStep c.pending o c'.pending := by
  cases u with
  | load p => simp only [ustep] at hu; cases hu; exact .same trivial
  | run p =>
    simp only [ustep] at hu; cases hu
    rw [(update_frame fault c p).2.2.1]; exact .same (noQueue_updateObs _ _)
  | push p =>
    simp only [ustep] at hu
    split at hu
    · rename_i hl; cases hu; exact .push hl
    · cases hu; exact .same trivial
  | pop p n =>
    simp only [ustep] at hu
    split at hu
    · rename_i heq; cases hu; dsimp only; rw [heq]; exact .pop
    · cases hu; exact .same trivial
  | drain p n q =>
    simp only [ustep] at hu; cases hu
    rw [(update_frame fault c q).2.2.1]; exact .same (noQueue_updateObs _ _)

/-- A failing step of `update_packet` does not touch the queue. -/
theorem ustep_err {fault c u c' e o} (hu : ustep fault c u = (c', .done (.err e), o)) : c'.pending = c.pending := by
  cases u with
  | load p => simp only [ustep] at hu; cases hu
  | run p =>
    simp only [ustep] at hu; injection hu with h1 _; subst h1
    exact (update_frame fault c p).2.2.1
  | push p => simp only [ustep] at hu; split at hu <;> cases hu
  | pop p n => simp only [ustep] at hu; split at hu <;> cases hu
  | drain p n q =>
    simp only [ustep] at hu; injection hu with h1 _; subst h1
    exact (update_frame fault c q).2.2.1

theorem step_queue {n s a s' o} (hs : step n s a = some (s', o)) : QStep s.c.pending o s'.c.pending := by
  cases a with
  | call t call =>
    simp only [step] at hs
    repeat' split at hs
    all_goals cases hs
    all_goals exact .same trivial
  | go t fault =>
    simp only [step, goCall] at hs
    split at hs
    · cases hs
    split at hs
    · split at hs <;> (cases hs; exact .same trivial)
    · repeat' split at hs
      all_goals cases hs
      all_goals exact .same trivial
    · split at hs
      · cases hs; dsimp only; rw [(setEvents_frame _ _ _ _).1]; exact .same trivial
      · cases hs
    · cases hs; dsimp only; rw [(beginDelete_frame _ _ _).2.2.1]; exact .same trivial
    · split at hs
      · rename_i hu; cases hs; exact ustep_queue hu
      · rename_i hu; cases hs; exact ustep_queue hu
    · cases hs; exact .same trivial
    · cases hs
  | wait fault =>
    simp only [step, goWait] at hs
    split at hs
    · cases hs; exact .same trivial
    · cases hs; exact .same trivial
    · split at hs
      · rename_i heq; cases hs; dsimp only; rw [heq]; exact .pop
      · cases hs; exact .same trivial
    · rename_i w q hp
      have hf := (update_frame fault s.c q).2.2.1
      split at hs
      · rename_i he; rw [he] at hf; cases hs; dsimp only at hf ⊢; rw [hf]; exact .same (noQueue_updateObs _ _)
      · rename_i he; rw [he] at hf; cases hs; dsimp only at hf ⊢; rw [hf]; exact .same (noQueue_updateObs _ _)
    · cases hs; exact .same trivial
    · unfold waitFail at hs
      split at hs <;> (cases hs; exact .same trivial)
    · unfold waitFail at hs
      split at hs <;> (cases hs; exact .same trivial)
    · rename_i w e p batch hp
      cases hs; dsimp only; rw [show (dropEntry s.c p).pending = _ from (dropEntries_rest s.c [p]).1]; exact .same trivial
    · rename_i w p batch hp
      have hf := (feed_frame s.c p).2.2.1
      split at hs
      · rename_i he; rw [he] at hf; cases hs; dsimp only at hf ⊢; rw [hf]; exact .same trivial
      · rename_i he; rw [he] at hf; cases hs; dsimp only at hf ⊢; rw [hf]; exact .same trivial
      · rename_i he; rw [he] at hf; cases hs; dsimp only at hf ⊢; rw [hf]; exact .same trivial
      · rename_i he; rw [he] at hf; cases hs; dsimp only at hf ⊢; rw [hf]; exact .same trivial
      · rename_i he; rw [he] at hf; cases hs; dsimp only at hf ⊢; rw [hf]; refine .same ?_
        split <;> trivial
    · rename_i w batch u ev hp
      split at hs
      · rename_i hu; cases hs; exact ustep_queue hu
      · rename_i hu; cases hs; exact ustep_queue hu
      · rename_i hu; cases hs; exact ustep_queue hu
    · cases hs; exact .same trivial
    · cases hs
  | newPacket _ => simp only [step] at hs; repeat' split at hs
                   all_goals cases hs
                   all_goals exact .same trivial
  | post _ _ => simp only [step] at hs; repeat' split at hs
                all_goals cases hs
                all_goals exact .same trivial
  | notifyCas _ => simp only [step] at hs; repeat' split at hs
                   all_goals cases hs
                   all_goals exact .same trivial
  | notifyPost _ _ => simp only [step] at hs; repeat' split at hs
                      all_goals cases hs
                      all_goals exact .same trivial
  | waitBegin _ _ => simp only [step] at hs; repeat' split at hs
                     all_goals cases hs
                     all_goals exact .same trivial
  | waitBusy => simp only [step] at hs; repeat' split at hs
                all_goals cases hs
                all_goals exact .same trivial
  | get => simp only [step] at hs; repeat' split at hs
           all_goals cases hs
           all_goals exact .same trivial
  | getFail _ => simp only [step] at hs; repeat' split at hs
                 all_goals cases hs
                 all_goals exact .same trivial
  | decide _ => simp only [step] at hs; repeat' split at hs
                all_goals cases hs
                all_goals exact .same trivial
  | complete _ _ => simp only [step] at hs; repeat' split at hs
                    all_goals cases hs
                    all_goals exact .same trivial
  | fire _ => simp only [step] at hs; repeat' split at hs
              all_goals cases hs
              all_goals exact .same trivial
  | callback _ => simp only [step] at hs; repeat' split at hs
                  all_goals cases hs
                  all_goals exact .same trivial
  | callbackPost _ _ => simp only [step] at hs; repeat' split at hs
                        all_goals cases hs
                        all_goals exact .same trivial

theorem queuings_noQueue {o tr} (h : NoQueue o) : queuings (o :: tr) = queuings tr := by
  cases o <;> first | rfl | exact absurd h id
theorem poppings_noQueue {o tr} (h : NoQueue o) : poppings (o :: tr) = poppings tr := by
  cases o <;> first | rfl | exact absurd h id

/-- The queue is what was put in and not taken out, and it does not overflow. -/
theorem reach_queue {n P s tr} (h : Reach n P s tr) : queuings tr = poppings tr ++ s.c.pending ∧ s.c.pending.length ≤ CAPACITY := by
  induction h with
  | init => exact ⟨rfl, Nat.zero_le _⟩
  | @step s tr a s' o hr hp hs ih =>
    have hq := step_queue hs
    revert hq ih
    generalize s.c.pending = q
    generalize s'.c.pending = q'
    rintro ⟨h1, h2⟩ hq
    cases hq with
    | same hn => rw [queuings_noQueue hn, poppings_noQueue hn]; exact ⟨h1, h2⟩
    | @push _ p hl =>
      refine ⟨?_, by simp; omega⟩
      show queuings tr ++ [p] = poppings tr ++ (q ++ [p])
      rw [h1, List.append_assoc]
    | @pop _ p =>
      refine ⟨?_, ?_⟩
      · show queuings tr = poppings tr ++ [p] ++ q'
        rw [h1, List.append_assoc]; rfl
      · simp at h2; omega

/-- Inside `feed_event` an update is never made directly, but put into the queue. -/
theorem reach_feedUpd {n P s tr} (h : Reach n P s tr) : ∀ w b u ev, s.phase = .feedUpd w b u ev → ∀ p, u ≠ .run p := by
  induction h with
  | init => intro w b u ev h; cases h
  | @step s tr a s' o hr hp hs ih =>
    intro w b u ev hph p hu
    subst hu
    have hpol := reach_polling hr
    cases a with
    | wait fault =>
      simp only [step, goWait] at hs
      split at hs
      · cases hs; cases hph
      · cases hs; cases hph
      · split at hs <;> (cases hs; cases hph)
      · split at hs <;> (cases hs; cases hph)
      · cases hs; cases hph
      · unfold waitFail at hs
        split at hs <;> (cases hs; cases hph)
      · unfold waitFail at hs
        split at hs <;> (cases hs; cases hph)
      · cases hs; cases hph
      · split at hs <;> (cases hs; cases hph)
      · rename_i w' b' u' ev' hp'
        rw [hp'] at hpol
        have hpol : s.c.polling = false := hpol
        split at hs
        · rename_i c' u'' o'' hus
          cases hs
          cases hph
          cases u' with
          | load q => simp only [ustep, hpol] at hus; cases hus
          | run q => simp only [ustep] at hus; cases hus
          | push q => simp only [ustep] at hus; split at hus <;> cases hus
          | pop q m => simp only [ustep] at hus; split at hus <;> cases hus
          | drain q m r =>
            simp only [ustep] at hus
            injection hus with h1 h2; injection h2 with h3 h4
            split at h3 <;> cases h3
        · cases hs; cases hph
        · cases hs; cases hph
      · cases hs; cases hph
      · cases hs
    | go t fault =>
      simp only [step, goCall] at hs
      repeat' split at hs
      all_goals cases hs
      all_goals exact ih _ _ _ _ hph p rfl
    | call t call =>
      simp only [step] at hs
      repeat' split at hs
      all_goals cases hs
      all_goals exact ih _ _ _ _ hph p rfl
    | newPacket _ => simp only [step] at hs; repeat' split at hs
                     all_goals cases hs
                     all_goals exact ih _ _ _ _ hph p rfl
    | post _ _ => simp only [step] at hs; repeat' split at hs
                  all_goals cases hs
                  all_goals exact ih _ _ _ _ hph p rfl
    | notifyCas _ => simp only [step] at hs; repeat' split at hs
                     all_goals cases hs
                     all_goals exact ih _ _ _ _ hph p rfl
    | notifyPost _ _ => simp only [step] at hs; repeat' split at hs
                        all_goals cases hs
                        all_goals exact ih _ _ _ _ hph p rfl
    | waitBegin _ _ => simp only [step] at hs; repeat' split at hs
                       all_goals cases hs
                       all_goals cases hph
    | waitBusy => simp only [step] at hs; repeat' split at hs
                  all_goals cases hs
                  all_goals exact ih _ _ _ _ hph p rfl
    | get => simp only [step] at hs; repeat' split at hs
             all_goals cases hs
             all_goals cases hph
    | getFail _ => simp only [step] at hs; repeat' split at hs
                   all_goals cases hs
                   all_goals cases hph
    | decide _ => simp only [step] at hs; repeat' split at hs
                  all_goals cases hs
                  all_goals cases hph
    | complete _ _ => simp only [step] at hs; repeat' split at hs
                      all_goals cases hs
                      all_goals exact ih _ _ _ _ hph p rfl
    | fire _ => simp only [step] at hs; repeat' split at hs
                all_goals cases hs
                all_goals exact ih _ _ _ _ hph p rfl
    | callback _ => simp only [step] at hs; repeat' split at hs
                    all_goals cases hs
                    all_goals exact ih _ _ _ _ hph p rfl
    | callbackPost _ _ => simp only [step] at hs; repeat' split at hs
                          all_goals cases hs
                          all_goals exact ih _ _ _ _ hph p rfl

/-- The counter of `wait`, and what it has collected before the completions of a batch are processed. -/
def Phase.countOk : Phase → Prop
  | .start w | .pop w | .upd w _ | .port w | .fail w _ => w.evs = []
  | .unpoll w _ => w.evs = [] ∧ w.newEvents = 0
  | .feed w _ | .feedUpd w _ _ _ => w.newEvents = w.evs.length
  | _ => True

/-- Counter right before the port is waited for. -/
def Phase.zero : Phase → Prop
  | .pop w | .upd w _ | .port w => w.newEvents = 0
  | _ => True

theorem reach_count {n P s tr} (h : Reach n P s tr) : s.phase.countOk ∧ s.phase.zero := by
  induction h with
  | init => exact ⟨trivial, trivial⟩
  | @step s tr a s' o hr hp hs ih =>
    cases a with
    | wait fault =>
      simp only [step, goWait] at hs
      split at hs
      · cases hs; exact ⟨rfl, trivial⟩
      · rename_i hp; rw [hp] at ih; cases hs; exact ⟨ih.1, rfl⟩
      · rename_i hp; rw [hp] at ih; split at hs <;> (cases hs; exact ih)
      · rename_i hp; rw [hp] at ih; split at hs
        · cases hs; exact ih
        · cases hs; exact ⟨ih.1, trivial⟩
      · rename_i hp; rw [hp] at ih; cases hs
        obtain ⟨⟨h1, h2⟩, _⟩ := ih
        exact ⟨by show _ = _; rw [h1, h2]; rfl, trivial⟩
      · unfold waitFail at hs
        split at hs <;> (cases hs; exact ⟨trivial, trivial⟩)
      · unfold waitFail at hs
        split at hs <;> (cases hs; exact ⟨trivial, trivial⟩)
      · cases hs; exact ⟨trivial, trivial⟩
      · rename_i hp; rw [hp] at ih
        obtain ⟨h1, _⟩ := ih
        have h1 : W.newEvents _ = _ := h1
        split at hs
        · cases hs; exact ⟨h1, trivial⟩
        · cases hs; exact ⟨h1, trivial⟩
        · cases hs; exact ⟨by show _ + 1 = _; rw [h1]; simp [addEvent], trivial⟩
        · cases hs; exact ⟨trivial, trivial⟩
        · cases hs; exact ⟨h1, trivial⟩
      · rename_i hp; rw [hp] at ih
        obtain ⟨h1, _⟩ := ih
        have h1 : W.newEvents _ = _ := h1
        split at hs
        · cases hs; exact ⟨h1, trivial⟩
        · cases hs
          refine ⟨?_, trivial⟩
          show W.newEvents (addEvent _ _) = _
          unfold addEvent
          split
          · simpa using (show W.newEvents _ = _ from h1)
          · exact h1
        · cases hs; exact ⟨trivial, trivial⟩
      · cases hs; exact ⟨trivial, trivial⟩
      · cases hs
    | go t fault =>
      simp only [step, goCall] at hs
      repeat' split at hs
      all_goals cases hs
      all_goals exact ih
    | call t call =>
      simp only [step] at hs
      repeat' split at hs
      all_goals cases hs
      all_goals exact ih
    | newPacket _ => simp only [step] at hs; repeat' split at hs
                     all_goals cases hs
                     all_goals exact ih
    | post _ _ => simp only [step] at hs; repeat' split at hs
                  all_goals cases hs
                  all_goals exact ih
    | notifyCas _ => simp only [step] at hs; repeat' split at hs
                     all_goals cases hs
                     all_goals exact ih
    | notifyPost _ _ => simp only [step] at hs; repeat' split at hs
                        all_goals cases hs
                        all_goals exact ih
    | waitBegin _ _ => simp only [step] at hs; repeat' split at hs
                       all_goals cases hs
                       all_goals exact ⟨trivial, trivial⟩
    | waitBusy => simp only [step] at hs; repeat' split at hs
                  all_goals cases hs
                  all_goals exact ih
    | get =>
      simp only [step] at hs
      split at hs
      · rename_i hp; rw [hp] at ih
        split at hs
        · cases hs; exact ⟨ih, trivial⟩
        · cases hs
      · cases hs
    | getFail _ =>
      simp only [step] at hs
      split at hs
      · rename_i hp; rw [hp] at ih; cases hs; exact ⟨ih.1, trivial⟩
      · cases hs
    | decide _ =>
      simp only [step] at hs
      split at hs
      · rename_i w hp; rw [hp] at ih
        split at hs
        · cases hs; exact ⟨trivial, trivial⟩
        · rename_i hc; cases hs
          have h1 : w.newEvents = w.evs.length := ih.1
          refine ⟨?_, trivial⟩
          show w.evs = []
          apply List.eq_nil_of_length_eq_zero
          have : ¬ w.newEvents > 0 := fun h => hc (.inr (.inl h))
          omega
      · cases hs
    | complete _ _ => simp only [step] at hs; repeat' split at hs
                      all_goals cases hs
                      all_goals exact ih
    | fire _ => simp only [step] at hs; repeat' split at hs
                all_goals cases hs
                all_goals exact ih
    | callback _ => simp only [step] at hs; repeat' split at hs
                    all_goals cases hs
                    all_goals exact ih
    | callbackPost _ _ => simp only [step] at hs; repeat' split at hs
                          all_goals cases hs
                          all_goals exact ih

/-- If processing a completion fails, it is because the queue of updates is full and an update from it failed. -/
theorem failed_full {n P s tr a s' o w b u ev w' e l} (h : Reach n P s tr) (hph : s.phase = .feedUpd w b u ev)
    (hs : step n s a = some (s', o)) (hf : s'.phase = .drain w' e l) :
    ∃ p m q fault, a = .wait fault ∧ u = .drain p m q ∧ (update fault s.c q).1 = .err e := by
  have hnr := reach_feedUpd h w b u ev hph
  have same : s'.phase = s.phase → False := by intro h; rw [hph, hf] at h; cases h
  cases a with
  | wait fault =>
    simp only [step, goWait, hph] at hs
    split at hs
    · cases hs; cases hf
    · cases hs; cases hf
    · rename_i c e o' hu
      cases hs; cases hf
      cases u with
      | load q => simp only [ustep] at hu; cases hu
      | run q => exact absurd rfl (hnr q)
      | push q => simp only [ustep] at hu; split at hu <;> cases hu
      | pop q m => simp only [ustep] at hu; split at hu <;> cases hu
      | drain q m r =>
        refine ⟨q, m, r, fault, rfl, rfl, ?_⟩
        simp only [ustep] at hu
        injection hu with h1 h2; injection h2 with h3 h4
        split at h3
        · cases h3
        · rename_i e' he; cases h3; exact he
  | go t fault =>
    simp only [step, goCall] at hs
    repeat' split at hs
    all_goals cases hs
    all_goals exact (same rfl).elim
  | _ =>
    simp only [step, hph] at hs
    repeat' split at hs
    all_goals cases hs
    all_goals exact (same (by rw [hph])).elim

/-- The loop that drops completions is only entered from a failed update while completions are processed. -/
theorem step_drain {n s a s' o w e l} (hs : step n s a = some (s', o)) (hf : s'.phase = .drain w e l) :
    (∃ l', s.phase = .drain w e l') ∨ ∃ b u ev, s.phase = .feedUpd w b u ev := by
  cases a with
  | wait fault =>
    simp only [step, goWait] at hs
    repeat' split at hs
    all_goals first | cases hs | (unfold waitFail at hs; split at hs <;> cases hs)
    all_goals first | cases hf | skip
    · exact .inl ⟨_, ‹_›⟩
    · exact .inr ⟨_, _, _, ‹_›⟩
  | go t fault =>
    simp only [step, goCall] at hs
    repeat' split at hs
    all_goals cases hs
    all_goals exact .inl ⟨_, hf⟩
  | _ =>
    simp only [step] at hs
    repeat' split at hs
    all_goals cases hs
    all_goals first | exact .inl ⟨_, hf⟩ | cases hf

end Polling.IocpM
