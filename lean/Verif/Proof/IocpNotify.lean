import Verif.Proof.IocpFull
import Verif.Proof.Cnt

/-! IOCP: a notification that is owed is on its way. -/

namespace Polling.IocpM
open Iocp IocpSpec

/-- The `wait` in progress has found the notification, or is about to return. -/
def Phase.told : Phase → Bool
  | .feed w _ | .feedUpd w _ _ _ => w.notified
  | .fin _ => true
  | _ => false

/-- The observation is not about notifications. -/
def NoNotify : IObs → Prop
  | .notified _ | .notifySeen _ | .waitOk _ _ => False
  | _ => True

theorem owed_noNotify {o tr} (h : NoNotify o) : owed (o :: tr) = owed tr := by
  cases o <;> first | rfl | exact absurd h id

theorem UObs.noNotify {o} (h : UObs o) : NoNotify o := by cases o <;> first | trivial | exact absurd h id

/-- Registration calls have nothing to do with notifications. -/
theorem goCall_notify {s t fault s' o} (h : goCall s t fault = some (s', o)) :
    s'.notified = s.notified ∧ s'.phase = s.phase ∧ s'.c.port = s.c.port ∧ NoNotify o ∧
      ∃ p, s'.pc = upd s.pc t p ∧ p ≠ .notify ∧ s.pc t ≠ .notify := by
  have hite : ∀ {call u} (b : Bool) (r : Res), (if b = true then Pc.upd call u else Pc.ret call r) ≠ .notify := by
    intro call u b r; cases b <;> nofun
  unfold goCall at h
  split at h
  · rename_i hpc
    split at h <;> (cases h; exact ⟨rfl, rfl, rfl, trivial, _, rfl, nofun, by rw [hpc]; nofun⟩)
  · rename_i hpc
    repeat' split at h
    all_goals (cases h; exact ⟨rfl, rfl, rfl, trivial, _, rfl, nofun, by rw [hpc]; nofun⟩)
  · rename_i hpc
    split at h
    · rename_i p _ k fd ev mode
      cases h
      refine ⟨rfl, rfl, (setEvents_frame s.c p ev mode).2.2.1, trivial, _, rfl, ?_, by rw [hpc]; nofun⟩
      exact hite _ _
    · cases h
  · rename_i call p hpc
    cases h
    exact ⟨rfl, rfl, (beginDelete_frame fault s.c p).2.2.2.2.1, trivial, _, rfl, nofun, by rw [hpc]; nofun⟩
  · rename_i hpc
    split at h <;> (rename_i hu; cases h; exact ⟨rfl, rfl, (ustep_frame hu).2.2.2, (uobs_ustep hu).noNotify, _, rfl, nofun, by rw [hpc]; nofun⟩)
  · rename_i hpc
    cases h; exact ⟨rfl, rfl, rfl, trivial, _, rfl, nofun, by rw [hpc]; nofun⟩
  · cases h

/-- A `notify` call has to do its second step. -/
def Notifying (s : S) : Prop := ∃ t, s.pc t = .notify

theorem upd_notifying {s s' : S} {t p} (h : s'.pc = upd s.pc t p) (hp : s.pc t ≠ .notify) (hn : Notifying s) : Notifying s' := by
  obtain ⟨u, hu⟩ := hn
  refine ⟨u, ?_⟩
  rw [h, upd_other _ _ (by rintro rfl; exact hp hu)]
  exact hu

/-- A notification is in the port, or found, or about to be posted. -/
def Coming (s : S) : Prop := s.phase.told = true ∨ NOTIFIER ∈ entries s ∨ Notifying s

/-- The OS does not refuse to post notifications, and no operation while `wait` processes completions (`NoFail`). -/
def Posts : S → Act → Prop
  | _, .notifyPost _ (some _) => False
  | s, a => NoFail s a

theorem Posts.noFail {s a} (h : Posts s a) : NoFail s a := by
  cases a with
  | notifyPost t f => trivial
  | _ => exact h

/-- The parts of a step of `wait` other than returning. -/
theorem wait_coming {n P s tr fault s' o} (h : Reach n P s tr) (hnd : ∀ w e b, s.phase ≠ .drain w e b) (hnd' : ∀ w e b, s'.phase ≠ .drain w e b)
    (hs : goWait s fault = some (s', o)) :
    s'.pc = s.pc ∧ ((∃ m evs, o = .waitOk m evs ∧ s'.notified = false) ∨
      (s'.notified = s.notified ∧ NoNotify o ∧ (s.phase.told = true ∨ NOTIFIER ∈ entries s → s'.phase.told = true ∨ NOTIFIER ∈ entries s'))) := by
  have same : s'.phase.batch = s.phase.batch → s'.c.port = s.c.port → (s.phase.told = true → s'.phase.told = true) →
      (s.phase.told = true ∨ NOTIFIER ∈ entries s → s'.phase.told = true ∨ NOTIFIER ∈ entries s') := by
    intro h1 h2 h3 h4
    unfold entries at *
    rw [h1, h2]
    exact h4.imp_left h3
  unfold goWait at hs
  split at hs
  · rename_i hph; cases hs
    exact ⟨rfl, .inr ⟨rfl, trivial, same (by rw [hph]; rfl) rfl (by rw [hph]; nofun)⟩⟩
  · rename_i hph; cases hs
    exact ⟨rfl, .inr ⟨rfl, trivial, same (by rw [hph]; rfl) rfl (by rw [hph]; nofun)⟩⟩
  · rename_i hph; split at hs <;> (cases hs; exact ⟨rfl, .inr ⟨rfl, trivial, same (by rw [hph]; rfl) rfl (by rw [hph]; nofun)⟩⟩)
  · rename_i w q hph
    have hfr := (update_frame fault s.c q).2.2.2.2.1
    split at hs
    · rename_i hu; rw [hu] at hfr; cases hs; exact ⟨rfl, .inr ⟨rfl, (uobs_updateObs _ _).noNotify, same (by rw [hph]; rfl) hfr (by rw [hph]; nofun)⟩⟩
    · rename_i hu; rw [hu] at hfr; cases hs; exact ⟨rfl, .inr ⟨rfl, (uobs_updateObs _ _).noNotify, same (by rw [hph]; rfl) hfr (by rw [hph]; nofun)⟩⟩
  · rename_i hph; cases hs
    exact ⟨rfl, .inr ⟨rfl, trivial, same (by rw [hph]; rfl) rfl (by rw [hph]; nofun)⟩⟩
  · rename_i hph
    unfold waitFail at hs
    split at hs <;> (cases hs; exact ⟨rfl, .inr ⟨rfl, trivial, same (by rw [hph]; rfl) rfl (by rw [hph]; nofun)⟩⟩)
  · rename_i hph; exact absurd hph (hnd _ _ _)
  · rename_i hph; exact absurd hph (hnd _ _ _)
  · rename_i w p batch hph
    have hfr := (feed_frame s.c p).2.2.2.2.1
    have fed : ∀ {ph : Phase} {c : Core}, s'.phase = ph → s'.c = c → c.port = s.c.port → ph.batch = batch → (w.notified = true → ph.told = true) →
        (p = NOTIFIER → ph.told = true) →
        (s.phase.told = true ∨ NOTIFIER ∈ entries s → s'.phase.told = true ∨ NOTIFIER ∈ entries s') := by
      intro ph c h1 h2 h3 h4 h5 h6 h7
      unfold entries at *
      rw [h1, h2, h3, h4]
      rw [hph] at h7
      rcases h7 with h7 | h7
      · exact .inl (h5 h7)
      · simp only [Phase.batch, List.mem_append, List.mem_cons] at h7 ⊢
        rcases h7 with (h7 | h7) | h7
        · exact .inl (h6 h7.symm)
        · exact .inr (.inl h7)
        · exact .inr (.inr h7)
    have hwake : ∀ {f c}, feed s.c p = (f, c) → f ≠ .notified → p = NOTIFIER → False := by
      intro f c h1 h2 h3
      subst h3
      have : feed s.c NOTIFIER = (.notified, s.c) := by unfold feed; rw [(reach_ti h).wake]
      rw [this] at h1
      injection h1 with h1 _
      exact h2 h1.symm
    split at hs
    · rename_i hu; rw [hu] at hfr; cases hs
      exact ⟨rfl, .inr ⟨rfl, trivial, fed rfl rfl hfr rfl (fun h => h) (fun h => (hwake hu nofun h).elim)⟩⟩
    · rename_i hu; rw [hu] at hfr; cases hs
      exact ⟨rfl, .inr ⟨rfl, trivial, fed rfl rfl hfr rfl (fun _ => rfl) (fun _ => rfl)⟩⟩
    · rename_i hu; rw [hu] at hfr; cases hs
      exact ⟨rfl, .inr ⟨rfl, trivial, fed rfl rfl hfr rfl (fun h => h) (fun h => (hwake hu nofun h).elim)⟩⟩
    · rename_i hu
      exact absurd (by rw [hu]) (feed_not_stuck h p)
    · rename_i k fd ev c hu; rw [hu] at hfr
      cases hs
      refine ⟨rfl, .inr ⟨rfl, ?_, fed rfl rfl hfr rfl (fun h => h) (fun h => (hwake hu nofun h).elim)⟩⟩
      cases ev <;> trivial
  · rename_i w batch u ev hph
    have hadd : ∀ ev, (addEvent w ev).notified = w.notified := by intro ev; cases ev <;> rfl
    split at hs
    · rename_i hu; cases hs
      exact ⟨rfl, .inr ⟨rfl, (uobs_ustep hu).noNotify, same (by rw [hph]; rfl) (ustep_frame hu).2.2.2 (by rw [hph]; exact fun h => h)⟩⟩
    · rename_i hu; cases hs
      exact ⟨rfl, .inr ⟨rfl, (uobs_ustep hu).noNotify, same (by rw [hph]; rfl) (ustep_frame hu).2.2.2 (by rw [hph]; exact fun h => (hadd ev).trans h)⟩⟩
    · cases hs; exact absurd rfl (hnd' _ _ _)
  · cases hs; exact ⟨rfl, .inl ⟨_, _, rfl, rfl⟩⟩
  · cases hs

/-- While the flag is set or a notification is owed, one is coming. -/
theorem reach_ni {n P s tr} (hP : ∀ s a, P s a → Posts s a) (h : Reach n P s tr) : s.notified = true ∨ owed tr = true → Coming s := by
  induction h with
  | init => intro h; rcases h with h | h <;> cases h
  | @step s tr a s' o hr hp hs ih =>
    have hr' := hr.step hp hs
    have hp := hP _ _ hp
    have keep : s'.notified = s.notified → NoNotify o → s'.pc = s.pc →
        (s.phase.told = true ∨ NOTIFIER ∈ entries s → s'.phase.told = true ∨ NOTIFIER ∈ entries s') →
        s'.notified = true ∨ owed (o :: tr) = true → Coming s' := by
      intro h1 h2 h3 h4 h5
      rw [h1, owed_noNotify h2] at h5
      unfold Coming Notifying
      rw [h3]
      rcases ih h5 with h | h | h
      · exact (h4 (.inl h)).elim .inl fun h => .inr (.inl h)
      · exact (h4 (.inr h)).elim .inl fun h => .inr (.inl h)
      · exact .inr (.inr h)
    have port : s'.notified = s.notified → NoNotify o → s'.pc = s.pc → s'.phase = s.phase → (∃ l, s'.c.port = s.c.port ++ l) →
        s'.notified = true ∨ owed (o :: tr) = true → Coming s' := by
      intro h1 h2 h3 h4 ⟨l, h5⟩
      refine keep h1 h2 h3 ?_
      unfold entries
      rw [h4, h5]
      rintro (h | h)
      · exact .inl h
      · right
        rw [← List.append_assoc]
        exact List.mem_append_left _ h
    cases a with
    | call t call =>
      simp only [step] at hs
      split at hs
      · cases hs
      split at hs
      · rename_i hout
        split at hs
        · cases hs
        split at hs
        · cases hs; exact port rfl trivial rfl rfl ⟨[], by simp⟩
        split at hs
        · cases hs; exact port rfl trivial rfl rfl ⟨[], by simp⟩
        cases hs
        intro h
        rcases ih h with h | h | h
        · exact .inl h
        · exact .inr (.inl h)
        · exact .inr (.inr (upd_notifying rfl (by rw [hout]; nofun) h))
      · cases hs
    | go t fault =>
      simp only [step] at hs
      split at hs
      · cases hs
      obtain ⟨h1, h2, h3, h4, p, h5, h6, h7⟩ := goCall_notify hs
      intro h
      rw [h1, owed_noNotify h4] at h
      rcases ih h with h | h | h
      · exact .inl (by rw [h2]; exact h)
      · exact .inr (.inl (by unfold entries at *; rw [h2, h3]; exact h))
      · exact .inr (.inr (upd_notifying h5 h7 h))
    | newPacket ev =>
      simp only [step] at hs
      split at hs <;> cases hs
      exact port rfl trivial rfl rfl ⟨[], by simp [setPk]⟩
    | post p fault =>
      simp only [step] at hs
      repeat' split at hs
      all_goals cases hs
      · exact port rfl trivial rfl rfl ⟨[], by simp⟩
      · exact port rfl trivial rfl rfl ⟨[p], rfl⟩
    | notifyCas t =>
      simp only [step] at hs
      split at hs
      · cases hs
      split at hs
      · split at hs
        · rename_i hn; cases hs; intro _; exact ih (.inl hn)
        · cases hs; intro _; exact .inr (.inr ⟨t, upd_self _ _ _⟩)
      · cases hs
    | notifyPost t fault =>
      simp only [step] at hs
      split at hs
      · split at hs
        · cases hp
        · cases hs; intro _; exact .inr (.inl (by simp [entries]))
      · cases hs
    | waitBegin timed cap =>
      simp only [step] at hs
      repeat' split at hs
      all_goals cases hs
      rename_i hph _
      refine keep rfl trivial rfl ?_
      unfold entries; rw [hph]; exact fun h => h
    | waitBusy =>
      simp only [step] at hs
      split at hs <;> cases hs
      exact keep rfl trivial rfl fun h => h
    | wait fault =>
      obtain ⟨h1, h2⟩ := wait_coming hr (noFail (fun _ _ h => (hP _ _ h).noFail) hr) (noFail (fun _ _ h => (hP _ _ h).noFail) hr') hs
      rcases h2 with ⟨m, evs, rfl, h3⟩ | ⟨h3, h4, h5⟩
      · intro h; rw [h3] at h; rcases h with h | h <;> cases h
      · exact keep h3 h4 h1 h5
    | get =>
      simp only [step] at hs
      repeat' split at hs
      all_goals cases hs
      rename_i w hph _
      refine keep rfl trivial rfl ?_
      unfold entries; rw [hph]
      rintro (h | h)
      · cases h
      · right
        simp only [Phase.batch, List.nil_append] at h ⊢
        rw [List.take_append_drop]; exact h
    | getFail e =>
      simp only [step] at hs
      split at hs <;> cases hs
      rename_i w hph
      refine keep rfl trivial rfl ?_
      unfold entries; rw [hph]; exact fun h => h
    | decide e =>
      simp only [step] at hs
      split at hs
      · rename_i w hph
        split at hs
        · cases hs
          exact keep rfl trivial rfl fun _ => .inl rfl
        · rename_i hn; cases hs
          refine keep rfl trivial rfl ?_
          unfold entries; rw [hph]
          rintro (h | h)
          · exact absurd (.inl h) hn
          · exact .inr h
      · cases hs
    | complete p r =>
      simp only [step] at hs
      repeat' split at hs
      all_goals cases hs
      exact port rfl trivial rfl rfl ⟨[p], rfl⟩
    | fire p =>
      simp only [step] at hs
      repeat' split at hs
      all_goals cases hs
      exact port rfl trivial rfl rfl ⟨[], by simp [setPk]⟩
    | callback p =>
      simp only [step] at hs
      repeat' split at hs
      all_goals cases hs
      exact port rfl trivial rfl rfl ⟨[], by simp [setPk]⟩
    | callbackPost p fault =>
      simp only [step] at hs
      split at hs <;> cases hs
      by_cases hf : fault = none
      · exact port rfl trivial rfl rfl ⟨[p], by rw [if_pos hf]⟩
      · exact port rfl trivial rfl rfl ⟨[], by rw [if_neg hf]; simp⟩

end Polling.IocpM
