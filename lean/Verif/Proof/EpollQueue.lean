import Verif.Proof.EpollRun

/-! The queue of ready sources of the epoll machine. -/

namespace Polling.EpollM
open Epoll Spec

theorem idx_prefix {l l' : List Fd} {fd : Fd} (h : l <+: l') (hm : fd ∈ l) : fd ∈ l' ∧ l'.idxOf fd ≤ l.idxOf fd := by
  obtain ⟨t, rfl⟩ := h
  refine ⟨List.mem_append_left _ hm, ?_⟩
  rw [List.idxOf_append, if_pos hm]
  exact Nat.le_refl _

theorem idx_filter {l : List Fd} {fd : Fd} {p : Fd → Bool} (hp : p fd = true) (hm : fd ∈ l) :
    fd ∈ l.filter p ∧ (l.filter p).idxOf fd ≤ l.idxOf fd := by
  refine ⟨List.mem_filter.2 ⟨hm, hp⟩, ?_⟩
  clear hm
  induction l with
  | nil => simp
  | cons x l ih =>
    by_cases hx : x = fd
    · subst hx; rw [List.filter_cons_of_pos hp]; simp
    · have hx' : (x == fd) = false := by simpa using hx
      rw [List.filter_cons, List.idxOf_cons, hx', cond_false]
      split
      · rw [List.idxOf_cons, hx', cond_false]; omega
      · omega

/-- Steps other than taking a batch never move a queued source back. -/
theorem queue_keeps {c : Cfg} {s s' : S} {a : Act} {o : Obs EventExtra} {fd : Fd} (hs : step c s a = some (s', o))
    (hu : o ≠ .unreg fd) (hd : ∀ evs, o ≠ .deliver evs) (hm : fd ∈ s.k.rdl) :
    fd ∈ s'.k.rdl ∧ s'.k.rdl.idxOf fd ≤ s.k.rdl.idxOf fd := by
  have same : ∀ {k : Kern}, k.rdl = s.k.rdl → fd ∈ k.rdl ∧ k.rdl.idxOf fd ≤ s.k.rdl.idxOf fd := by
    intro k hk; rw [hk]; exact ⟨hm, Nat.le_refl _⟩
  have pre : ∀ {k : Kern} {x key}, k.rdl = s.k.rdl → fd ∈ (link k x key).rdl ∧ (link k x key).rdl.idxOf fd ≤ s.k.rdl.idxOf fd := by
    intro k x key hk
    have := idx_prefix (link_prefix k x key) (by rw [hk]; exact hm)
    rwa [hk] at this
  have mod : ∀ {fault x ev mode r k}, EpollM.modify c fault s.k x ev mode = (r, k) →
      fd ∈ k.rdl ∧ k.rdl.idxOf fd ≤ s.k.rdl.idxOf fd := by
    intro fault x ev mode r k h
    rcases ctlMod_cases h with ⟨_, _, rfl⟩ | ⟨_, rfl⟩
    · exact pre rfl
    · exact same rfl
  have wf : ∀ {s1 : S} {dl cap e}, fd ∈ s1.k.rdl ∧ s1.k.rdl.idxOf fd ≤ s.k.rdl.idxOf fd → waitFail s1 dl cap e = (s', o) →
      fd ∈ s'.k.rdl ∧ s'.k.rdl.idxOf fd ≤ s.k.rdl.idxOf fd := by
    intro s1 dl cap e h he
    have := waitFail_k s1 dl cap e
    rw [he] at this
    simp only at this
    rw [this]; exact h
  cases a with
  | add x ev mode fault =>
    simp only [step] at hs
    split at hs
    · cases hs
    · split at hs
      · cases hs
      · split at hs
        · cases hs; exact same rfl
        · rcases h : EpollM.add c fault s.k x ev mode with ⟨r, k⟩
          rw [h] at hs
          rcases ctlAdd_cases h with ⟨rfl, _, rfl⟩ | ⟨⟨e, rfl⟩, rfl⟩
          · cases hs; exact pre rfl
          · cases hs; exact same rfl
  | modify x ev mode fault =>
    simp only [step] at hs
    split at hs
    · cases hs
    · split at hs
      · cases hs
      · split at hs
        · cases hs; exact same rfl
        · rcases h : EpollM.modify c fault s.k x ev mode with ⟨r, k⟩
          rw [h] at hs
          cases r <;> (cases hs; exact mod h)
  | delete x fault =>
    simp only [step] at hs
    split at hs
    · cases hs
    · rcases h : EpollM.delete fault s.k x with ⟨r, k⟩
      rw [h] at hs
      rcases ctlDel_cases h with ⟨rfl, _, rfl⟩ | ⟨⟨e, rfl⟩, rfl⟩
      · cases hs
        refine idx_filter ?_ hm
        have : fd ≠ x := by rintro rfl; exact hu rfl
        simpa using this
      · cases hs; exact same rfl
  | notifyCas =>
    simp only [step] at hs
    repeat' split at hs
    all_goals first | (cases hs; done) | (cases hs; exact same rfl)
  | notifyWrite =>
    simp only [step] at hs
    split at hs
    · cases hs; exact pre rfl
    · cases hs
  | waitBegin timeout cap =>
    simp only [step] at hs
    repeat' split at hs
    all_goals first | (cases hs; done) | (cases hs; exact same rfl)
  | waitBusy =>
    simp only [step] at hs
    repeat' split at hs
    all_goals first | (cases hs; done) | (cases hs; exact same rfl)
  | compute =>
    simp only [step] at hs
    repeat' split at hs
    all_goals first | (cases hs; done) | (cases hs; exact same rfl)
  | settime fault =>
    simp only [step] at hs
    repeat' split at hs
    all_goals first | (cases hs; done) | (exact wf (same rfl) (Option.some.inj hs)) | (cases hs; exact same rfl)
  | armTimer fault =>
    simp only [step] at hs
    split at hs
    · split at hs
      · rcases h : EpollM.modify c fault s.k c.timerFd (Event.onlyReadable NOTIFY_KEY) .oneshot with ⟨r, k⟩
        rw [h] at hs
        cases r with
        | ok => cases hs; exact mod h
        | err e => exact wf (mod h) (Option.some.inj hs)
      · cases hs; exact same rfl
    · cases hs
  | epollReturn =>
    simp only [step] at hs
    repeat' split at hs
    all_goals first | (cases hs; done) | (cases hs; exact absurd rfl (hd _))
  | epollFail e =>
    simp only [step] at hs
    repeat' split at hs
    all_goals first | (cases hs; done) | (exact wf (same rfl) (Option.some.inj hs))
  | clearRead =>
    simp only [step] at hs
    repeat' split at hs
    all_goals first | (cases hs; done) | (injection hs with hs; injection hs with h1 h2; subst h1 h2; exact same rfl)
  | rearm fault =>
    simp only [step] at hs
    split at hs
    · rcases h : EpollM.modify c fault s.k c.notifFd (Event.onlyReadable NOTIFY_KEY) .oneshot with ⟨r, k⟩
      rw [h] at hs
      cases r with
      | ok => cases hs; exact mod h
      | err e => exact wf (mod h) (Option.some.inj hs)
    · cases hs
  | finish =>
    simp only [step] at hs
    repeat' split at hs
    all_goals first | (cases hs; done) | (cases hs; exact same rfl)
  | setReady x flags key =>
    simp only [step] at hs
    split at hs
    · cases hs
    · split at hs
      · cases hs
      · cases hs; exact pre rfl
  | tick dt =>
    simp only [step] at hs
    split at hs
    · cases hs; exact same rfl
    · split at hs
      · cases hs
        simp only
        split
        · exact pre rfl
        · exact same rfl
      · cases hs; exact same rfl

/-- A batch without the ready source moves it forward by the whole size of the batch. -/
theorem batch_moves {c : Cfg} {k : Kern} (hl : L c k) {fd : Fd} {n : Nat}
    (hhot : hot (ready c k) k.items fd = true) (hm : fd ∈ k.rdl) (hnot : fd ∉ ((harvest c k n).1.map Prod.fst)) :
    fd ∈ (harvest c k n).2.rdl ∧ (harvest c k n).2.rdl.idxOf fd + n ≤ k.rdl.idxOf fd := by
  obtain ⟨pre, rest, h1, h2, h3, h4, h5⟩ := harvest_spec hl n
  rw [mem_evs h2] at hnot
  have hpre : fd ∉ pre := fun hp => hnot (List.mem_filter.2 ⟨hp, hhot⟩)
  have hrest : fd ∈ rest := by
    rw [h1, List.mem_append] at hm
    rcases hm with hm | hm
    · exact absurd hm hpre
    · exact hm
  have hlen : n ≤ pre.length := by
    rcases h4 with h4 | h4
    · rw [h4] at hrest; cases hrest
    · rw [← h4]; exact List.length_filter_le _ _
  rw [h5]
  refine ⟨List.mem_append_left _ hrest, ?_⟩
  simp only
  rw [List.idxOf_append, if_pos hrest, h1, List.idxOf_append, if_neg hpre]
  omega

theorem waitFail_cap {s : S} {dl cap e s' o} (h : cap > 0) (heq : waitFail s dl cap e = (s', o)) : s'.phase.capOk := by
  unfold waitFail at heq
  split at heq <;> cases heq
  · exact h
  · trivial

theorem step_cap {c : Cfg} {s s' : S} {a : Act} {o : Obs EventExtra} (h : s.phase.capOk) (hs : step c s a = some (s', o)) :
    s'.phase.capOk := by
  cases a with
  | waitBegin timeout cap =>
    simp only [step] at hs
    split at hs
    · split at hs
      · cases hs
      · cases hs; simp only [Phase.capOk]; omega
    · cases hs
  | add => simp only [step] at hs; repeat' split at hs
           all_goals first | (cases hs; done) | (cases hs; exact h)
  | modify => simp only [step] at hs; repeat' split at hs
              all_goals first | (cases hs; done) | (cases hs; exact h)
  | delete => simp only [step] at hs; repeat' split at hs
              all_goals first | (cases hs; done) | (cases hs; exact h)
  | notifyCas => simp only [step] at hs; repeat' split at hs
                 all_goals first | (cases hs; done) | (cases hs; exact h)
  | notifyWrite => simp only [step] at hs; repeat' split at hs
                   all_goals first | (cases hs; done) | (cases hs; exact h)
  | waitBusy => simp only [step] at hs; repeat' split at hs
                all_goals first | (cases hs; done) | (cases hs; exact h)
  | setReady => simp only [step] at hs; repeat' split at hs
                all_goals first | (cases hs; done) | (cases hs; exact h)
  | tick => simp only [step] at hs; repeat' split at hs
            all_goals first | (cases hs; done) | (cases hs; exact h)
  | clearRead =>
    simp only [step] at hs
    split at hs
    · next hph =>
      rw [hph] at h
      split at hs
      · injection hs with hs; injection hs with h1 h2; subst h1 h2; simp only [hph]; exact h
      · injection hs with hs; injection hs with h1 h2; subst h1 h2; exact h
    · cases hs
  | _ =>
    simp only [step] at hs
    split at hs
    · next hph =>
      rw [hph] at h
      repeat' split at hs
      all_goals first | (cases hs; done) | (exact waitFail_cap h (Option.some.inj hs)) | (cases hs; exact h) | (cases hs; trivial)
    · cases hs

theorem reach_cap {c : Cfg} {s tr} (h : Reach c s tr) : s.phase.capOk := by
  induction h with
  | init user => trivial
  | step _ hs ih => exact step_cap ih hs

end Polling.EpollM
