import Verif.Proof.EpollRun

/-! C16 (epoll): level-triggered delivery. -/

namespace Polling.C16
open EpollM Epoll Spec

/-- In every history of the epoll poller: whenever a `wait` takes events from the OS, every level-triggered source of
which a watched condition holds is among them, with the right event, unless the buffer is filled completely by
others.  (Hence it is reported again by every `wait` with room as long as it stays ready.)  The same holds for
one-shot sources that have not fired since they were armed. -/
theorem epoll_level (c : Cfg) (hok : c.Ok) (s s' : S) (tr : List (Obs EventExtra)) (h : Reach c s tr) (a : Act)
    (evs : List (Fd × Event EventExtra)) (hs : step c s a = some (s', .deliver evs)) (fd : Fd) (cu : Current EventExtra)
    (hc : current tr fd = some cu) (hm : cu.mode = .level ∨ (cu.mode = .oneshot ∧ cu.fired = false))
    (hp : EpollPending cu.ev (s.k.user fd)) :
    (∃ e, (fd, e) ∈ evs) ∨ ∃ dl cap raw, s'.phase = .clearing dl cap raw ∧ raw.length = cap := by
  obtain ⟨_, dl, cap, to, t0, _, _, rfl, rfl⟩ := deliver_inv hs
  have hd := delivery (reach_kinv hok h) cap
  have hl : live cu = true := by
    rcases hm with hm | ⟨_, hf⟩
    · simp [live, hm, oneshot]
    · simp [live, hf]
  rcases hd.complete fd cu hc hl ((pending_iff cu _).2 hp) (by rcases hm with hm | hm <;> simp [hm]) with h1 | h1
  · exact .inl ⟨_, h1⟩
  · exact .inr ⟨dl, cap, _, rfl, h1⟩

/-- And a `wait` blocked in the OS can always take them: it does not sleep while such a source is ready. -/
theorem epoll_level_not_asleep (c : Cfg) (hok : c.Ok) (s : S) (tr : List (Obs EventExtra)) (h : ReachP c RearmWorks s tr)
    (dl cap to t0) (hph : s.phase = .polling dl cap to t0) (fd : Fd) (cu : Current EventExtra)
    (hc : current tr fd = some cu) (hm : cu.mode = .level ∨ (cu.mode = .oneshot ∧ cu.fired = false))
    (hp : EpollPending cu.ev (s.k.user fd)) : ∃ s' evs, step c s .epollReturn = some (s', .deliver evs) := by
  have hk := reach_kinv hok h.reach
  have hcap := (reach_N hok h).capOk
  rw [hph] at hcap
  have hl : live cu = true := by
    rcases hm with hm | ⟨_, hf⟩
    · simp [live, hm, oneshot]
    · simp [live, hf]
  have hne : (harvest c s.k cap).1 ≠ [] := by
    intro he
    rcases (delivery hk cap).complete fd cu hc hl ((pending_iff cu _).2 hp) (by rcases hm with hm | hm <;> simp [hm]) with h1 | h1
    · rw [he] at h1; simp at h1
    · rw [he] at h1; simp [Phase.capOk] at h1 hcap; omega
  exact ⟨_, _, return_enabled hph (.inl hne)⟩

/-- Three level-triggered sources, all readable, and a buffer for two: every `wait` reports two, in rotation. -/
example : (exTrace exCfg (fun _ => IN)
      ([.add 7 (Event.onlyReadable 17) .level none, .add 8 (Event.all 18) .level none,
        .add 9 (Event.onlyReadable 19) .level none] ++ waitActs 2 ++ waitActs 2 ++ waitActs 2)).map
      (fun tr => tr.filterMap fun o => match o with | .deliver evs => some (evs.map fun e => (e.1, e.2.key)) | _ => none) =
    some [[(8, 18), (9, 19)], [(9, 19), (7, 17)], [(7, 17), (8, 18)]] := by decide

/-- The hypotheses hold for source 7 of that run when it is first polled. -/
example : EpollPending (Event.onlyReadable 17 : Event EventExtra) IN := ⟨0, by decide, by decide, .inl ⟨rfl, .inl rfl⟩⟩

end Polling.C16
