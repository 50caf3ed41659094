import Verif.Proof.AfdHandles

/-! C63: Windows: the handles of the AFD helpers are opened and closed in balance. -/

namespace Polling.C63
open AfdHandles AfdHSpec AfdSpec

/-- The poller closes only handles that it has opened itself and not closed since - never one of the rest of the process, although the system
gives the number of a closed handle to the next one. -/
theorem closes_own {s tr h} (hr : Reach s (.closed h :: tr)) : ours tr h = true ∧ others tr h = false := by
  cases hr with
  | @step s0 _ act _ _ h0 hs =>
    have hi := reach_inv h0
    have key : s0.owner h = .poller → ours tr h = true ∧ others tr h = false := by
      intro hp; rw [hi.ours, hi.others, hp]; exact ⟨rfl, rfl⟩
    refine key ((hi.own h).2 ?_)
    cases act with
    | start t => simp only [step, Option.map_eq_some_iff] at hs; obtain ⟨_, _, he⟩ := hs; cases he
    | release a => simp only [step, Option.map_eq_some_iff] at hs; obtain ⟨_, _, he⟩ := hs; cases he
    | otherOpen x => simp only [step] at hs; split at hs <;> cases hs
    | otherClose x => simp only [step] at hs; split at hs <;> cases hs
    | close i =>
      simp only [step] at hs
      split at hs
      · rename_i x hx; cases hs; exact .inr (.inr (List.mem_iff_getElem?.2 ⟨i, hx⟩))
      · cases hs
    | go x fault =>
      simp only [step] at hs
      split at hs
      · split at hs
        · split at hs
          · cases hs
          · split at hs <;> cases hs
        · simp only [Option.map_eq_some_iff] at hs; obtain ⟨_, _, he⟩ := hs; cases he
      · split at hs <;> cases hs
      · split at hs <;> cases hs
      · simp only [Option.bind_eq_some_iff] at hs
        obtain ⟨⟨g', o'⟩, _, he⟩ := hs
        split at he <;> cases he
      · rename_i y e hst; cases hs; exact .inl (by rw [hst]; rfl)
      · simp only [Option.map_eq_some_iff] at hs; obtain ⟨_, _, he⟩ := hs; cases he

/-- The helper of every socket has an open handle, whose completions go to the port of the poller and which is not signalled; it is the
handle that was opened for this helper, not a later one with the same number. -/
theorem used_is_open {s tr a} (hr : Reach s tr) (hu : users (helpers tr) a > 0) :
    ∃ h, handleOf tr a = some h ∧ ours tr h = true ∧ attached tr h = true ∧ quiet tr h = true := by
  have hi := reach_inv hr
  have hg := AfdGroups.reach_inv (reach_helpers hr)
  rw [hg.users] at hu
  have hlt : a < s.g.next := by
    rcases Nat.lt_or_ge a s.g.next with h | h
    · exact h
    · rw [hg.fresh a h] at hu; exact absurd hu (Nat.lt_irrefl 0)
  refine ⟨s.handle a, hi.handle a hlt, ?_, ?_, ?_⟩
  · rw [hi.ours, (hi.own _).2 (.inr (.inl ⟨a, hu, rfl⟩))]; rfl
  · rw [hi.attached]; exact (hi.used a hu).1
  · rw [hi.quiet]; exact (hi.used a hu).2

/-- Helpers in use have different handles. -/
theorem not_shared {s tr a b} (hr : Reach s tr) (ha : users (helpers tr) a > 0) (hb : users (helpers tr) b > 0)
    (he : handleOf tr a = handleOf tr b) : a = b := by
  have hi := reach_inv hr
  have hg := AfdGroups.reach_inv (reach_helpers hr)
  rw [hg.users] at ha hb
  have hlt : ∀ a, s.g.count a > 0 → a < s.g.next := by
    intro a h'
    rcases Nat.lt_or_ge a s.g.next with h | h
    · exact h
    · rw [hg.fresh a h] at h'; exact absurd h' (Nat.lt_irrefl 0)
  rw [hi.handle a (hlt a ha), hi.handle b (hlt b hb)] at he
  exact hi.ex3 a b ha hb (Option.some.inj he)

/-- No thread is inside `afd_handle` past the search, and no destructor of a helper is about to run. -/
def Settled (s : S) : Prop := s.stage = .none ∧ s.closing = []

/-- No handle leaks: apart from calls and destructors that are in progress, every handle that the poller has opened and not closed is the
handle of a helper that a socket uses - whatever failed before. -/
theorem no_leak {s tr h} (hr : Reach s tr) (hq : Settled s) (ho : ours tr h = true) : ∃ a, users (helpers tr) a > 0 ∧ handleOf tr a = some h := by
  have hi := reach_inv hr
  have hg := AfdGroups.reach_inv (reach_helpers hr)
  rw [hi.ours, decide_eq_true_eq, hi.own] at ho
  rcases ho with h' | ⟨a, h1, h2⟩ | h'
  · rw [hq.1] at h'; exact h'.elim
  · refine ⟨a, by rw [hg.users]; exact h1, ?_⟩
    rw [hi.handle a, h2]
    rcases Nat.lt_or_ge a s.g.next with h | h
    · exact h
    · rw [hg.fresh a h] at h1; exact absurd h1 (Nat.lt_irrefl 0)
  · rw [hq.2] at h'; cases h'

/-- How many steps are left of what is in progress. -/
def work (s : S) : Nat :=
  (match s.stage with
    | .none => 0
    | .fail _ | .push _ => 1
    | .drop _ _ => 2
    | .skip _ => 3
    | .join _ => 4) + s.closing.length

/-- What is in progress can always go on, whatever the system calls return, and comes to its end: neither a destructor nor the thread that makes
a helper has to wait for anybody. -/
theorem settles {s tr} (hr : Reach s tr) :
    (s.stage ≠ .none → ∀ h fault, ∃ s' o, step s (.go h fault) = some (s', o) ∧ work s' < work s) ∧
    (∀ i < s.closing.length, ∃ s' o, step s (.close i) = some (s', o) ∧ work s' < work s) ∧ (work s = 0 → Settled s) := by
  have hi := reach_inv hr
  refine ⟨fun hne h fault => ?_, fun i hl => ?_, fun hw => ?_⟩
  · have hend := hi.atEnd hne
    cases hst : s.stage with
    | none => exact absurd hst hne
    | join x =>
      cases fault with
      | none => exact ⟨{ s with joined := put s.joined x true, stage := .skip x }, .joined x, by simp only [step, hst], by simp only [work, hst]; omega⟩
      | some e => exact ⟨{ s with stage := .drop x e }, .tau, by simp only [step, hst], by simp only [work, hst]; omega⟩
    | skip x =>
      cases fault with
      | none => exact ⟨{ s with skips := put s.skips x true, stage := .push x }, .skips x, by simp only [step, hst], by simp only [work, hst]; omega⟩
      | some e => exact ⟨{ s with stage := .drop x e }, .tau, by simp only [step, hst], by simp only [work, hst]; omega⟩
    | push x =>
      obtain ⟨t, i, _, hg⟩ := end_step hend none
      exact ⟨{ s with g := { AfdGroups.setCount s.g s.g.next 1 with list := s.g.list ++ [s.g.next], next := s.g.next + 1, search := .none }, handle := put s.handle s.g.next x, stage := .none },
        .made t s.g.next x, by simp only [step, hst, hg, Option.bind_some], by simp only [work, hst]; omega⟩
    | drop x e => exact ⟨{ closeH s x with stage := .fail e }, .closed x, by simp only [step, hst], by simp only [work, hst, closeH]; omega⟩
    | fail e =>
      obtain ⟨t, i, _, hg⟩ := end_step hend (some e)
      exact ⟨{ s with g := { s.g with search := .none }, stage := .none }, .helper (.failed t e), by simp only [step, hst, hg, Option.map_some], by simp only [work, hst]; omega⟩
  · refine ⟨{ closeH s s.closing[i] with closing := s.closing.eraseIdx i }, .closed s.closing[i], by simp only [step, List.getElem?_eq_getElem hl], ?_⟩
    have : (s.closing.eraseIdx i).length = s.closing.length - 1 := by rw [List.length_eraseIdx, if_pos hl]
    simp only [work, closeH, this]
    omega
  · unfold work at hw
    refine ⟨?_, List.length_eq_zero_iff.1 (by omega)⟩
    cases hst : s.stage <;> rw [hst] at hw <;> simp at hw <;> first | rfl | omega

/-- All that is proved of the helpers in C27 holds here, too: they go through the states of `AfdGroups`. -/
theorem helpers_as_in_C27 {s tr} (hr : Reach s tr) : AfdGroups.Reach s.g (helpers tr) := reach_helpers hr

/-- A helper is made (handle 8) and released; before its destructor runs, another `add` finds it gone, opens handle 12, fails to join it to
the port, and closes it; the rest of the process gets the number 12; the destructor closes 8. -/
def exActs : List Act :=
  [.start 0, .go 8 none, .go 0 none, .go 0 none, .go 0 none, .release 0, .start 1, .go 0 none, .go 12 none, .go 0 (some .interrupted), .go 0 none,
    .otherOpen 12, .go 0 none, .close 0]

/-- The hypotheses of `closes_own` and `no_leak` are met by this run; in between, `ours` and `others` change hands. -/
example : (runActs init exActs).map (fun r => (r.2, r.1.stage, r.1.closing, ours r.2 8, ours r.2 12, others r.2 12)) =
    some ([.closed 8, .helper (.failed 1 .interrupted), .otherOpened 12, .closed 12, .tau, .opened 12, .helper (.seen 0 0), .helper (.search 1),
      .helper (.released 0), .made 0 0 8, .skips 8, .joined 8, .opened 8, .helper (.search 0)], .none, [], false, false, true) := by decide +kernel

/-- A helper in use, by two sockets. -/
example : (runActs init [.start 0, .go 8 none, .go 0 none, .go 0 none, .go 0 none, .start 1, .go 0 none, .go 0 none]).map
    (fun r => (users (helpers r.2) 0, handleOf r.2 0, ours r.2 8, attached r.2 8, quiet r.2 8)) = some (2, some 8, true, true, true) := by decide +kernel

end Polling.C63
