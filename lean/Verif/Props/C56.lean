import Verif.Model.BaseSocket

/-!
C56: on Windows the socket that is watched is the one of the base provider.
-/

namespace Polling.C56
open BaseSock

/-- A stack of layered providers: the socket a layer hands to the layer below it, and what is at the bottom. -/
structure Stack where
  /-- the socket in the next lower layer; `none` for a socket of the base provider -/
  below : Sock → Option Sock
  /-- the socket of the base provider -/
  bottom : Sock → Sock
  at_bottom : ∀ s, below s = none → bottom s = s
  one_down : ∀ s t, below s = some t → bottom s = bottom t

/-- Providers do not lie: `SIO_BASE_HANDLE` answers with the socket of the base provider or fails; `SIO_BSP_HANDLE_POLL` answers
with the socket itself or the one in the next lower layer, or fails. -/
structure Truthful (k : Stack) (os : Os) : Prop where
  base : ∀ s b, os s .base = .ok b → b = k.bottom s
  poll : ∀ s t, os s .bspPoll = .ok t → t = s ∨ k.below s = some t

/-- No other socket than that of the base provider is ever watched. -/
theorem never_wrong_socket (k : Stack) (os : Os) (h : Truthful k os) (s b : Sock) (hb : (baseSocket os s).1 = .ok b) :
    b = k.bottom s := by
  unfold baseSocket tryIoctl at hb
  dsimp only at hb
  split at hb
  · next b' he => cases hb; exact h.base s b he
  · next e he =>
    split at hb
    · cases hb
    · unfold viaPoll tryIoctl at hb
      dsimp only at hb
      split at hb
      · cases hb
      · next r hr =>
        split at hb
        · cases hb
        · next hne =>
          rcases h.poll s r hr with h1 | h1
          · exact absurd h1 hne
          · rw [k.one_down s r h1]; exact h.base r b hb

/-- The socket is found exactly if its own layer answers, or refuses for another reason than an invalid argument and names another
socket whose layer answers. -/
theorem found_iff (os : Os) (s b : Sock) : (baseSocket os s).1 = .ok b ↔
    os s .base = .ok b ∨
    ∃ e t, os s .base = .error e ∧ e ≠ .invalidInput ∧ os s .bspPoll = .ok t ∧ t ≠ s ∧ os t .base = .ok b := by
  unfold baseSocket viaPoll again tryIoctl
  dsimp only
  cases h1 : os s .base with
  | ok b' => simp
  | error e =>
    by_cases he : e = .invalidInput
    · simp [he]
    · cases h2 : os s .bspPoll with
      | error e' => simp [he]
      | ok t =>
        by_cases ht : t = s
        · simp [he, ht]
        · simp [he, ht]

/-- One layer that does not answer `SIO_BASE_HANDLE` is got around, if it answers `SIO_BSP_HANDLE_POLL`. -/
theorem one_broken_layer (k : Stack) (os : Os) (h : Truthful k os) (s t : Sock) (e : Err) (h1 : os s .base = .error e)
    (he : e ≠ .invalidInput) (h2 : os s .bspPoll = .ok t) (ht : t ≠ s) (h3 : ∃ b, os t .base = .ok b) :
    (baseSocket os s).1 = .ok (k.bottom s) := by
  obtain ⟨b, hb⟩ := h3
  have : (baseSocket os s).1 = .ok b := (found_iff os s b).2 (.inr ⟨e, t, h1, he, h2, ht, hb⟩)
  rw [this, never_wrong_socket k os h s b this]

/-- Two such layers are not, though `SIO_BSP_HANDLE_POLL` would lead through them: `add` fails. -/
theorem two_broken_layers : ∃ (k : Stack) (os : Os), Truthful k os ∧ k.below 3 = some 2 ∧ k.below 2 = some 1 ∧ k.below 1 = none ∧
    os 3 .bspPoll = .ok 2 ∧ os 2 .bspPoll = .ok 1 ∧ os 1 .base = .ok 1 ∧ (baseSocket os 3).1 = .error (.os 10045) := by
  refine ⟨⟨fun s => if s = 3 then some 2 else if s = 2 then some 1 else none, fun s => if s = 3 ∨ s = 2 then 1 else s, ?_, ?_⟩,
    fun s i => match i with
      | .base => if s = 3 ∨ s = 2 then .error (.os 10045) else .ok s
      | .bspPoll => if s = 3 then .ok 2 else if s = 2 then .ok 1 else .ok s, ⟨?_, ?_⟩, ?_, ?_, ?_, ?_, ?_, ?_, ?_⟩
  · intro s h
    by_cases h3 : s = 3
    · simp [h3] at h
    · by_cases h2 : s = 2
      · simp [h2] at h
      · simp [h2, h3]
  · intro s t h
    by_cases h3 : s = 3
    · simp [h3] at h; subst h; simp [h3]
    · by_cases h2 : s = 2
      · simp [h2] at h; subst h; simp [h2]
      · simp [h2, h3] at h
  · intro s b h
    by_cases h3 : s = 3 ∨ s = 2
    · simp [h3] at h
    · simp [h3] at h ⊢; exact h.symm
  · intro s t h
    by_cases h3 : s = 3
    · simp [h3] at h; right; simp [h3, h]
    · by_cases h2 : s = 2
      · simp [h2] at h; right; simp [h2, h]
      · simp [h2, h3] at h; left; exact h.symm
  all_goals first | rfl | decide

/-- Not more than three requests are made; no socket is asked the same twice; only the socket itself and one that it named is
asked. -/
theorem asks_different (os : Os) (s : Sock) :
    (baseSocket os s).2.length ≤ 3 ∧ (baseSocket os s).2.Nodup ∧
      ∀ q ∈ (baseSocket os s).2, q.1 = s ∨ os s .bspPoll = .ok q.1 ∧ q.2 = .base := by
  unfold baseSocket viaPoll again tryIoctl
  dsimp only
  cases h1 : os s .base with
  | ok b' => simp
  | error e =>
    by_cases he : e = .invalidInput
    · simp [he]
    · cases h2 : os s .bspPoll with
      | error e' => simp [he]
      | ok t =>
        by_cases ht : t = s
        · simp [he, ht]
        · simp [he, ht, Ne.symm ht]

/-- A failing search reports an error of the OS, or an invalid argument if the layer names the socket itself. -/
theorem error_from_os (os : Os) (s : Sock) (e : Err) (h : (baseSocket os s).1 = .error e) :
    (∃ q ∈ (baseSocket os s).2, os q.1 q.2 = .error e) ∨ e = .invalidInput ∧ os s .bspPoll = .ok s := by
  revert h
  unfold baseSocket viaPoll again tryIoctl
  dsimp only
  cases h1 : os s .base with
  | ok b' => simp
  | error e0 =>
    by_cases he : e0 = .invalidInput
    · simp only [he, if_true]; intro h; exact .inl ⟨_, List.mem_singleton_self _, by rw [h1, he]; exact h⟩
    · simp only [he, if_false]
      cases h2 : os s .bspPoll with
      | error e' => intro h; exact .inl ⟨(s, .bspPoll), by simp, by rw [h2]; exact h⟩
      | ok t =>
        by_cases ht : t = s
        · simp only [ht, if_true]; intro h; cases h; exact .inr (by simp)
        · simp only [ht, if_false]; intro h; exact .inl ⟨(t, .base), by simp, h⟩

/-- A socket 5 of a layered provider above socket 4; the layer refuses the first request. -/
example : (baseSocket (fun s i => match s, i with
      | 5, .base => .error (.os 10045)
      | 5, .bspPoll => .ok 4
      | 4, _ => .ok 4
      | _, _ => .error (.os 10038)) 5) = (.ok 4, [(5, .base), (5, .bspPoll), (4, .base)]) := rfl

end Polling.C56
