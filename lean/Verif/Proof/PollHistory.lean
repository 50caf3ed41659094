import Verif.Proof.PollRound

/-! Histories of the poll backend: the table simulates the map. -/

namespace Polling.PollB
open PollFlags PollSpec

/-- The poller's own descriptors, as the specification sees them. -/
def NotifyFds.spec (n : NotifyFds) : Internal := ⟨n.hasFd, n.readFd, n.flags⟩

theorem enumerates_of {fds m order} (hr : Rel fds m) (h : ListsAll order m) : Enumerates order fds := by
  refine ⟨h.1, fun fd => ?_⟩
  rw [h.2]
  have := hr.none_iff fd
  cases h1 : fds.fdData fd <;> cases h2 : m fd <;> simp_all

theorem quiet_all {os : Fd → Flags → Flags} {m : Map} {order : List Fd} (h : ListsAll order m)
    (hq : ∀ fd ∈ order, result os m fd = 0#16) (fd : Fd) : result os m fd = 0#16 := by
  by_cases hs : (m fd).isSome = true
  · exact hq fd ((h.2 fd).2 hs)
  · simp at hs; simp [result, hs]

theorem run_spec (n : NotifyFds) (steps : List Step) : ∀ (fds : Fds) (m : Map), Inv n fds → Rel fds m →
    OrdersOk applyAsCoded n.spec m steps →
    run n fds steps = some (runSpec applyAsCoded n.spec m steps) := by
  induction steps with
  | nil => intro fds m _ _ _; rfl
  | cons s rest ih =>
    intro fds m h hr ho
    obtain ⟨ho1, ho2⟩ := ho
    cases s with
    | call op =>
      obtain ⟨fds', heq, hi', hr'⟩ := call_spec h hr op
      unfold run runSpec
      rw [heq]
      simp only
      rw [ih fds' _ hi' hr' ho2]
      rfl
    | round os order notified =>
      obtain ⟨fds', hi', hr', heq⟩ := round_spec h hr os order (enumerates_of hr ho1) notified
      unfold run runSpec
      rw [heq]
      by_cases hc : notified = false ∧ os n.readFd n.flags ≠ 0#16 ∧ (∀ fd ∈ order, result os m fd = 0#16)
      · have hst : stepSpec applyAsCoded n.spec m (.round os order notified) = (.again, m) := by
          simp only [stepSpec]; exact if_pos hc
        rw [if_pos hc, hst]
        rw [hst] at ho2
        rw [afterWait_quiet (quiet_all ho1 hc.2.2)] at hr'
        simp only
        rw [ih fds' _ hi' hr' ho2]
        rfl
      · have hst : stepSpec applyAsCoded n.spec m (.round os order notified) =
            (.events (waitEvents os m order), afterWait os m) := by
          simp only [stepSpec]; exact if_neg hc
        rw [if_neg hc, hst]
        rw [hst] at ho2
        simp only
        rw [ih fds' _ hi' hr' ho2]
        rfl

theorem asCoded_eq {i : Internal} {m : Map} {s : Step} (h : match s with
     | .call (.modify fd _ mode) => i.refuse fd = true ∨ (m fd).isNone = true ∨ supported mode = true
     | _ => True) : stepSpec applyAsCoded i m s = stepSpec apply i m s := by
  cases s with
  | round => rfl
  | call op =>
    cases op with
    | add => rfl
    | delete => rfl
    | modify fd ev mode =>
      simp only at h
      simp only [stepSpec, applyAsCoded, apply]
      by_cases hf : i.refuse fd = true
      · simp [hf]
      · cases hm : m fd with
        | none => simp [hf]
        | some r =>
          have : supported mode = true := by simpa [hf, hm] using h
          simp [hf, this]

theorem runSpec_congr (i : Internal) (steps : List Step) : ∀ m, NoUnsupportedModify i m steps →
    runSpec applyAsCoded i m steps = runSpec apply i m steps ∧
    mapAfter applyAsCoded i m steps = mapAfter apply i m steps ∧
    (OrdersOk apply i m steps → OrdersOk applyAsCoded i m steps) := by
  induction steps with
  | nil => intro m _; exact ⟨rfl, rfl, id⟩
  | cons s rest ih =>
    intro m h
    have h1 := asCoded_eq h.1
    obtain ⟨a, b, c⟩ := ih _ h.2
    unfold runSpec mapAfter OrdersOk
    rw [h1]
    exact ⟨by rw [a], b, fun ho => ⟨ho.1, c ho.2⟩⟩

theorem runSpec_append (how) (i : Internal) (xs ys : List Step) : ∀ m,
    runSpec how i m (xs ++ ys) = runSpec how i m xs ++ runSpec how i (mapAfter how i m xs) ys := by
  induction xs with
  | nil => intro m; rfl
  | cons s rest ih => intro m; simp [runSpec, mapAfter, ih]

end Polling.PollB
