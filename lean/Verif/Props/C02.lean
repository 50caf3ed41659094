import Verif.Model.Lib
import Verif.Proof.EpollRun

/-!
C02: internal wake-ups are never shown to the user and user events are never hidden.

The first part is about lib.rs over any backend; the second about whole histories of the epoll poller, where the
kernel also reports the poller's own timer and notifier.
-/

namespace Polling.C02
open Lib Spec

variable {X : Type} {sys : Sys X}

/-- No event with the key `usize::MAX` is ever seen. -/
theorem iter_no_reserved_key (b : sys.Buf) (ev : Event X) (h : ev ∈ eventsIter sys b) : ev.key.toNat ≠ 2 ^ 64 - 1 := by
  unfold eventsIter at h
  have := (List.mem_filter.1 h).2
  intro he
  have hk : ev.key = NOTIFY_KEY := by apply BitVec.eq_of_toNat_eq; rw [he]; decide
  simp [hk] at this

/-- Every other event of the buffer is seen, as often as the OS reported it and in that order. -/
theorem iter_hides_nothing_else (b : sys.Buf) :
    (eventsIter sys b).Sublist (sys.iter b) ∧
    ∀ [DecidableEq X] (ev : Event X), ev.key.toNat ≠ 2 ^ 64 - 1 → (eventsIter sys b).count ev = (sys.iter b).count ev := by
  refine ⟨List.filter_sublist, ?_⟩
  intro _ ev hk
  have hne : ev.key ≠ NOTIFY_KEY := by rintro h; apply hk; rw [h]; decide
  unfold eventsIter
  exact List.count_filter (by simpa using hne)

/-- `len` is the number of events seen and `is_empty` is exact. -/
theorem len_exact (b : sys.Buf) :
    eventsLen sys b = (eventsIter sys b).length ∧ (eventsIsEmpty sys b = true ↔ eventsIter sys b = []) := by
  refine ⟨rfl, ?_⟩
  unfold eventsIsEmpty eventsLen
  rw [beq_iff_eq, List.length_eq_zero_iff]

/-- The loop returns the number of visible events. -/
theorem waitLoop_count (dl : Option Nat) (fuel : Nat) (p : Poller sys) (buf : sys.Buf) (calls : List (Call sys))
    (out : WaitOut sys) (h : waitLoop dl fuel p buf calls = some out) (n : Nat) (hn : out.res = .ok n) :
    n = (eventsIter sys out.buf).length := by
  induction fuel generalizing p buf calls with
  | zero => cases h
  | succ fuel ih =>
    unfold waitLoop at h
    revert h
    split
    simp only
    split
    · split
      · intro h; exact ih _ _ _ h
      · intro h; cases h; cases hn
    · intro h; cases h; cases hn; rfl

/-- `wait` returns exactly the number of events the user will see (0 if another thread is waiting). -/
theorem wait_count (maxNs fuel : Nat) (p : Poller sys) (buf : sys.Buf) (t : Option Duration) (out : WaitOut sys)
    (h : wait maxNs fuel p buf t = some out) (n : Nat) (hn : out.res = .ok n) :
    (p.locked = true ∧ n = 0 ∧ out.buf = buf) ∨ (p.locked = false ∧ n = (eventsIter sys out.buf).length) := by
  unfold wait at h
  split at h
  · next hl => cases h; cases hn; exact .inl ⟨hl, rfl, rfl⟩
  · next hl =>
    refine .inr ⟨by simpa using hl, ?_⟩
    split at h
    · exact waitLoop_count _ _ _ _ _ _ h _ hn
    · exact waitLoop_count _ _ _ _ _ _ h _ hn

/-- A toy backend whose buffer is the list of events. -/
def listSys : Sys Unit where
  W := Unit
  Buf := List (Event Unit)
  clock _ := (0, ())
  add _ _ _ _ := (.ok, ())
  modify _ _ _ _ := (.ok, ())
  delete _ _ := (.ok, ())
  wait _ b _ := (.ok, (), b)
  notify _ := (.ok, ())
  iter b := b
  clear _ := []
  supportsLevel := true
  supportsEdge := true

/-- The internal event in the middle disappears, its neighbours stay, and the count is 2. -/
example :
    let b : List (Event Unit) := [⟨1, true, false, ()⟩, ⟨NOTIFY_KEY, true, false, ()⟩, ⟨1, true, false, ()⟩]
    eventsIter listSys b = [⟨1, true, false, ()⟩, ⟨1, true, false, ()⟩] ∧
    ((wait 100 1 (sys := listSys) ⟨(), false, true⟩ b none).map fun o => o.res) = some (.ok 2) := by decide

open EpollM Epoll

/-- On epoll, in every history: a `wait` that returns shows exactly the events that this `wait` took from the OS for
the user's sources - nothing hidden, nothing of the poller's timer or notifier - and returns their number. -/
theorem epoll_shows_exactly_the_delivered (c : Cfg) (hok : c.Ok) (s : S) (tr : List (Obs EventExtra)) (n : Nat)
    (evs : List (Event EventExtra)) (h : Reach c s (.waitOk n evs :: tr)) :
    ∃ ds, lastDelivery tr = some ds ∧ evs = ds.map Prod.snd ∧ n = ds.length ∧
      (∀ e ∈ evs, e.key.toNat ≠ 2 ^ 64 - 1) ∧ ∀ fd e, (fd, e) ∈ ds → c.internal fd = false := by
  generalize hT : (Obs.waitOk n evs :: tr) = T at h
  cases h with
  | init => cases hT
  | step hr hs =>
    simp only [List.cons.injEq] at hT
    obtain ⟨rfl, rfl⟩ := hT
    obtain ⟨dl, cap, raw, hph, rfl, rfl, _⟩ := waitOk_inv hs
    have hd := reach_D hok hr
    rw [hph] at hd
    obtain ⟨_, ds, h1, h2, _⟩ := hd
    refine ⟨ds, h1, h2, by rw [h2, List.length_map], ?_, ?_⟩
    · intro e he hk
      have hk' : e.key = NOTIFY_KEY := by apply BitVec.eq_of_toNat_eq; rw [hk]; decide
      have := (List.mem_filter.1 he).2
      simp [hk'] at this
    · -- find the delivery in the trace
      have key : ∀ tr : List (Obs EventExtra), lastDelivery tr = some ds → ∃ l e, tr = l ++ .deliver ds :: e := by
        intro tr
        induction tr with
        | nil => intro h; cases h
        | cons o tr ih =>
          intro h
          cases o with
          | deliver evs => simp only [lastDelivery, Option.some.injEq] at h; subst h; exact ⟨[], tr, rfl⟩
          | waitBegin => cases h
          | waitOk _ _ => cases h
          | waitErr _ => cases h
          | _ => simp only [lastDelivery] at h; obtain ⟨l, e, rfl⟩ := ih h; exact ⟨_ :: l, e, rfl⟩
      obtain ⟨l, e, rfl⟩ := key _ h1
      have := everyDelivery_of (c := c) (P := fun _ evs => ∀ fd e, (fd, e) ∈ evs → c.internal fd = false) (by
        intro s tr a s' evs hr hs fd e hm
        obtain ⟨_, dl, cap, to, t0, _, _, _, rfl⟩ := deliver_inv hs
        exact ((delivery (reach_kinv hok hr) cap).sound fd e hm).1) hr
      exact this l ds e rfl

/-- Source 7 is ready and a notification is pending: the kernel reports both, the user sees one event. -/
example : exTrace exCfg (fun _ => 0#32)
      ([.add 7 (Event.onlyReadable 11) .oneshot none, .notifyCas, .notifyWrite, .setReady 7 IN IN] ++ waitActs 8) =
    some [.waitOk 1 [⟨11, true, false, ⟨IN⟩⟩], .tau, .tau, .deliver [(7, ⟨11, true, false, ⟨IN⟩⟩)], .tau, .tau, .tau,
      .waitBegin, .tau, .notified, .tau, .reg 7 (Event.onlyReadable 11) .oneshot] := by decide

end Polling.C02
