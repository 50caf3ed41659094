import Verif.Proof.EpollRun

/-! C20 (epoll, whole histories): the events delivered say what the OS sees, as far as it was asked for. -/

namespace Polling.C20
open EpollM Epoll Spec

/-- Every event delivered in any history: a watched condition of the source holds at that moment; the event is readable
iff a watched read condition (input, urgent input, error, hang-up) holds and writable iff a watched write condition
(output, error, hang-up) holds; and its extra information lists exactly the watched conditions that hold. -/
theorem epoll_delivery_faithful (c : Cfg) (hok : c.Ok) (s s' : S) (tr : List (Obs EventExtra)) (h : Reach c s tr) (a : Act)
    (evs : List (Fd × Event EventExtra)) (hs : step c s a = some (s', .deliver evs)) (fd : Fd) (e : Event EventExtra)
    (hm : (fd, e) ∈ evs) :
    ∃ cu, current tr fd = some cu ∧ EpollPending cu.ev (s.k.user fd) ∧
      (e.readable = true ↔ ∃ i ∈ [cIn, cPri, cErr, cHup], Reported (s.k.user fd) i ∧ EpollWatches cu.ev i) ∧
      (e.writable = true ↔ ∃ i ∈ [cOut, cErr, cHup], Reported (s.k.user fd) i ∧ EpollWatches cu.ev i) ∧
      (∀ i, i < 28 → (Reported e.extra.flags i ↔ Reported (s.k.user fd) i ∧ EpollWatches cu.ev i)) := by
  obtain ⟨_, dl, cap, to, t0, _, _, _, rfl⟩ := deliver_inv hs
  obtain ⟨_, cu, hc, _, hne, rfl⟩ := (delivery (reach_kinv hok h) cap).sound fd e hm
  refine ⟨cu, hc, (pending_iff cu _).1 hne, ?_, ?_, ?_⟩
  · unfold eventOf
    rw [epoll_readable_iff]
    simp only [eventOf_flag cu _ cIn (by decide), eventOf_flag cu _ cPri (by decide), eventOf_flag cu _ cErr (by decide),
      eventOf_flag cu _ cHup (by decide)]
    simp
  · unfold eventOf
    rw [epoll_writable_iff]
    simp only [eventOf_flag cu _ cOut (by decide), eventOf_flag cu _ cErr (by decide),
      eventOf_flag cu _ cHup (by decide)]
    simp
  · intro i hi
    exact eventOf_flag cu _ i hi

/-- A source registered for reading only, whose file is readable and writable: the event is not writable. -/
example : (exTrace exCfg (fun _ => IN ||| OUT) ([.add 7 (Event.onlyReadable 11) .oneshot none] ++ waitActs 8)).map
      (fun tr => tr.filterMap fun o => match o with | .deliver evs => some evs | _ => none) =
    some [[(7, ⟨11, true, false, ⟨IN⟩⟩)]] := by decide

end Polling.C20
