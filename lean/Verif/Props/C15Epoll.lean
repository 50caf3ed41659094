import Verif.Proof.EpollRun

/-! C15 (epoll): one-shot delivery. -/

namespace Polling.C15
open EpollM Epoll Spec

/-- In every history of the epoll poller, with any interleaving of threads: a source in one-shot mode (also edge
one-shot) that delivered an event is not delivered again until it is registered or modified, and never twice in one
batch. -/
theorem epoll_oneshot (c : Cfg) (hok : c.Ok) (s : S) (tr : List (Obs EventExtra)) (h : Reach c s tr) :
    EveryDelivery OneShot tr := by
  refine everyDelivery_of ?_ h
  intro s tr a s' evs hr hs fd cu hc ho
  obtain ⟨_, dl, cap, to, t0, _, _, _, rfl⟩ := deliver_inv hs
  have hd := delivery (reach_kinv hok hr) cap
  constructor
  · intro hf hm
    rw [List.mem_map] at hm
    obtain ⟨⟨fd', e⟩, hm, rfl⟩ := hm
    obtain ⟨_, cu', hc', hl, _⟩ := hd.sound _ _ hm
    rw [hc, Option.some.injEq] at hc'
    subst hc'
    simp [live, hf, ho] at hl
  · exact List.nodup_iff_count.1 hd.nodup fd

/-- A source that stays readable: delivered once, silent in the second `wait` (only the notification ends it), and
delivered again after `modify`. -/
example : (exTrace exCfg (fun _ => IN)
      ([.add 7 (Event.onlyReadable 11) .oneshot none] ++ waitActs 8 ++ [.notifyCas, .notifyWrite] ++ waitActs 8 ++
       [.modify 7 (Event.onlyReadable 12) .oneshot none] ++ waitActs 8)).map
      (fun tr => tr.filterMap fun o => match o with | .deliver evs => some (evs.map fun e => (e.1, e.2.key)) | _ => none) =
    some [[(7, 12)], [], [(7, 11)]] := by decide

end Polling.C15
