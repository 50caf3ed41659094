import Verif.Proof.EpollRun

/-! C19 (epoll): after `delete` no event of the source is delivered. -/

namespace Polling.C19
open EpollM Epoll Spec

/-- In every history of the epoll poller, with any interleaving of threads: no batch taken from the OS after a
`delete` contains the source, until it is added again. -/
theorem epoll_only_registered (c : Cfg) (hok : c.Ok) (s : S) (tr : List (Obs EventExtra)) (h : Reach c s tr) :
    EveryDelivery OnlyRegistered tr := by
  refine everyDelivery_of ?_ h
  intro s tr a s' evs hr hs fd hc hm
  obtain ⟨_, dl, cap, to, t0, _, _, _, rfl⟩ := deliver_inv hs
  rw [List.mem_map] at hm
  obtain ⟨⟨fd', e⟩, hm, rfl⟩ := hm
  obtain ⟨_, cu, hc', _⟩ := (delivery (reach_kinv hok hr) cap).sound _ _ hm
  rw [hc] at hc'; cases hc'

/-- The same said about `delete` itself: between a successful `delete` and the next registration of the source nothing
is delivered for it. -/
theorem epoll_nothing_after_delete (c : Cfg) (hok : c.Ok) (s : S) (later earlier : List (Obs EventExtra)) (fd : Fd)
    (evs : List (Fd × Event EventExtra)) (mid : List (Obs EventExtra))
    (h : Reach c s (later ++ .deliver evs :: (mid ++ .unreg fd :: earlier)))
    (hmid : ∀ ev mode, .reg fd ev mode ∉ mid) (e : Event EventExtra) : (fd, e) ∉ evs := by
  have hcur : current (mid ++ .unreg fd :: earlier) fd = none := by
    clear h
    induction mid with
    | nil => simp [current]
    | cons o mid ih =>
      have ih := ih (fun ev mode hm => hmid ev mode (by simp [hm]))
      cases o with
      | reg fd' ev mode =>
        simp only [List.cons_append, current]
        rw [if_neg]
        · exact ih
        · rintro rfl; exact hmid ev mode (by simp)
      | unreg fd' =>
        simp only [List.cons_append, current]
        split
        · rfl
        · exact ih
      | deliver evs => simp only [List.cons_append, current, ih, Option.map_none]
      | _ => exact ih
  have := epoll_only_registered c hok s _ h later evs _ rfl fd hcur
  intro hm
  exact this (List.mem_map.2 ⟨_, hm, rfl⟩)

/-- A ready source is deleted while another thread is blocked: only the other source is reported. -/
example : (exTrace exCfg (fun _ => IN)
      [.add 7 (Event.onlyReadable 17) .level none, .add 8 (Event.all 18) .level none, .waitBegin none 5, .compute, .settime none,
       .armTimer none, .delete 7 none, .epollReturn]).map
      (fun tr => tr.filterMap fun o => match o with | .deliver evs => some (evs.map fun e => (e.1, e.2.key)) | _ => none) =
    some [[(8, 18)]] := by decide

end Polling.C19
