import Verif.Proof.EpollEdge
import Verif.Props.C41

/-! C55: edge-triggered delivery, epoll. -/

namespace Polling.C55
open EpollM Epoll Spec

/-- The histories of the epoll poller: what was done and what was observed, newest first. -/
inductive Hist (c : Cfg) : S → List (Act × Obs EventExtra) → Prop
  | init (user : Fd → Flags) : Hist c (EpollM.init c user) []
  | step {s h a s' o} : Hist c s h → EpollM.step c s a = some (s', o) → Hist c s' ((a, o) :: h)

/-- The observations of a history. -/
abbrev seen (h : List (Act × Obs EventExtra)) : List (Obs EventExtra) := h.map Prod.snd

/-- There is news of `fd`: since the last batch that contained it, it was registered or modified, or its file signalled
a condition that its registration watches.  (The file may signal a condition that already holds, for example when
more data arrives.) -/
def News (fd : Fd) : List (Act × Obs EventExtra) → Prop
  | [] => False
  | (a, o) :: h =>
    match a, o with
    | .setReady g _ key, _ => (g = fd ∧ ∃ cu, current (seen h) fd = some cu ∧ EpollPending cu.ev key) ∨ News fd h
    | _, .reg g _ _ => g = fd ∨ News fd h
    | _, .unreg g => g ≠ fd ∧ News fd h
    | _, .deliver evs => fd ∉ evs.map Prod.fst ∧ News fd h
    | _, _ => News fd h

theorem Hist.reach {c s h} (hh : Hist c s h) : Reach c s (seen h) := by
  induction hh with
  | init user => exact .init user
  | step _ hs ih => exact .step ih hs

theorem news_reg {fd a ev m h} (ha : ∀ g f k, a ≠ Act.setReady g f k) : News fd ((a, .reg fd ev m) :: h) := by
  cases a <;> first | exact .inl rfl | exact absurd rfl (ha _ _ _)

theorem news_deliver {fd a evs h} (ha : a = Act.epollReturn) :
    News fd ((a, .deliver evs) :: h) ↔ fd ∉ evs.map Prod.fst ∧ News fd h := by
  subst ha; exact Iff.rfl

theorem news_same {fd a o h} (ha : ∀ f k, a ≠ Act.setReady fd f k) (h1 : ∀ ev m, o ≠ Obs.reg fd ev m) (h2 : o ≠ .unreg fd)
    (h3 : ∀ evs, o ≠ .deliver evs) : News fd ((a, o) :: h) ↔ News fd h := by
  by_cases hsr : ∃ g f k, a = .setReady g f k
  · obtain ⟨g, f, k, rfl⟩ := hsr
    have hg : g ≠ fd := by rintro rfl; exact ha f k rfl
    simp [News, hg]
  · cases o with
    | reg g ev m =>
      have hg : g ≠ fd := by rintro rfl; exact h1 ev m rfl
      cases a <;> first | exact absurd ⟨_, _, _, rfl⟩ hsr | simp [News, hg]
    | unreg g =>
      have hg : g ≠ fd := by rintro rfl; exact h2 rfl
      cases a <;> first | exact absurd ⟨_, _, _, rfl⟩ hsr | simp [News, hg]
    | deliver evs => exact absurd rfl (h3 evs)
    | _ => cases a <;> first | exact absurd ⟨_, _, _, rfl⟩ hsr | exact Iff.rfl

theorem current_same {fd : Fd} {o : Obs EventExtra} {tr} (h1 : ∀ ev m, o ≠ Obs.reg fd ev m) (h2 : o ≠ .unreg fd)
    (h3 : ∀ evs, o ≠ .deliver evs) : current (o :: tr) fd = current tr fd := by
  cases o with
  | reg g ev m =>
    have hg : fd ≠ g := by rintro rfl; exact h1 ev m rfl
    simp [current, hg]
  | unreg g =>
    have hg : fd ≠ g := by rintro rfl; exact h2 rfl
    simp [current, hg]
  | deliver evs => exact absurd rfl (h3 evs)
  | _ => rfl

/-- Only sources with news are in the ready list, and all that need be. -/
theorem ready_list {c : Cfg} (hok : c.Ok) {s h} (hh : Hist c s h) (fd : Fd) (cu : Current EventExtra)
    (hc : current (seen h) fd = some cu) (hm : edgy cu.mode = true) :
    (fd ∈ s.k.rdl → News fd h) ∧
    (News fd h → live cu = true → EpollPending cu.ev (s.k.user fd) → fd ∈ s.k.rdl) := by
  induction hh generalizing cu with
  | init user => cases hc
  | @step s h a s' o hh hs ih =>
    have hk' := reach_kinv hok (hh.step hs).reach
    have hk := reach_kinv hok hh.reach
    have hf := (hk'.r.curOk fd cu hc).1
    cases step_eff hf hs with
    | same hr hu ha h1 h2 h3 =>
      rw [news_same ha h1 h2 h3, hr, hu]
      have : current (seen h) fd = some cu := (current_same h1 h2 h3).symm.trans hc
      exact ih cu this hm
    | reg ev m ho hu ha hr =>
      subst ho
      refine ⟨fun _ => news_reg ha, fun _ hl hp => hr.2 (.inr ?_)⟩
      exact (hits_iff hk' hf _).2 ⟨cu, hc, hl, hp⟩
    | unreg ho ha => subst ho; simp [current] at hc
    | ready f key ha ho hu hnew hr =>
      subst ha ho
      have hc0 : current (seen h) fd = some cu := hc
      have hi := ih cu hc0 hm
      constructor
      · intro hx
        rcases hr.1 hx with hx | hx
        · exact .inr (hi.1 hx)
        · obtain ⟨cu', hc', _, hp⟩ := (hits_iff hk hf _).1 hx
          exact .inl ⟨rfl, cu', hc', hp⟩
      · intro hn hl hp
        rw [hu] at hp
        obtain ⟨i, hi28, hri, hw⟩ := hp
        by_cases hkey : Reported key i
        · exact hr.2 (.inr ((hits_iff hk hf _).2 ⟨cu, hc0, hl, i, hi28, hkey, hw⟩))
        · have hold : Reported (s.k.user fd) i := by
            unfold Reported at *
            have := congrArg (·.getLsbD i) hnew
            have h32 : i < 32 := by omega
            simp only [BitVec.getLsbD_and, BitVec.getLsbD_not, h32, decide_true, Bool.true_and, hri,
              BitVec.getLsbD_zero] at this
            cases hq : (s.k.user fd).getLsbD i with
            | true => rfl
            | false => rw [hq] at this; cases hkq : key.getLsbD i <;> simp_all
          rcases hn with ⟨_, cu', hc', hp'⟩ | hn
          · rw [hc0] at hc'; cases hc'
            exact hr.2 (.inr ((hits_iff hk hf _).2 ⟨cu, hc0, hl, hp'⟩))
          · exact hr.2 (.inl (hi.2 hn hl ⟨i, hi28, hold, hw⟩))
    | deliver evs ho ha hu =>
      subst ho
      obtain ⟨cu0, hc0, he⟩ := Option.map_eq_some_iff.1 hc
      have hm0 : edgy cu0.mode = true := by rw [← he] at hm; split at hm <;> exact hm
      obtain ⟨b1, b2, b3⟩ := batch_edge hk hs hc0 hm0
      rw [news_deliver ha, hu]
      have hi := ih cu0 hc0 hm0
      constructor
      · intro hx
        exact ⟨fun hin => (b1 hin).2 hx, hi.1 (b2 hx)⟩
      · rintro ⟨hno, hn⟩ hl hp
        have hno' : ¬ fd ∈ evs.map Prod.fst := hno
        rw [if_neg hno'] at he
        subst he
        exact b3 hno hl hp (hi.2 hn hl hp)

/-- In every history of the epoll poller, a batch contains an edge-triggered source at most once, and only if there is
news of it: since it was last in a batch, it was registered or modified, or its file signalled a watched condition. -/
theorem epoll_edge_only_news (c : Cfg) (hok : c.Ok) (s s' : S) (h : List (Act × Obs EventExtra)) (hh : Hist c s h) (a : Act)
    (evs : List (Fd × Event EventExtra)) (hs : EpollM.step c s a = some (s', .deliver evs)) (fd : Fd) (cu : Current EventExtra)
    (hc : current (seen h) fd = some cu) (hm : cu.mode = .edge ∨ cu.mode = .edgeOneshot) (hin : fd ∈ evs.map Prod.fst) :
    News fd h ∧ (evs.map Prod.fst).count fd = 1 := by
  have hm' : edgy cu.mode = true := by rcases hm with hm | hm <;> rw [hm] <;> rfl
  have hk := reach_kinv hok hh.reach
  refine ⟨(ready_list hok hh fd cu hc hm').1 ((batch_edge hk hs hc hm').1 hin).1, ?_⟩
  obtain ⟨_, dl, cap, to, t0, _, _, rfl, rfl⟩ := deliver_inv hs
  rw [(delivery hk cap).nodup.count, if_pos hin]

/-- The news is not lost: a batch contains every edge-triggered source (not fired, if also one-shot) of which there is
news and of which a watched condition holds, unless the buffer is filled completely by others. -/
theorem epoll_edge_not_lost (c : Cfg) (hok : c.Ok) (s s' : S) (h : List (Act × Obs EventExtra)) (hh : Hist c s h) (a : Act)
    (evs : List (Fd × Event EventExtra)) (hs : EpollM.step c s a = some (s', .deliver evs)) (fd : Fd) (cu : Current EventExtra)
    (hc : current (seen h) fd = some cu) (hm : cu.mode = .edge ∨ (cu.mode = .edgeOneshot ∧ cu.fired = false))
    (hn : News fd h) (hp : EpollPending cu.ev (s.k.user fd)) :
    (∃ e, (fd, e) ∈ evs) ∨ ∃ dl cap raw, s'.phase = .clearing dl cap raw ∧ raw.length = cap := by
  have hl : live cu = true := by rcases hm with hm | ⟨_, hf⟩ <;> simp [live, *, oneshot]
  have hm' : edgy cu.mode = true := by rcases hm with hm | ⟨hm, _⟩ <;> rw [hm] <;> rfl
  have hq := (ready_list hok hh fd cu hc hm').2 hn hl hp
  obtain ⟨_, dl, cap, to, t0, _, _, rfl, rfl⟩ := deliver_inv hs
  rcases (delivery (reach_kinv hok hh.reach) cap).complete fd cu hc hl ((pending_iff cu _).2 hp) (.inr (.inr hq)) with h1 | h1
  · exact .inl ⟨_, h1⟩
  · exact .inr ⟨dl, cap, _, rfl, h1⟩

/-- And no `wait` sleeps on such news. -/
theorem epoll_edge_not_asleep (c : Cfg) (hok : c.Ok) (s : S) (h : List (Act × Obs EventExtra)) (hh : Hist c s h)
    (dl cap to t0) (hph : s.phase = .polling dl cap to t0) (fd : Fd) (cu : Current EventExtra)
    (hc : current (seen h) fd = some cu) (hm : cu.mode = .edge ∨ (cu.mode = .edgeOneshot ∧ cu.fired = false))
    (hn : News fd h) (hp : EpollPending cu.ev (s.k.user fd)) :
    ∃ s' evs, EpollM.step c s .epollReturn = some (s', .deliver evs) := by
  have hl : live cu = true := by rcases hm with hm | ⟨_, hf⟩ <;> simp [live, *, oneshot]
  have hm' : edgy cu.mode = true := by rcases hm with hm | ⟨hm, _⟩ <;> rw [hm] <;> rfl
  have hq := (ready_list hok hh fd cu hc hm').2 hn hl hp
  have hcap := reach_cap hh.reach
  rw [hph] at hcap
  have hne : (harvest c s.k cap).1 ≠ [] := by
    intro he
    rcases (delivery (reach_kinv hok hh.reach) cap).complete fd cu hc hl ((pending_iff cu _).2 hp) (.inr (.inr hq)) with h1 | h1
    · rw [he] at h1; simp at h1
    · rw [he] at h1; simp [Phase.capOk] at h1 hcap; omega
  exact ⟨_, _, return_enabled hph (.inl hne)⟩

/-- Nor do other sources starve it: while the condition lasts, fewer batches pass over it than there are registered
sources (plus the poller's own two descriptors). -/
theorem epoll_edge_no_starvation (c : Cfg) (hok : c.Ok) (s s' : S) (h : List (Act × Obs EventExtra)) (hh : Hist c s h)
    (fd : Fd) (n : Nat) (tr' : List (Obs EventExtra)) (hrun : C41.Starving c fd n s (seen h) s' tr') (cu : Current EventExtra)
    (hc : current (seen h) fd = some cu) (hm : cu.mode = .edge ∨ (cu.mode = .edgeOneshot ∧ cu.fired = false))
    (hn : News fd h) (hp : EpollPending cu.ev (s.k.user fd)) (l : List Fd)
    (hall : ∀ x, (current (seen h) x).isSome = true ∨ c.internal x = true → x ∈ l) : n < l.length := by
  have hl : live cu = true := by rcases hm with hm | ⟨_, hf⟩ <;> simp [live, *, oneshot]
  have hm' : edgy cu.mode = true := by rcases hm with hm | ⟨hm, _⟩ <;> rw [hm] <;> rfl
  have hq := (ready_list hok hh fd cu hc hm').2 hn hl hp
  have hk := reach_kinv hok hh.reach
  obtain ⟨_, _, _, hidx⟩ := C41.starving_spec hok hrun hh.reach hc hl hq
  have h1 := List.idxOf_lt_length_of_mem hq
  have h2 : s.k.rdl.length ≤ l.length := by
    refine List.Nodup.length_le_of_subset hk.l.nodup ?_
    intro x hx
    apply hall
    cases hi : c.internal x with
    | true => exact .inr rfl
    | false =>
      left
      have := hk.l.sub x hx
      rw [hk.r.user x hi] at this
      simpa using this
  omega

/-- Source 7 is edge-triggered and readable when registered: the first `wait` reports it, the second (which only a
second source, 8, ends) does not, although it is still readable.  Then more data arrives, and it is reported once more;
then it is modified without anything arriving, and reported again. -/
example : (exTrace exCfg (fun _ => IN)
      ([.add 7 (Event.onlyReadable 17) .edge none, .add 8 (Event.onlyReadable 18) .level none] ++ waitActs 5 ++ waitActs 5 ++
        [.setReady 7 IN IN] ++ waitActs 5 ++ waitActs 5 ++ [.modify 7 (Event.onlyReadable 17) .edge none] ++ waitActs 5)).map
      (fun tr => tr.filterMap fun o => match o with | .deliver evs => some (evs.map fun e => e.1) | _ => none) =
    some [[8, 7], [8], [8, 7], [8], [7, 8]] := by decide

/-- The history of a run. -/
def exHist (c : Cfg) (s : S) : List Act → Option (S × List (Act × Obs EventExtra))
  | [] => some (s, [])
  | a :: as => (EpollM.step c s a).bind fun r => (exHist c r.1 as).map fun q => (q.1, q.2 ++ [(a, r.2)])

/-- There is news of 7 after the last `modify` of that run, none before it (the hypotheses of the theorems and their
opposite). -/
example : (exHist exCfg (EpollM.init exCfg fun _ => IN)
      ([.add 7 (Event.onlyReadable 17) .edge none] ++ waitActs 5 ++ [.modify 7 (Event.onlyReadable 17) .edge none])).any
      (fun q => q.2.length == 10 && current (seen q.2) 7 == some ⟨Event.onlyReadable 17, .edge, false⟩ &&
        current (seen q.2.tail) 7 == some ⟨Event.onlyReadable 17, .edge, true⟩) = true := by decide

example (h : List (Act × Obs EventExtra)) : News 7 ((.modify 7 (Event.onlyReadable 17) .edge none, .reg 7 (Event.onlyReadable 17) .edge) :: h) :=
  .inl rfl
example (h : List (Act × Obs EventExtra)) (e : Event EventExtra) : ¬ News 7 ((.epollReturn, .deliver [(7, e)]) :: h) := by
  simp [News]

end Polling.C55
