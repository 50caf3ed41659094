import Verif.Proof.PollView
import Verif.Spec.Flags

/-!
C03, C15, C16 and C19 for the poll backend: any number of threads, every interleaving.
`history false` reads a run as the API is documented; `history true` as the code behaves (see `Spec/PollHistory.lean`).
-/

namespace Polling.PollEx
open PollP PollB PollFlags PollSpec Spec

/-! A single thread, for the examples. -/

def cfg : Cfg := ⟨⟨3, 4, IN⟩, .pipe, 1⟩
/-- A whole registration call. -/
def callActs (op : Op) : List (Nat × Act) :=
  [(0, .callBegin op), (0, .callWrite true), (0, .callLock), (0, .callPop), (0, .callApply), (0, .callDec), (0, .callCv),
   (0, .callUnlock)]
/-- A whole `wait` that gets the results `os`. -/
def waitActs (os : Fd → Flags → Flags) (order : List Fd) : List (Nat × Act) :=
  [(0, .waitBegin true), (0, .waitLock), (0, .waitSwap), (0, .waitLoad), (0, .waitPoll os), (0, .waitSwap2 order), (0, .waitUnlock),
   (0, .waitFinish)]

/-- Descriptor 7 reports what is asked for of `f`, besides what is always reported of it. -/
def os7 (f : Flags) : Fd → Flags → Flags := fun fd ask => if fd = 7 then f &&& (ask ||| HUP ||| ERR ||| NVAL) else 0#16

/-- The run `acts` exists and its observations satisfy `p`. -/
theorem run_of {c : Cfg} {acts : List (Nat × Act)} {p : List PObs → Bool}
    (h : ((runActs c (PollP.init c) acts).map fun r => p r.2) = some true) :
    ∃ s tr, Reach c Any s tr ∧ p tr = true := by
  obtain ⟨⟨s, tr⟩, h2, h3⟩ := Option.map_eq_some_iff.1 h
  refine ⟨s, tr, ?_, h3⟩
  have := reach_run (P := Any) .init acts s tr (fun _ _ => trivial) h2
  simpa using this

/-- The newest delivery of a history, with the registrations before it. -/
def newest : List (Obs EventExtra) → Option ((Fd → Option (Current EventExtra)) × List (Fd × Event EventExtra))
  | [] => none
  | .deliver evs :: tr => some (current tr, evs)
  | _ :: tr => newest tr

theorem newest_spec {tr cur evs} (h : newest tr = some (cur, evs)) :
    ∃ later earlier, tr = later ++ .deliver evs :: earlier ∧ cur = current earlier := by
  induction tr with
  | nil => cases h
  | cons o tr ih =>
    cases o
    case deliver evs' => cases h; exact ⟨[], tr, rfl, rfl⟩
    all_goals
      obtain ⟨later, earlier, h1, h2⟩ := ih h
      exact ⟨_ :: later, earlier, by rw [h1]; rfl, h2⟩

end Polling.PollEx

namespace Polling.C03
open PollP PollB PollFlags PollSpec Spec PollEx

/-- In every run of the poll backend in which no `modify` was rejected because of its mode: each delivered event belongs
to a source registered at that moment, and has the key of the latest `add` or `modify` of that source.
Missing: with rejected `modify` calls it is false, see `poll_wrong_key`. -/
theorem poll_right_key_partial {c s tr} (h : Reach c Any s tr) (hno : NoRejectedModify tr) :
    EveryDelivery RightKey (history false tr) := by
  rw [← history_clean hno true]
  refine everyDelivery_of h ?_
  intro s t os order n l tr' hr _ fd e hm
  obtain ⟨cu, hc, _, rfl⟩ := (batch_spec hr).sound fd e hm
  exact ⟨cu, hc, rfl⟩

/-- The same for every run, counting a rejected `modify` as a registration. -/
theorem poll_right_key_as_coded {c s tr} (h : Reach c Any s tr) : EveryDelivery RightKey (history true tr) := by
  refine everyDelivery_of h ?_
  intro s t os order n l tr' hr _ fd e hm
  obtain ⟨cu, hc, _, rfl⟩ := (batch_spec hr).sound fd e hm
  exact ⟨cu, hc, rfl⟩

/-- No event is left out of the reading of the runs: the events attributed to sources are all events of the batch. -/
theorem poll_every_event_attributed {c s tr t os order n l} (h : Reach c Any s (.round t os order n (.events l) :: tr)) :
    ∃ evs, history true (.round t os order n (.events l) :: tr) = .deliver evs :: history true tr ∧ evs.map Prod.snd = l :=
  ⟨_, rfl, (batch_spec h).all⟩

/-- Descriptor 7 is added with key 70; a `modify` with key 71 in edge mode is rejected; then it becomes ready. -/
def exWrong : List (Nat × Act) :=
  callActs (.add 7 (Event.onlyReadable 70) .level) ++ callActs (.modify 7 (Event.onlyReadable 71) .edge) ++
  waitActs (os7 IN) [7]

/-- False of the code: the event has the key of the rejected `modify`. -/
theorem poll_wrong_key : ∃ s tr, Reach cfg Any s tr ∧ ¬ EveryDelivery RightKey (history false tr) := by
  obtain ⟨s, tr, hr, hp⟩ := run_of (c := cfg) (acts := exWrong) (p := fun tr => match newest (history false tr) with
    | some (cur, evs) => match cur 7 with
      | some cu => evs.any fun e => e.1 == 7 && e.2.key != cu.ev.key
      | none => false
    | none => false) (by decide +kernel)
  refine ⟨s, tr, hr, fun hk => ?_⟩
  revert hp
  cases hn : newest (history false tr) with
  | none => simp
  | some p =>
    obtain ⟨cur, evs⟩ := p
    obtain ⟨later, earlier, he, rfl⟩ := newest_spec hn
    have := hk later evs earlier he
    intro hp
    simp only at hp
    split at hp
    · next cu hcu =>
      rw [List.any_eq_true] at hp
      obtain ⟨⟨fd, e⟩, hm, hx⟩ := hp
      simp only [Bool.and_eq_true, beq_iff_eq, bne_iff_ne] at hx
      obtain ⟨rfl, hx⟩ := hx
      obtain ⟨cu', hc', hk'⟩ := this _ _ hm
      rw [hcu] at hc'; obtain rfl := Option.some.inj hc'
      exact hx hk'
    · cases hp

/-- Two descriptors; the second is modified to a large key between two waits. -/
example : ((runActs cfg (PollP.init cfg) (callActs (.add 7 (Event.onlyReadable 70) .oneshot) ++ callActs (.add 8 (Event.all 80) .level) ++
      waitActs (os7 IN) [8, 7] ++ callActs (.modify 8 (Event.all 0xFFFFFFFFFFFFFFFE) .level) ++
      waitActs (fun fd ask => if fd = 8 then ask &&& OUT else 0#16) [8, 7])).map fun r =>
      (history false r.2).filterMap fun o => match o with
        | .deliver evs => some (evs.map fun e => (e.1, e.2.key, e.2.readable, e.2.writable))
        | _ => none) =
    some [[(8, 0xFFFFFFFFFFFFFFFE, false, true)], [(7, 70, true, false)]] := by decide +kernel

end Polling.C03

namespace Polling.C15
open PollP PollB PollFlags PollSpec Spec PollEx

/-- The contract of poll(2): besides what is asked for only hang-up, error and "invalid descriptor" are reported. -/
def OsHonest (os : Fd → Flags → Flags) : Prop :=
  ∀ fd ask c, Reported (os fd ask) c → Reported ask c ∨ c = cHup ∨ c = cErr ∨ c = cNval

/-- In every run of the poll backend: a source in one-shot mode that delivered an event delivers, until it is modified
or added again, only events that report nothing but hang-up, error or an invalid descriptor; and never two in a batch.
Missing: those conditions are delivered again, see `poll_oneshot_violated`. -/
theorem poll_oneshot_partial {c s tr} (h : Reach c (OsIs OsHonest) s tr) :
    EveryDelivery (fun cur evs => ∀ fd cu, cur fd = some cu → oneshot cu.mode = true →
      (cu.fired = true → ∀ e, (fd, e) ∈ evs → ∀ k, Reported e.extra.flags k → k = cHup ∨ k = cErr ∨ k = cNval) ∧
      (evs.map Prod.fst).count fd ≤ 1) (history true tr) := by
  refine everyDelivery_of h ?_
  intro s t os order n l tr' hr _ fd cu hc ho
  have hb := batch_spec hr
  refine ⟨fun hf e hm k hk => ?_, List.nodup_iff_count.1 hb.nodup fd⟩
  obtain ⟨cu', hc', _, rfl⟩ := hb.sound fd e hm
  rw [hc] at hc'; obtain rfl := Option.some.inj hc'
  have hask : asks cu = 0#16 := if_pos ⟨hf, ho⟩
  rcases (reach_os hr).2 t os order n _ List.mem_cons_self fd (asks cu) k hk with h1 | h1
  · rw [hask] at h1; simp [Reported] at h1
  · exact h1

/-- Descriptor 7 in one-shot mode is hung up: it is reported by both waits. -/
def exHup : List (Nat × Act) :=
  callActs (.add 7 (Event.onlyReadable 70) .oneshot) ++ waitActs (os7 HUP) [7] ++ waitActs (os7 HUP) [7]

theorem os7_honest (f : Flags) : OsHonest (os7 f) := by
  intro fd ask k h
  unfold os7 at h
  split at h
  · simp only [Reported, BitVec.getLsbD_and, BitVec.getLsbD_or, Bool.and_eq_true, Bool.or_eq_true] at h ⊢
    have hk : k < 16 := BitVec.lt_of_getLsbD h.1
    rcases h.2 with ((h2 | h2) | h2) | h2
    · exact .inl h2
    all_goals
      right
      clear h
      revert h2 hk
      simp only [HUP, ERR, NVAL, cHup, cErr, cNval]
      revert k
      decide
  · simp [Reported] at h

/-- False of the code (and of poll(2)) as stated: a hang-up is delivered again although the source was not re-armed. -/
theorem poll_oneshot_violated : ∃ s tr, Reach cfg (OsIs OsHonest) s tr ∧ ¬ EveryDelivery OneShot (history false tr) := by
  have h1 : ((runActs cfg (PollP.init cfg) exHup).map fun r => match newest (history false r.2) with
    | some (cur, evs) => match cur 7 with
      | some cu => oneshot cu.mode && cu.fired && evs.any fun e => e.1 == 7
      | none => false
    | none => false) = some true := by decide +kernel
  obtain ⟨⟨s, tr⟩, h2, hp⟩ := Option.map_eq_some_iff.1 h1
  refine ⟨s, tr, ?_, fun hk => ?_⟩
  · have := reach_run (P := OsIs OsHonest) .init exHup s tr (by
      intro a ha
      simp only [exHup, callActs, waitActs, List.mem_append, List.mem_cons, List.not_mem_nil, or_false] at ha
      have hh := os7_honest HUP
      rcases ha with (ha | ha) | ha <;>
        rcases ha with rfl | rfl | rfl | rfl | rfl | rfl | rfl | rfl <;> first | trivial | exact hh) h2
    simpa using this
  · revert hp
    cases hn : newest (history false tr) with
    | none => simp
    | some p =>
      obtain ⟨cur, evs⟩ := p
      obtain ⟨later, earlier, he, rfl⟩ := newest_spec hn
      have := hk later evs earlier he
      intro hp
      simp only at hp
      split at hp
      · next cu hcu =>
        simp only [Bool.and_eq_true, List.any_eq_true, beq_iff_eq] at hp
        obtain ⟨⟨ho, hf⟩, ⟨fd, e⟩, hm, rfl⟩ := hp
        exact (this _ cu hcu ho).1 hf (List.mem_map.2 ⟨_, hm, rfl⟩)
      · cases hp

/-- Without hang-ups: delivered once, silent in the second `wait`, and delivered again after `modify`. -/
example : ((runActs cfg (PollP.init cfg) (callActs (.add 7 (Event.onlyReadable 70) .oneshot) ++ waitActs (os7 IN) [7] ++
      waitActs (os7 IN) [7] ++ callActs (.modify 7 (Event.onlyReadable 71) .oneshot) ++ waitActs (os7 IN) [7])).map fun r =>
      (history false r.2).filterMap fun o => match o with
        | .deliver evs => some (evs.map fun e => (e.1, e.2.key))
        | _ => none) =
    some [[(7, 71)], [], [(7, 70)]] := by decide +kernel

end Polling.C15

namespace Polling.C16
open PollP PollB PollFlags PollSpec Spec PollEx

/-- In every run of the poll backend: a `wait` that looks at the results of `poll(2)` returns the event of every source
that is registered in level mode (or in one-shot mode and did not deliver since it was armed) and about which `poll(2)`
reported something, with its key and the reported conditions; the buffer has no limit. -/
theorem poll_level {c s tr t os order n o} (h : Reach c Any s (.round t os order n o :: tr)) (fd : Fd) (cu : Current EventExtra)
    (hc : current (history true tr) fd = some cu) (hm : cu.mode = .level ∨ cu.fired = false)
    (hready : os fd ((if cu.ev.readable then IN ||| PRI else 0#16) ||| (if cu.ev.writable then OUT ||| WRBAND else 0#16)) ≠ 0#16) :
    ∃ l evs e, o = .events l ∧ history true (.round t os order n o :: tr) = .deliver evs :: history true tr ∧
      (fd, e) ∈ evs ∧ e ∈ l ∧ e.key = cu.ev.key := by
  have hask : os fd (asks cu) ≠ 0#16 := by
    unfold asks
    rw [if_neg]
    · exact hready
    · rintro ⟨h1, h2⟩
      rcases hm with hm | hm
      · rw [hm] at h2; cases h2
      · rw [hm] at h1; cases h1
  obtain ⟨s', h'⟩ := reach_tail h
  obtain ⟨hl, ho, _⟩ := round_events_spec h
  have hmt := reach_match h'
  cases o with
  | res r => simp only [stepSpec] at ho; split at ho <;> cases ho
  | again =>
    exfalso
    simp only [stepSpec] at ho
    split at ho
    · next hq =>
      have hr := Match.ready (os := os) (fd := fd) hmt
      have hin : fd ∈ order := by
        rw [hl.2]
        rcases hmt fd with ⟨h1, _⟩ | ⟨_, x, _, h2, _⟩
        · rw [hc] at h1; cases h1
        · rw [h2]; rfl
      rw [hq.2.2 fd hin] at hr
      simp [readyNow, hc, hask] at hr
    · cases ho
  | events l =>
    have hb := batch_spec h
    have hin := hb.complete fd cu hc hask
    refine ⟨l, _, _, rfl, rfl, hin, ?_, rfl⟩
    have := hb.all
    have h2 := List.mem_map_of_mem (f := Prod.snd) hin
    rw [this] at h2
    exact h2

/-- And `poll(2)` can return: the `wait` does not sleep while such a source is ready. -/
theorem poll_level_not_asleep {c s tr t b} (h : Reach c Any s tr) (ht : s.pc t = .wPoll b) (fd : Fd) (cu : Current EventExtra)
    (hc : current (history true tr) fd = some cu) (os : Fd → Flags → Flags) (hready : os fd (asks cu) ≠ 0#16)
    (hos : decide (os c.n.readFd c.n.flags ≠ 0#16) = decide (s.chan > 0)) :
    ∃ s', step c s t (.waitPoll os) = some (s', .tau) := by
  have hT := reach_T h
  have hlt : t < c.threads := by
    by_cases hlt : t < c.threads
    · exact hlt
    · have := (reach_I h).range t (by omega); rw [ht] at this; cases this
  have hm := reach_match h fd
  rw [hc] at hm
  obtain ⟨x, hx, hask⟩ : ∃ x, mapOf c tr fd = some x ∧ x.ask = asks cu := by
    rcases id hm with ⟨h, _⟩ | ⟨_, x, _, h2, _⟩
    · cases h
    · rw [h2] at hm; exact ⟨x, h2, hm.ask⟩
  have hcount : (osPoll os s.tbl.pollFds).2 > 0 := by
    rcases hT.rel fd with ⟨_, h2⟩ | ⟨d, r, p, h1, h2, h3, _, _, h6⟩
    · rw [h2] at hx; cases hx
    · rw [h2] at hx; obtain rfl := Option.some.inj hx
      obtain ⟨_, p', hp', hf'⟩ := hT.inv.fwd fd d h1
      rw [h3] at hp'; obtain rfl := Option.some.inj hp'
      simp only [osPoll]
      apply List.length_pos_of_mem (a := { p with revents := os p.fd p.events })
      rw [List.mem_filter]
      refine ⟨List.mem_map.2 ⟨p, List.mem_of_getElem? h3, rfl⟩, ?_⟩
      simp only [bne_iff_ne]
      rw [hf', h6, hask]
      exact hready
  refine ⟨{ s with pc := PollP.upd s.pc t (if s.chan > 0 then .wPopAll b os else .wSwap2 b os) }, ?_⟩
  simp only [step, if_pos hlt, ht]
  exact if_pos ⟨hos, .inl hcount⟩

/-- Two level-triggered sources, both ready: both waits report both, in the order in which the hash map is traversed. -/
example : ((runActs cfg (PollP.init cfg) (callActs (.add 7 (Event.onlyReadable 70) .level) ++ callActs (.add 8 (Event.all 80) .level) ++
      waitActs (fun fd ask => if fd = 3 then 0#16 else ask &&& IN) [8, 7] ++
      waitActs (fun fd ask => if fd = 3 then 0#16 else ask &&& IN) [7, 8])).map fun r =>
      (history false r.2).filterMap fun o => match o with
        | .deliver evs => some (evs.map fun e => (e.1, e.2.key))
        | _ => none) =
    some [[(7, 70), (8, 80)], [(8, 80), (7, 70)]] := by decide +kernel

end Polling.C16

namespace Polling.C19
open PollP PollB PollFlags PollSpec Spec PollEx

/-- In every run of the poll backend: no batch evaluated after a `delete` took effect contains the source, until it is
added again. -/
theorem poll_only_registered {c s tr} (h : Reach c Any s tr) : EveryDelivery OnlyRegistered (history true tr) := by
  refine everyDelivery_of h ?_
  intro s t os order n l tr' hr _ fd hc hm
  rw [List.mem_map] at hm
  obtain ⟨⟨fd', e⟩, hm, rfl⟩ := hm
  obtain ⟨cu, hc', _⟩ := (batch_spec hr).sound _ _ hm
  rw [hc] at hc'; cases hc'

/-- A ready source is deleted before the second `wait`. -/
example : ((runActs cfg (PollP.init cfg) (callActs (.add 7 (Event.onlyReadable 70) .level) ++ waitActs (os7 IN) [7] ++
      callActs (.delete 7) ++ waitActs (os7 IN) [])).map fun r =>
      (history false r.2).filterMap fun o => match o with
        | .deliver evs => some (evs.map fun e => (e.1, e.2.key))
        | _ => none) =
    some [[], [(7, 70)]] := by decide +kernel

end Polling.C19
