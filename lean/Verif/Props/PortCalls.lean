import Verif.Proof.PortInv
import Verif.Spec.Modes
import Verif.Model.Modes
import Verif.Props.C20

/-! Event ports: registration calls and deliveries (C03, C15, C17, C18, C19, C20, C24). -/

namespace Polling.PortM
open Port Spec PollFlags

/-- The trace of a run from a fresh poller, the files being in the conditions `cond`. -/
def exTrace (cond : Fd → Flags) (acts : List Act) : Option (List (Obs EventExtra)) := (runActs 3 (init cond) acts).map Prod.snd

/-- A complete `wait`. -/
def waitActs (cap : Nat) : List Act := [.waitBegin none cap, .compute, .getn, .finish]

end Polling.PortM

namespace Polling.C03
open PortM Port Spec PollFlags

/-- In every history of the event port poller, with any interleaving of threads and any failures: each event taken from the OS
belongs to a registered source and carries the key of its latest successful `add` or `modify`. -/
theorem port_right_key (n : Nat) (P) (s : S) (tr : List (Obs EventExtra)) (h : Reach n P s tr) : EveryDelivery RightKey tr := by
  intro later evs earlier he fd e hm
  obtain ⟨s0, a, s1, hr, _, hs⟩ := reach_split h later _ earlier he
  obtain ⟨cu, hc, _, hk, _⟩ := delivered (reach_ki hr) hs hm
  exact ⟨cu, hc, hk⟩

/-- `wait` shows exactly the events taken from the OS: nothing hidden, the notifications left out. -/
theorem port_shows_exactly_the_taken (n : Nat) (P) (s : S) (tr : List (Obs EventExtra)) (k : Nat) (evs : List (Event EventExtra))
    (h : Reach n P s (.waitOk k evs :: tr)) : ∃ d, lastDelivery tr = some d ∧ evs = d.map Prod.snd ∧ k = d.length := by
  -- the buffer of a `wait` that took its events
  have buf : ∀ {s tr}, Reach n P s tr → ∀ raw, s.phase = .taken raw → lastDelivery tr = some (sources raw) ∧ visible raw = (sources raw).map Prod.snd := by
    intro s tr h
    induction h with
    | init => intro raw h; cases h
    | @step s tr a s' o hr hp hs ih =>
      intro raw hraw
      have keep : s.phase = .taken raw → (∀ evs, o ≠ .deliver evs) → o ≠ .waitBegin → (∀ n evs, o ≠ .waitOk n evs) → (∀ e, o ≠ .waitErr e) →
          lastDelivery (o :: tr) = some (sources raw) ∧ visible raw = (sources raw).map Prod.snd := by
        intro hph h1 h2 h3 h4
        have := ih raw hph
        cases o with
        | deliver evs => exact absurd rfl (h1 evs)
        | waitBegin => exact absurd rfl h2
        | waitOk n evs => exact absurd rfl (h3 n evs)
        | waitErr e => exact absurd rfl (h4 e)
        | _ => exact this
      cases a with
      | getn =>
        simp only [step] at hs
        split at hs
        rotate_left
        · cases hs
        next dl cap to t0 hph =>
        split at hs
        · cases hs
          cases hraw
          refine ⟨rfl, ?_⟩
          have hki := reach_ki hr
          unfold visible sources getn
          dsimp only
          generalize hq : s.k.queue.take cap = q
          have hsub : ∀ e ∈ q, e ∈ s.k.queue := by intro e he; rw [← hq] at he; exact List.mem_of_mem_take he
          clear hq
          induction q with
          | nil => rfl
          | cons e q ihq =>
            have ihq := ihq fun e he => hsub e (by simp [he])
            cases e with
            | user ev d =>
              have hu : Entry.user ev d = notification := hki.users ev d (hsub _ (by simp))
              cases hu
              simp only [List.map_cons, rawOf, List.filterMap_cons, Option.map_none]
              rw [List.filter_cons_of_neg (by decide)]
              exact ihq
            | fd x =>
              obtain ⟨a, ha, _⟩ := hki.fds x (hsub _ (by simp))
              have hm := hki.reg x
              cases hc : current tr x with
              | none => rw [hc, ha] at hm; cases hm
              | some cu =>
                rw [hc, ha] at hm
                obtain ⟨h1, _, h3⟩ := hm
                split at h3
                · cases h3
                · cases h3
                  simp only [List.map_cons, rawOf, List.filterMap_cons, Option.map_some, ha]
                  rw [List.filter_cons_of_pos]
                  · rw [ihq]
                  · simpa [toEvent, u64ToKey, keyToU64] using h1
        · split at hs <;> cases hs
          cases hraw
          exact ⟨rfl, rfl⟩
      | finish => simp only [step] at hs; split at hs <;> cases hs; cases hraw
      | compute => simp only [step] at hs; split at hs <;> cases hs; cases hraw
      | waitBegin =>
        simp only [step] at hs
        repeat' split at hs
        all_goals cases hs
        cases hraw
      | getnFail e =>
        simp only [step] at hs
        repeat' split at hs
        all_goals cases hs
        all_goals cases hraw
      | waitBusy =>
        simp only [step] at hs
        split at hs <;> cases hs
        exact keep hraw nofun nofun nofun nofun
      | tick dt => simp only [step] at hs; cases hs; exact keep hraw nofun nofun nofun nofun
      | setReady =>
        simp only [step] at hs
        split at hs <;> cases hs
        exact keep hraw nofun nofun nofun nofun
      | notifyCas =>
        simp only [step] at hs
        repeat' split at hs
        all_goals cases hs
        all_goals exact keep hraw nofun nofun nofun nofun
      | notifySend =>
        simp only [step] at hs
        repeat' split at hs
        all_goals cases hs
        all_goals exact keep hraw nofun nofun nofun nofun
      | delete =>
        simp only [step] at hs
        repeat' split at hs
        all_goals cases hs
        all_goals exact keep hraw nofun nofun nofun nofun
      | add =>
        simp only [step] at hs
        repeat' split at hs
        all_goals cases hs
        all_goals exact keep hraw nofun nofun nofun nofun
      | modify =>
        simp only [step] at hs
        repeat' split at hs
        all_goals cases hs
        all_goals exact keep hraw nofun nofun nofun nofun
  obtain ⟨s0, a, s1, hr, _, hs⟩ := reach_split h [] _ tr rfl
  cases a with
  | finish =>
    simp only [step] at hs
    split at hs <;> cases hs
    next raw hph =>
    obtain ⟨h1, h2⟩ := buf hr raw hph
    exact ⟨_, h1, h2, by rw [h2, List.length_map]⟩
  | _ =>
    simp only [step] at hs
    repeat' split at hs
    all_goals first | (cases hs; done) | (injection hs with hs; injection hs with h1 h2; cases h2)

/-- A `modify` changes only the key, while the event is already queued. -/
example : exTrace (fun _ => IN) ([.add 7 (Event.onlyReadable 11) .oneshot none, .modify 7 (Event.onlyReadable 12) .oneshot none] ++ waitActs 4) =
    some [.waitOk 1 [⟨12, true, false, ⟨IN⟩⟩], .deliver [(7, ⟨12, true, false, ⟨IN⟩⟩)], .tau, .waitBegin,
      .reg 7 (Event.onlyReadable 12) .oneshot, .reg 7 (Event.onlyReadable 11) .oneshot] := by decide

end Polling.C03

namespace Polling.C15
open PortM Port Spec PollFlags

/-- In every history of the event port poller: a source (always one-shot) that delivered an event is not delivered again
until it is registered or modified, and never twice in one batch. -/
theorem port_oneshot (n : Nat) (P) (s : S) (tr : List (Obs EventExtra)) (h : Reach n P s tr) : EveryDelivery OneShot tr := by
  intro later evs earlier he fd cu hc ho
  obtain ⟨s0, a, s1, hr, _, hs⟩ := reach_split h later _ earlier he
  have hk := reach_ki hr
  constructor
  · intro hf hm
    rw [List.mem_map] at hm
    obtain ⟨⟨fd', e⟩, hm, rfl⟩ := hm
    obtain ⟨cu', hc', hf', _⟩ := delivered hk hs hm
    rw [hc] at hc'
    cases hc'
    rw [hf] at hf'; cases hf'
  · obtain ⟨_, dl, cap, to, t0, _, ⟨_, _, rfl⟩ | ⟨_, _, _, rfl⟩⟩ := deliver_inv hs
    · unfold getn
      dsimp only
      rw [count_sources]
      exact Nat.le_trans (List.Sublist.count_le _ (List.take_sublist _ _)) (hk.once fd)
    · simp

/-- Every registration is in one-shot mode. -/
theorem port_always_oneshot (n : Nat) (P) (s : S) (tr : List (Obs EventExtra)) (h : Reach n P s tr) (fd : Fd) (cu : Current EventExtra)
    (hc : current tr fd = some cu) : cu.mode = .oneshot := by
  have := (reach_ki h).reg fd
  rw [hc] at this
  exact this.2.1

/-- Delivered once, silent, and delivered again after `modify`. -/
example : (exTrace (fun _ => IN) ([.add 7 (Event.onlyReadable 11) .oneshot none] ++ waitActs 8 ++ [.notifyCas, .notifySend none] ++ waitActs 8 ++
       [.modify 7 (Event.onlyReadable 12) .oneshot none] ++ waitActs 8)).map
      (fun tr => tr.filterMap fun o => match o with | .deliver evs => some (evs.map fun e => (e.1, e.2.key)) | _ => none) =
    some [[(7, 12)], [], [(7, 11)]] := by decide

end Polling.C15

namespace Polling.C17
open PortM Port Spec PollFlags

/-- `add` and `modify` on event ports, if the OS has no reason to refuse: a mode is refused, with Unsupported, exactly if
`supports_level()`/`supports_edge()` say so; and then nothing changes. -/
theorem port_rejects_exactly (n : Nat) (s : S) (fd : Fd) (ev : Event EventExtra) (mode : PollMode) (hk : ev.key ≠ NOTIFY_KEY) :
    (modeWorks supportsLevel supportsEdge mode = true →
      ∃ s', step n s (.add fd ev mode none) = some (s', .reg fd ev mode) ∧ step n s (.modify fd ev mode none) = some (s', .reg fd ev mode)) ∧
    (modeWorks supportsLevel supportsEdge mode = false → ∀ fault,
      step n s (.add fd ev mode fault) = some (s, .failed .unsupported) ∧ step n s (.modify fd ev mode fault) = some (s, .failed .unsupported)) := by
  constructor
  · intro hm
    have : mode = .oneshot := by cases mode <;> first | rfl | (simp [modeWorks, supportsLevel, supportsEdge] at hm)
    subst this
    simp only [step, if_neg hk, PortM.add, PortM.modify, associate]
    simp
  · intro hm fault
    have : mode ≠ .oneshot := by rintro rfl; simp [modeWorks] at hm
    simp only [step, if_neg hk, PortM.add, PortM.modify, if_pos this]
    simp

/-- Refused, then accepted. -/
example : exTrace (fun _ => 0#16) [.add 7 (Event.all 1) .level none, .add 7 (Event.all 1) .edge none, .modify 7 (Event.all 1) .edgeOneshot none,
      .add 7 (Event.all 1) .oneshot none] =
    some [.reg 7 (Event.all 1) .oneshot, .failed .unsupported, .failed .unsupported, .failed .unsupported] := by decide

end Polling.C17

namespace Polling.C18
open PortM Port Spec PollFlags

/-- Event ports accept all three calls whether or not the source is registered (if the OS has no reason to refuse): `add` of a
registered source and `modify` of an unregistered one register it, `delete` of an unregistered one does nothing. -/
theorem port_results (n : Nat) (P) (s : S) (tr : List (Obs EventExtra)) (h : Reach n P s tr) (fd : Fd) (ev : Event EventExtra) (hk : ev.key ≠ NOTIFY_KEY) :
    (∃ s', step n s (.add fd ev .oneshot none) = some (s', .reg fd ev .oneshot)) ∧
    (∃ s', step n s (.modify fd ev .oneshot none) = some (s', .reg fd ev .oneshot)) ∧
    (∃ s', step n s (.delete fd none) = some (s', .unreg fd) ∧ (current tr fd = none → s' = s)) := by
  refine ⟨?_, ?_, ?_⟩
  · simp only [step, if_neg hk, PortM.add, PortM.modify, associate]; simp
  · simp only [step, if_neg hk, PortM.modify, associate]; simp
  · simp only [step, PortM.delete, dissociate]
    cases ha : s.k.assoc fd with
    | none => exact ⟨s, rfl, fun _ => rfl⟩
    | some a =>
      refine ⟨_, rfl, fun hc => ?_⟩
      have := (reach_ki h).reg fd
      rw [hc, ha] at this
      cases this

/-- A registration call that fails, for whatever reason, changes nothing at all. -/
theorem port_failure_changes_nothing (n : Nat) (s s' : S) (a : Act) (e : Err) (tr : List (Obs EventExtra))
    (hs : step n s a = some (s', .failed e)) : s' = s ∧ current (.failed e :: tr) = current tr := by
  refine ⟨?_, rfl⟩
  cases a with
  | add fd ev mode fault =>
    simp only [step] at hs
    split at hs
    · cases hs; rfl
    · rcases hm : PortM.add fault s.k fd ev mode with ⟨r, k⟩
      rw [hm] at hs
      rcases add_cases hm with ⟨rfl, _, _⟩ | ⟨⟨e', rfl⟩, rfl⟩ <;> cases hs
      rfl
  | modify fd ev mode fault =>
    simp only [step] at hs
    split at hs
    · cases hs; rfl
    · rcases hm : PortM.modify fault s.k fd ev mode with ⟨r, k⟩
      rw [hm] at hs
      rcases add_cases hm with ⟨rfl, _, _⟩ | ⟨⟨e', rfl⟩, rfl⟩ <;> cases hs
      rfl
  | delete fd fault =>
    simp only [step] at hs
    split at hs
    · cases hs
    · rcases hm : PortM.delete fault s.k fd with ⟨r, k⟩
      rw [hm] at hs
      rcases delete_cases hm with ⟨rfl, _⟩ | ⟨⟨e', rfl⟩, rfl⟩ <;> cases hs
      rfl
  | _ =>
    simp only [step] at hs
    repeat' split at hs
    all_goals first | (cases hs; done) | (injection hs with hs; injection hs with h1 h2; cases h2)

/-- Double add, unknown modify, unknown delete, refused add. -/
example : exTrace (fun _ => 0#16) [.add 7 (Event.all 1) .oneshot none, .add 7 (Event.all 2) .oneshot none,
      .modify 8 (Event.all 3) .oneshot none, .delete 9 none, .add 9 (Event.all 2) .oneshot (some (.os 9))] =
    some [.failed (.os 9), .unreg 9, .reg 8 (Event.all 3) .oneshot, .reg 7 (Event.all 2) .oneshot, .reg 7 (Event.all 1) .oneshot] := by decide

end Polling.C18

namespace Polling.C24
open PortM Port Spec PollFlags

/-- An `add` refused by the OS leaves no registration behind: the state is unchanged, and a later `add` succeeds (if the OS
then accepts it). -/
theorem port_failed_add (n : Nat) (s s' : S) (tr : List (Obs EventExtra)) (fd : Fd)
    (ev : Event EventExtra) (mode : PollMode) (e e' : Err) (hs : step n s (.add fd ev mode (some e)) = some (s', .failed e'))
    (hfree : current tr fd = none) :
    s' = s ∧ current (.failed e' :: tr) fd = none ∧
    ∀ ev2, ev2.key ≠ NOTIFY_KEY → ∃ s2, step n s' (.add fd ev2 .oneshot none) = some (s2, .reg fd ev2 .oneshot) := by
  obtain ⟨rfl, _⟩ := C18.port_failure_changes_nothing n s s' _ e' tr hs
  refine ⟨rfl, hfree, ?_⟩
  intro ev2 hk
  simp only [step, if_neg hk, PortM.add, PortM.modify, associate]; simp

/-- The OS refuses once; the second attempt works. -/
example : exTrace (fun _ => 0#16) [.add 7 (Event.all 1) .oneshot (some (.os 12)), .add 7 (Event.all 2) .oneshot none] =
    some [.reg 7 (Event.all 2) .oneshot, .failed (.os 12)] := by decide

end Polling.C24

namespace Polling.C19
open PortM Port Spec PollFlags

/-- In every history of the event port poller: no batch taken from the OS after a `delete` contains the source, until it is added
again. -/
theorem port_only_registered (n : Nat) (P) (s : S) (tr : List (Obs EventExtra)) (h : Reach n P s tr) : EveryDelivery OnlyRegistered tr := by
  intro later evs earlier he fd hc hm
  obtain ⟨s0, a, s1, hr, _, hs⟩ := reach_split h later _ earlier he
  rw [List.mem_map] at hm
  obtain ⟨⟨fd', e⟩, hm, rfl⟩ := hm
  obtain ⟨cu, hc', _⟩ := delivered (reach_ki hr) hs hm
  rw [hc] at hc'; cases hc'

/-- Said about `delete` itself: between a successful `delete` and the next registration nothing is delivered for the source. -/
theorem port_nothing_after_delete (n : Nat) (P) (s : S) (later earlier : List (Obs EventExtra)) (fd : Fd)
    (evs : List (Fd × Event EventExtra)) (mid : List (Obs EventExtra))
    (h : Reach n P s (later ++ .deliver evs :: (mid ++ .unreg fd :: earlier)))
    (hmid : ∀ ev mode, .reg fd ev mode ∉ mid) (e : Event EventExtra) : (fd, e) ∉ evs := by
  have hcur : current (mid ++ .unreg fd :: earlier) fd = none := by
    clear h
    induction mid with
    | nil => simp [current]
    | cons o mid ih =>
      have ih := ih (fun ev mode hm => hmid ev mode (by simp [hm]))
      cases o with
      | reg fd' ev mode =>
        simp only [List.cons_append, current]
        rw [if_neg]
        · exact ih
        · rintro rfl; exact hmid ev mode (by simp)
      | unreg fd' =>
        simp only [List.cons_append, current]
        split
        · rfl
        · exact ih
      | deliver evs => simp only [List.cons_append, current, ih, Option.map_none]
      | _ => exact ih
  have := port_only_registered n P s _ h later evs _ rfl fd hcur
  intro hm
  exact this (List.mem_map.2 ⟨_, hm, rfl⟩)

/-- The event of a ready source is queued; the source is deleted; only the other source is reported. -/
example : (exTrace (fun _ => IN) ([.add 7 (Event.onlyReadable 17) .oneshot none, .add 8 (Event.all 18) .oneshot none, .delete 7 none] ++ waitActs 5)).map
      (fun tr => tr.filterMap fun o => match o with | .deliver evs => some (evs.map fun e => (e.1, e.2.key)) | _ => none) =
    some [[(8, 18)]] := by decide

end Polling.C19

namespace Polling.C20
open PortM Port Spec PollFlags

theorem always_bits : ∀ i, i < 16 → ALWAYS.getLsbD i = true → i = cErr ∨ i = cHup ∨ i = cNval := by decide

/-- Every event delivered in any history of the event port poller reports some condition, and only conditions that its
registration asked for, or error, hang-up or an invalid descriptor. -/
theorem port_delivery_asked (n : Nat) (P) (s : S) (tr : List (Obs EventExtra)) (h : Reach n P s tr) :
    EveryDelivery (fun cur evs => ∀ fd e, (fd, e) ∈ evs → ∃ cu, cur fd = some cu ∧ (∃ i, Reported e.extra.flags i) ∧
      ∀ i, Reported e.extra.flags i → (cu.ev.readable = true ∧ (i = cIn ∨ i = cPri)) ∨ (cu.ev.writable = true ∧ i = cOut) ∨
        i = cErr ∨ i = cHup ∨ i = cNval) tr := by
  intro later evs earlier he fd e hm
  obtain ⟨s0, a, s1, hr, _, hs⟩ := reach_split h later _ earlier he
  obtain ⟨cu, hc, _, _, _, hne, hmask, rfl⟩ := delivered (reach_ki hr) hs hm
  refine ⟨cu, hc, ?_, ?_⟩
  all_goals
    have hbit : ∀ i, i < 16 → Reported (s0.k.pend fd) i → Reported (assocFlags cu.ev) i ∨ i = cErr ∨ i = cHup ∨ i = cNval := by
      intro i hi hrep
      have : (s0.k.pend fd &&& ~~~(assocFlags cu.ev ||| ALWAYS)).getLsbD i = false := by rw [hmask]; simp
      unfold Reported at hrep ⊢
      rw [BitVec.getLsbD_and, hrep, BitVec.getLsbD_not, BitVec.getLsbD_or] at this
      simp [hi] at this
      have hal := always_bits i hi
      rcases Bool.eq_false_or_eq_true ((assocFlags cu.ev).getLsbD i) with h | h
      · exact .inl h
      · right; apply hal
        have h' : (assocFlags cu.ev)[i] = false := by simpa [BitVec.getLsbD_eq_getElem hi] using h
        rw [BitVec.getLsbD_eq_getElem hi]
        exact this h'
  · obtain ⟨i, hi⟩ : ∃ i, (s0.k.pend fd).getLsbD i = true := by
      apply Classical.byContradiction
      intro hno
      apply hne
      ext i hi
      have : (s0.k.pend fd).getLsbD i ≠ true := fun h => hno ⟨i, h⟩
      simpa [BitVec.getLsbD_eq_getElem hi] using this
    have hi16 : i < 16 := by
      apply Classical.byContradiction
      intro h
      rw [BitVec.getLsbD_of_ge _ _ (by omega)] at hi
      cases hi
    refine ⟨i, ?_⟩
    have hkn : i = cIn ∨ i = cPri ∨ i = cOut ∨ i = cErr ∨ i = cHup ∨ i = cNval := by
      rcases hbit i hi16 hi with h | h
      · rw [port_asked_iff _ _ hi16] at h; rcases h with ⟨_, h⟩ | ⟨_, h⟩ <;> omega
      · omega
    have hk : KNOWN.getLsbD i = true := by
      rcases hkn with rfl | rfl | rfl | rfl | rfl | rfl <;> decide
    simp only [toEvent, Reported, BitVec.getLsbD_and, BitVec.getLsbD_setWidth, hk, hi]
    simp [hi16]; omega
  · intro i hrep
    simp only [toEvent, Reported, BitVec.getLsbD_and, BitVec.getLsbD_setWidth, Bool.and_eq_true, decide_eq_true_eq] at hrep
    have := hbit i hrep.1.1 hrep.1.2.2
    rcases this with h | h
    · rw [port_asked_iff _ _ hrep.1.1] at h
      rcases h with ⟨h1, h2 | h2 | h2 | h2⟩ | ⟨h1, h2 | h2 | h2⟩
      · exact .inl ⟨h1, .inl h2⟩
      · exact .inl ⟨h1, .inr h2⟩
      · exact .inr (.inr (.inl h2))
      · exact .inr (.inr (.inr (.inl h2)))
      · exact .inr (.inl ⟨h1, h2⟩)
      · exact .inr (.inr (.inl h2))
      · exact .inr (.inr (.inr (.inl h2)))
    · exact .inr (.inr h)

/-- Registered for reading only, the file is readable, writable and hung up. -/
example : (exTrace (fun _ => IN ||| OUT ||| HUP) ([.add 7 (Event.onlyReadable 11) .oneshot none] ++ waitActs 8)).map
      (fun tr => tr.filterMap fun o => match o with | .deliver evs => some evs | _ => none) =
    some [[(7, ⟨11, true, true, ⟨IN ||| HUP⟩⟩)]] := by decide

end Polling.C20
