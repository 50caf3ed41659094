import Verif.Spec.Hand
import Verif.Proof.Cnt
import Verif.Proof.IocpNotify

/-! Empty-handed waits are paid for by notifications: IOCP. -/

namespace Polling.IocpM
open Iocp IocpSpec Spec

/-- What is seen of a step. -/
def handOf : Act × IObs → Option Hand
  | (.notifyCas _, _) => some .notify
  | (.waitBegin b _, _) => some (.wait b)
  | (_, .waitOk n _) => some (.back n)
  | _ => none

/-- The key of the call is not the reserved one. -/
def KeyOk : Call → Prop
  | .add _ _ ev _ | .modify _ _ ev _ => ev.key ≠ NOTIFY_KEY
  | .delete _ _ => True

/-- The extensions are not used with the reserved key. -/
def Proper : Act → Prop
  | .call _ call => callSock call = false → KeyOk call
  | .newPacket ev => ev.key ≠ NOTIFY_KEY
  | _ => True

theorem runs_reach {n P s l} (h : Runs (fun s => s = init) (step n) P s l) : Reach n Any s (l.map Prod.snd) := by
  induction h with
  | init hi => subst hi; exact .init
  | step _ _ hs ih => exact .step ih trivial hs

/-! ### Keys -/

/-- The key of a packet; `some none` for that of `notify`. -/
def tag : Pkt → Option (Option Key)
  | .socket s => some (some s.interest.key)
  | .waitable w => some (some w.interest.key)
  | .custom ev => some (some ev.key)
  | .wakeup => some none
  | .free => none

def TagOk (p : PId) (x : Option (Option Key)) : Prop := x ≠ some (some NOTIFY_KEY) ∧ (x = some none → p = NOTIFIER)

def Tags (c : Core) : Prop := ∀ p, TagOk p (tag (c.pk p))

theorem Tags.same {c c' : Core} (h : Tags c) (hs : ∀ p, tag (c'.pk p) = tag (c.pk p)) : Tags c' := fun p => by rw [hs]; exact h p

theorem tag_one {c c' : Core} {p : PId} (hother : ∀ q, q ≠ p → c'.pk q = c.pk q) (hp : tag (c'.pk p) = tag (c.pk p)) : ∀ q, tag (c'.pk q) = tag (c.pk q) := by
  intro q
  by_cases e : q = p
  · rw [e]; exact hp
  · rw [hother q e]

theorem Tags.setPk {c : Core} (h : Tags c) (p : PId) {x : Pkt} (hx : TagOk p (tag x)) : Tags (IocpM.setPk c p x) := by
  intro q
  unfold IocpM.setPk
  dsimp only
  split
  · next e => rw [e]; exact hx
  · exact h q

theorem update_tag (fault c p) : ∀ q, tag ((update fault c p).2.1.pk q) = tag (c.pk q) := by
  refine tag_one (update_frame fault c p).2.2.2.2.2 ?_
  rw [update_pkt]
  split
  · next s hs =>
    rw [hs]
    unfold updateSock startPoll cancel
    dsimp only
    repeat' split
    all_goals rfl
  · next w hw =>
    rw [hw]
    unfold updateWtb
    repeat' split
    all_goals rfl
  · rfl

theorem ustep_tag {fault c u c' out o} (hu : ustep fault c u = (c', out, o)) : ∀ q, tag (c'.pk q) = tag (c.pk q) := by
  cases u with
  | load p => simp only [ustep] at hu; cases hu; exact fun _ => rfl
  | run p => simp only [ustep] at hu; cases hu; exact update_tag fault c p
  | push p => simp only [ustep] at hu; split at hu <;> cases hu <;> exact fun _ => rfl
  | pop p n => simp only [ustep] at hu; split at hu <;> cases hu <;> exact fun _ => rfl
  | drain p n q => simp only [ustep] at hu; cases hu; exact update_tag fault c q

theorem drop_tag (c p) : ∀ q, tag ((dropEntry c p).pk q) = tag (c.pk q) := by
  refine tag_one (dropEntry_frame c p).2.2.2.2.2 ?_
  rw [dropEntry_pkt]
  split
  · next s hs => rw [hs]; rfl
  · rfl

theorem del_tag (fault c p) : ∀ q, tag ((beginDelete fault c p).2.pk q) = tag (c.pk q) := by
  refine tag_one (beginDelete_frame fault c p).2.2.2.2.2 ?_
  rcases beginDelete_pkt fault c p with ⟨s, s', h1, h2, _, h3, _⟩ | ⟨w, w', h1, h2, _, h3, _⟩ | ⟨_, h2, _⟩
  · rw [h1, h2]; simp only [tag, h3]
  · rw [h1, h2]; simp only [tag, h3]
  · rw [h2]

theorem filter_key (s : Sock) (ev) : (filterEvent s ev).1.interest.key = s.interest.key ∧ ∀ e, (filterEvent s ev).2 = some e → e.key = ev.key := by
  unfold filterEvent
  dsimp only
  split
  · refine ⟨by split <;> rfl, fun e he => ?_⟩
    cases he; rfl
  · exact ⟨rfl, nofun⟩

theorem raw_key (k : Key) (r : PollRes) : (rawEvent k r).key = k := by
  unfold rawEvent; repeat' split
  all_goals rfl

theorem feed_tag (c p) : (∀ q, tag ((feed c p).2.pk q) = tag (c.pk q)) ∧ ((feed c p).1 = .notified → c.pk p = .wakeup) ∧
    (∀ ev, (feed c p).1 = .custom ev → tag (c.pk p) = some (some ev.key)) ∧
    (∀ k fd ev, (feed c p).1 = .update k fd (some ev) → tag (c.pk p) = some (some ev.key)) := by
  have other := (feed_frame c p).2.2.2.2.2
  have self : ∀ (c : Core) x, (setPk c p x).pk p = x := by intro c x; simp [setPk]
  rcases feed_cases c p with ⟨s, r, e1, e2, e3, e4⟩ | ⟨s, r, e1, e2, e3, e4, e5⟩ | ⟨s, r, e1, e2, e3, e4, e5⟩ | ⟨w, e1, e5⟩ | ⟨e, e1, e2⟩ |
      ⟨e1, e2⟩ | ⟨e1, e2⟩
  · refine ⟨tag_one other (by rw [e4, self, e1]; rfl), ?_, ?_, ?_⟩ <;> rw [e4] <;> nofun
  · refine ⟨tag_one other (by rw [e5, self, e1]; rfl), ?_, ?_, ?_⟩ <;> rw [e5] <;> nofun
  · refine ⟨tag_one other ?_, ?_, ?_, ?_⟩
    · rw [e5, self, e1]
      show some (some (filterEvent s.taken (rawEvent s.interest.key r)).1.interest.key) = _
      rw [(filter_key _ _).1]; rfl
    · rw [e5]; nofun
    · rw [e5]; nofun
    · intro k fd ev he
      rw [e5] at he
      injection he with _ _ he
      rw [e1]
      have := (filter_key _ _).2 ev he
      rw [raw_key] at this
      rw [this]; rfl
  · refine ⟨tag_one other ?_, ?_, ?_, ?_⟩
    · rw [e5, self, e1]; split <;> rfl
    · rw [e5]; nofun
    · rw [e5]; nofun
    · intro k fd ev he
      rw [e5] at he
      injection he with _ _ he
      cases he
      rw [e1]; rfl
  · refine ⟨fun q => by rw [e2], by rw [e2]; nofun, ?_, by rw [e2]; nofun⟩
    intro ev he; rw [e2] at he; cases he; rw [e1]; rfl
  · exact ⟨fun q => by rw [e2], fun _ => e1, by rw [e2]; nofun, by rw [e2]; nofun⟩
  · exact ⟨fun q => by rw [e2], by rw [e2]; nofun, by rw [e2]; nofun, by rw [e2]; nofun⟩

theorem setEvents_tags {c : Core} (h : Tags c) (p) {ev : Event EventExtra} (hk : ev.key ≠ NOTIFY_KEY) (mode) : Tags (setEvents c p ev mode).2 := by
  have ok : TagOk p (some (some ev.key)) := ⟨by simpa using hk, nofun⟩
  unfold setEvents
  split
  · exact h.setPk p ok
  · exact h.setPk p ok
  · exact h

/-- The call of a thread that will use its event. -/
def regAt : Pc → Option Call
  | .prepare call | .table call | .set call _ => some call
  | _ => none

structure Buf (evs : List (Event EventExtra)) : Prop where
  keys : ∀ ev ∈ evs, ev.key ≠ NOTIFY_KEY

theorem Buf.visible {evs} (h : Buf evs) : visible evs = evs :=
  List.filter_eq_self.2 fun ev he => by simpa using h.keys ev he

structure WOk (w : W) : Prop where
  buf : Buf w.evs
  some : w.newEvents ≤ w.evs.length

def EvOk (ev : Option (Event EventExtra)) : Prop := ∀ e, ev = some e → e.key ≠ NOTIFY_KEY

theorem WOk.add {w ev} (h : WOk w) (he : EvOk ev) : WOk (addEvent w ev) := by
  cases ev with
  | none => exact h
  | some e =>
    refine ⟨⟨?_⟩, by have := h.some; simp [addEvent]; omega⟩
    intro x hx
    simp only [addEvent, List.mem_append, List.mem_singleton] at hx
    rcases hx with hx | hx
    · exact h.buf.keys x hx
    · rw [hx]; exact he e rfl

theorem addEvent_frame (w ev) : (addEvent w ev).timed = w.timed ∧ (addEvent w ev).notified = w.notified := by
  cases ev <;> exact ⟨rfl, rfl⟩

/-- The phase fits the `wait`: `b`, its time limit. -/
def PhaseOk (b : Bool) : Phase → Prop
  | .top timed _ => b = timed
  | .start w | .pop w | .upd w _ | .port w | .unpoll w _ | .feed w _ | .fail w _ | .drain w _ _ => b = w.timed ∧ WOk w
  | .feedUpd w _ _ ev => (b = w.timed ∧ WOk w) ∧ EvOk ev
  | .fin evs => Buf evs
  | .idle | .stuck => True

/-- Notifications taken from the port. -/
def bag : Phase → Nat
  | .unpoll w batch | .feed w batch | .feedUpd w batch _ _ | .drain w _ batch => batch.count NOTIFIER + w.notified.toNat
  | .start w | .pop w | .upd w _ | .port w | .fail w _ => w.notified.toNat
  | _ => 0

/-- The result of a `wait` that was notified. -/
def tok (b : Bool) : Phase → Nat
  | .fin evs => if b = false ∧ visible evs = [] then 1 else 0
  | _ => 0

/-- About to post. -/
def posts : Pc → Bool
  | .notify => true
  | _ => false

structure HInv (n : Nat) (s : S) (l : List Hand) : Prop where
  tags : Tags s.c
  calls : ∀ t call, regAt (s.pc t) = some call → KeyOk call
  phase : PhaseOk (limited l) s.phase
  pay : emptyBacks l + s.c.port.count NOTIFIER + bag s.phase + tok (limited l) s.phase + cnt n posts s.pc ≤ notifies l

/-- Neither the phase nor the number of notifications changes. -/
theorem HInv.other {n s s' l} (h : HInv n s l) (ht : Tags s'.c) (hc : ∀ t call, regAt (s'.pc t) = some call → KeyOk call)
    (hph : s'.phase = s.phase) (hport : s'.c.port.count NOTIFIER + cnt n posts s'.pc ≤ s.c.port.count NOTIFIER + cnt n posts s.pc) : HInv n s' l := by
  have := h.pay
  exact ⟨ht, hc, by rw [hph]; exact h.phase, by rw [hph]; omega⟩

/-- A step of `wait`. -/
theorem HInv.go {n s s' l} (h : HInv n s l) (ht : ∀ q, tag (s'.c.pk q) = tag (s.c.pk q)) (hc : s'.pc = s.pc) (hph : PhaseOk (limited l) s'.phase)
    (hpay : s'.c.port.count NOTIFIER + bag s'.phase + tok (limited l) s'.phase ≤ s.c.port.count NOTIFIER + bag s.phase + tok (limited l) s.phase) : HInv n s' l := by
  have := h.pay
  exact ⟨h.tags.same ht, by rw [hc]; exact h.calls, hph, by rw [hc]; omega⟩

theorem calls_upd {s : S} {t : Tid} {p : Pc} (h : ∀ t call, regAt (s.pc t) = some call → KeyOk call)
    (hp : ∀ call, regAt p = some call → KeyOk call) : ∀ u call, regAt (upd s.pc t p u) = some call → KeyOk call := by
  intro u call hu
  unfold upd at hu
  split at hu
  · exact hp call hu
  · exact h u call hu

/-- What a step of a registration call does to keys. -/
theorem goCall_keys {s t fault s' o} (ht : Tags s.c) (hc : ∀ t call, regAt (s.pc t) = some call → KeyOk call)
    (h : goCall s t fault = some (s', o)) : Tags s'.c ∧ (∀ t call, regAt (s'.pc t) = some call → KeyOk call) ∧ ∀ n evs, o ≠ .waitOk n evs := by
  have old := hc t
  have none_ : ∀ {p : Pc}, regAt p = none → ∀ call, regAt p = some call → KeyOk call := by
    intro p hp call hc; rw [hp] at hc; cases hc
  unfold goCall at h
  split at h
  · rename_i call hpc
    rw [hpc] at old
    split at h
    · cases h; exact ⟨ht, calls_upd hc (none_ rfl), nofun⟩
    · cases h; exact ⟨ht, calls_upd hc old, nofun⟩
  · rename_i call hpc
    rw [hpc] at old
    split at h
    · rename_i k fd ev mode
      have hk : ev.key ≠ NOTIFY_KEY := old _ rfl
      split at h
      · cases h; exact ⟨ht, calls_upd hc (none_ rfl), nofun⟩
      · cases h
        refine ⟨?_, calls_upd hc (none_ rfl), nofun⟩
        have : Tags (setPk s.c s.c.next (newPkt k fd ev mode)) := by
          refine ht.setPk _ ?_
          unfold newPkt
          split <;> exact ⟨by simpa [tag] using hk, nofun⟩
        exact this
    · rename_i k fd ev mode
      split at h
      · cases h; exact ⟨ht, calls_upd hc (none_ rfl), nofun⟩
      · cases h; exact ⟨ht, calls_upd hc (by intro call h; cases h; exact old _ rfl), nofun⟩
    · split at h
      · cases h; exact ⟨ht, calls_upd hc (none_ rfl), nofun⟩
      · cases h; exact ⟨ht, calls_upd hc (none_ rfl), nofun⟩
  · rename_i call p hpc
    rw [hpc] at old
    split at h
    · rename_i k fd ev mode
      cases h
      refine ⟨setEvents_tags ht p (old _ rfl) mode, calls_upd hc (none_ ?_), nofun⟩
      exact (show ∀ (b : Bool) (x y : Pc), regAt x = none → regAt y = none → regAt (if b = true then x else y) = none from by
        intro b x y h1 h2; cases b <;> assumption) _ _ _ rfl rfl
    · cases h
  · rename_i call p hpc
    cases h
    exact ⟨ht.same (del_tag _ _ _), calls_upd hc (none_ rfl), nofun⟩
  · rename_i call u hpc
    have obs : ∀ {c' out o}, ustep fault s.c u = (c', out, o) → ∀ n evs, o ≠ .waitOk n evs := by
      intro c' out o hu n evs ho
      subst ho
      have := (uobs_ustep hu)
      cases this
    split at h
    · rename_i hu; cases h; exact ⟨ht.same (ustep_tag hu), calls_upd hc (none_ rfl), obs hu⟩
    · rename_i hu; cases h; exact ⟨ht.same (ustep_tag hu), calls_upd hc (none_ rfl), obs hu⟩
  · cases h; exact ⟨ht, calls_upd hc (none_ rfl), nofun⟩
  · cases h

theorem HInv.step {n : Nat} {s s' : S} {tr : List IObs} {l : List Hand} {a : Act} {o : IObs} (hr : Reach n Any s tr) (h : HInv n s l) (hP : Proper a)
    (hs : IocpM.step n s a = some (s', o)) : HInv n s' ((handOf (a, o)).toList ++ l) := by
  have hp := h.pay
  have hph := h.phase
  have notNotifier : ∀ p, s.c.pk p ≠ .wakeup → [p].count NOTIFIER = 0 := by
    intro p hpk
    rw [List.count_singleton, if_neg]
    intro he
    have := (reach_ti hr).wake
    rw [← (beq_iff_eq.1 he)] at this
    exact hpk this
  have moved : ∀ {t p}, t < n → posts (s.pc t) = posts p → s'.pc = upd s.pc t p → cnt n posts s'.pc = cnt n posts s.pc := by
    intro t p ht h1 h2
    have := cnt_upd posts s.pc ht p
    rw [h2]
    unfold upd
    rw [h1] at this
    omega
  have none_ : ∀ {p : Pc}, regAt p = none → ∀ call, regAt p = some call → KeyOk call := by
    intro p hp call hc; rw [hp] at hc; cases hc
  have unseen : (∀ n evs, o ≠ .waitOk n evs) → (∀ t, a ≠ .notifyCas t) → (∀ b cap, a ≠ .waitBegin b cap) → HInv n s' l → HInv n s' ((handOf (a, o)).toList ++ l) := by
    intro h1 h2 h3 h4
    have : handOf (a, o) = none := by
      unfold handOf
      split
      · next h => cases h; exact absurd rfl (h2 _)
      · next h => cases h; exact absurd rfl (h3 _ _)
      · next h => cases h; exact absurd rfl (h1 _ _)
      · rfl
    rw [this]; exact h4
  cases a with
  | call t call =>
    simp only [IocpM.step] at hs
    split at hs
    · cases hs
    rename_i ht
    split at hs
    rotate_left
    · cases hs
    rename_i hout
    split at hs
    · cases hs
    split at hs
    · cases hs; exact h
    rename_i hres
    split at hs
    · cases hs; exact h
    cases hs
    have hk : KeyOk call := by
      have hP : callSock call = false → KeyOk call := hP
      cases call with
      | add k fd ev m =>
        cases k with
        | false => exact hP rfl
        | true => exact fun e => hres (by simp [reserved, e])
      | modify k fd ev m =>
        cases k with
        | false => exact hP rfl
        | true => exact fun e => hres (by simp [reserved, e])
      | delete k fd => trivial
    refine h.other h.tags (calls_upd h.calls ?_) rfl ?_
    · intro c hc
      split at hc <;> cases hc <;> exact hk
    · exact Nat.le_of_eq (congrArg _ (moved (t := t) (Nat.lt_of_not_le ht) (by rw [hout]; split <;> rfl) rfl))
  | go t fault =>
    simp only [IocpM.step] at hs
    split at hs
    · cases hs
    rename_i ht
    obtain ⟨h1, h2, h3, h4, p, h5, h6, h7⟩ := goCall_notify hs
    obtain ⟨k1, k2, k3⟩ := goCall_keys h.tags h.calls hs
    have hpost : ∀ p, p ≠ Pc.notify → posts p = false := by intro p hp; cases p <;> first | rfl | exact absurd rfl hp
    refine unseen k3 nofun nofun (h.other k1 k2 h2 ?_)
    rw [moved (t := t) (by omega) (by rw [hpost _ h7, hpost _ h6]) h5, h3]
    exact Nat.le_refl _
  | newPacket ev =>
    simp only [IocpM.step] at hs
    split at hs <;> cases hs
    have : Tags (setPk s.c s.c.next (.custom ev)) := h.tags.setPk _ ⟨by have : ev.key ≠ NOTIFY_KEY := hP; simpa [tag] using this, nofun⟩
    exact h.other this h.calls rfl (Nat.le_refl _)
  | post p fault =>
    simp only [IocpM.step] at hs
    split at hs
    · rename_i ev hpk
      split at hs <;> cases hs
      · exact h
      · refine h.other h.tags h.calls rfl ?_
        show (s.c.port ++ [p]).count NOTIFIER + _ ≤ _
        rw [List.count_append, notNotifier p (by rw [hpk]; nofun)]
        exact Nat.le_refl _
    · cases hs
  | notifyCas t =>
    have e1 : emptyBacks (.notify :: l) = emptyBacks l := rfl
    have e2 : notifies (.notify :: l) = notifies l + 1 := by simp [notifies]
    simp only [IocpM.step] at hs
    split at hs
    · cases hs
    rename_i ht
    split at hs
    · rename_i hout
      split at hs
      · cases hs
        refine ⟨h.tags, h.calls, h.phase, ?_⟩
        show emptyBacks (.notify :: l) + s.c.port.count NOTIFIER + bag s.phase + tok (limited l) s.phase + cnt n posts s.pc ≤ notifies (.notify :: l)
        omega
      · cases hs
        have := cnt_upd posts s.pc (Nat.lt_of_not_le ht) .notify
        rw [hout] at this
        refine ⟨h.tags, calls_upd h.calls (none_ rfl), h.phase, ?_⟩
        show emptyBacks (.notify :: l) + s.c.port.count NOTIFIER + bag s.phase + tok (limited l) s.phase + cnt n posts (upd s.pc t .notify) ≤ notifies (.notify :: l)
        unfold upd
        simp only [posts, Bool.toNat_true, Bool.toNat_false] at this
        omega
    · cases hs
  | notifyPost t fault =>
    simp only [IocpM.step] at hs
    split at hs
    · rename_i hnot
      have ht : t < n := by
        by_cases ht : t < n
        · exact ht
        · rw [reach_threads hr t (by omega)] at hnot; cases hnot
      have := cnt_upd posts s.pc ht .out
      rw [hnot] at this
      simp only [posts, Bool.toNat_true, Bool.toNat_false] at this
      split at hs <;> cases hs
      · refine h.other h.tags (calls_upd h.calls (none_ rfl)) rfl ?_
        show s.c.port.count NOTIFIER + cnt n posts (upd s.pc t .out) ≤ _
        unfold upd
        omega
      · refine h.other h.tags (calls_upd h.calls (none_ rfl)) rfl ?_
        show (s.c.port ++ [NOTIFIER]).count NOTIFIER + cnt n posts (upd s.pc t .out) ≤ _
        unfold upd
        rw [List.count_append, List.count_singleton_self]
        omega
    · cases hs
  | waitBegin timed cap =>
    simp only [IocpM.step] at hs
    split at hs
    · next hi =>
      split at hs <;> cases hs
      rw [hi] at hp
      refine ⟨h.tags, h.calls, rfl, ?_⟩
      have e2 : notifies (.wait timed :: l) = notifies l := by simp [notifies]
      show emptyBacks l + s.c.port.count NOTIFIER + 0 + 0 + cnt n posts s.pc ≤ notifies (.wait timed :: l)
      rw [e2]; exact hp
    · cases hs
  | waitBusy =>
    simp only [IocpM.step] at hs
    split at hs <;> cases hs
    exact h
  | wait fault =>
    simp only [IocpM.step, goWait, waitFail] at hs
    split at hs
    · rename_i timed cap hph'
      rw [hph'] at hph
      cases hs
      exact h.go (fun _ => rfl) rfl ⟨hph, ⟨⟨nofun⟩, Nat.le_refl _⟩⟩ (by rw [hph']; exact Nat.le_refl _)
    · rename_i w hph'
      rw [hph'] at hph
      cases hs
      exact h.go (fun _ => rfl) rfl ⟨hph.1, ⟨hph.2.buf, Nat.zero_le _⟩⟩ (by rw [hph']; exact Nat.le_refl _)
    · rename_i w hph'
      rw [hph'] at hph
      split at hs <;> cases hs <;> exact h.go (fun _ => rfl) rfl hph (by rw [hph']; exact Nat.le_refl _)
    · rename_i w q hph'
      rw [hph'] at hph
      have hfr := (update_frame fault s.c q).2.2.2.2.1
      have htg := update_tag fault s.c q
      have ho := uobs_updateObs
      split at hs
      · rename_i hu; rw [hu] at hfr htg; cases hs
        refine unseen (fun k evs e => ?_) nofun nofun (h.go htg rfl hph (by rw [hph']; exact Nat.le_of_eq (congrArg (fun x : List PId => x.count NOTIFIER + _ + _) hfr)))
        have := ho q ‹_›; rw [e] at this; cases this
      · rename_i hu; rw [hu] at hfr htg; cases hs
        refine unseen (fun k evs e => ?_) nofun nofun (h.go htg rfl hph (by rw [hph']; exact Nat.le_of_eq (congrArg (fun x : List PId => x.count NOTIFIER + _ + _) hfr)))
        have := ho q ‹_›; rw [e] at this; cases this
    · rename_i w batch hph'
      rw [hph'] at hph
      cases hs
      exact h.go (fun _ => rfl) rfl hph (by rw [hph']; exact Nat.le_refl _)
    · rename_i w e hph'
      rw [hph'] at hph
      split at hs <;> cases hs
      · exact h.go (fun _ => rfl) rfl hph.1 (by rw [hph']; exact Nat.add_le_add_right (Nat.add_le_add_left (Nat.zero_le _) _) _)
      · exact h.go (fun _ => rfl) rfl trivial (by rw [hph']; exact Nat.add_le_add_right (Nat.add_le_add_left (Nat.zero_le _) _) _)
    · rename_i w e hph'
      rw [hph'] at hph
      split at hs <;> cases hs
      · exact h.go (fun _ => rfl) rfl hph.1 (by rw [hph']; exact Nat.add_le_add_right (Nat.add_le_add_left (Nat.zero_le _) _) _)
      · exact h.go (fun _ => rfl) rfl trivial (by rw [hph']; exact Nat.add_le_add_right (Nat.add_le_add_left (Nat.zero_le _) _) _)
    · rename_i w e q batch hph'
      rw [hph'] at hph
      cases hs
      refine h.go (drop_tag s.c q) rfl hph ?_
      show (dropEntry s.c q).port.count NOTIFIER + (batch.count NOTIFIER + w.notified.toNat) + 0 ≤ _
      rw [hph', (dropEntry_frame s.c q).2.2.2.2.1]
      show _ ≤ s.c.port.count NOTIFIER + ((q :: batch).count NOTIFIER + w.notified.toNat) + 0
      have := (List.sublist_cons_self q batch).count_le NOTIFIER
      omega
    · rename_i w q batch hph'
      rw [hph'] at hph
      have hfr := (feed_frame s.c q).2.2.2.2.1
      obtain ⟨t1, t2, t3, t4⟩ := feed_tag s.c q
      have hcons := (List.sublist_cons_self q batch).count_le NOTIFIER
      have htag := h.tags q
      split at hs
      · rename_i c hu; rw [hu] at hfr t1; cases hs
        refine h.go t1 rfl hph ?_
        show c.port.count NOTIFIER + (batch.count NOTIFIER + w.notified.toNat) + 0 ≤ _
        rw [hph', show c.port = s.c.port from hfr]
        show _ ≤ s.c.port.count NOTIFIER + ((q :: batch).count NOTIFIER + w.notified.toNat) + 0
        omega
      · rename_i c hu; rw [hu] at hfr t1 t2; cases hs
        have hq : q = NOTIFIER := htag.2 (by rw [t2 rfl]; rfl)
        refine h.go t1 rfl ⟨hph.1, ⟨hph.2.buf, hph.2.some⟩⟩ ?_
        show c.port.count NOTIFIER + (batch.count NOTIFIER + 1) + 0 ≤ _
        rw [hph', show c.port = s.c.port from hfr]
        show _ ≤ s.c.port.count NOTIFIER + ((q :: batch).count NOTIFIER + w.notified.toNat) + 0
        rw [hq, List.count_cons_self]
        omega
      · rename_i c ev hu; rw [hu] at hfr t1 t3; cases hs
        have hk := t3 _ rfl
        rw [hk] at htag
        have hkey : EvOk (some ‹Event EventExtra›) := by
          intro e he e2; cases he; exact htag.1 (by rw [e2])
        refine h.go t1 rfl ⟨hph.1, hph.2.add hkey⟩ ?_
        show List.count NOTIFIER (Core.port _) + (batch.count NOTIFIER + w.notified.toNat) + 0 ≤ _
        rw [hph', hfr]
        show _ ≤ s.c.port.count NOTIFIER + ((q :: batch).count NOTIFIER + w.notified.toNat) + 0
        omega
      · rename_i c hu; rw [hu] at hfr t1; cases hs
        refine h.go t1 rfl trivial ?_
        show c.port.count NOTIFIER + 0 + 0 ≤ _
        rw [hph', show c.port = s.c.port from hfr]
        exact Nat.add_le_add_right (Nat.add_le_add_left (Nat.zero_le _) _) _
      · rename_i c k fd ev hu; rw [hu] at hfr t1 t4; cases hs
        have hkey : EvOk ‹Option (Event EventExtra)› := by
          intro e he e2
          have hk := t4 _ _ e (by rw [he])
          rw [hk, e2] at htag
          exact htag.1 rfl
        refine unseen (fun k evs e => ?_) nofun nofun (h.go t1 rfl ⟨hph, hkey⟩ ?_)
        · split at e <;> cases e
        show List.count NOTIFIER (Core.port _) + (batch.count NOTIFIER + w.notified.toNat) + 0 ≤ _
        rw [hph', hfr]
        show _ ≤ s.c.port.count NOTIFIER + ((q :: batch).count NOTIFIER + w.notified.toNat) + 0
        omega
    · rename_i w batch u ev hph'
      rw [hph'] at hph
      split at hs
      · rename_i c u' o' hu; cases hs
        have hU := uobs_ustep hu
        refine unseen (fun k evs e => ?_) nofun nofun (h.go (ustep_tag hu) rfl hph ?_)
        · rw [e] at hU; cases hU
        · rw [hph']; exact Nat.le_of_eq (congrArg (fun x : List PId => x.count NOTIFIER + _ + _) (ustep_frame hu).2.2.2)
      · rename_i c o' hu; cases hs
        have hU := uobs_ustep hu
        refine unseen (fun k evs e => ?_) nofun nofun (h.go (ustep_tag hu) rfl ⟨by rw [(addEvent_frame w ev).1]; exact hph.1.1, hph.1.2.add hph.2⟩ ?_)
        · rw [e] at hU; cases hU
        · rw [hph']
          show _ + (batch.count NOTIFIER + (addEvent w ev).notified.toNat) + 0 ≤ _
          rw [(addEvent_frame w ev).2]
          exact Nat.le_of_eq (congrArg (fun x : List PId => x.count NOTIFIER + _ + _) (ustep_frame hu).2.2.2)
      · rename_i c e o' hu; cases hs
        have hU := uobs_ustep hu
        refine unseen (fun k evs e => ?_) nofun nofun (h.go (ustep_tag hu) rfl hph.1 ?_)
        · rw [e] at hU; cases hU
        · rw [hph']; exact Nat.le_of_eq (congrArg (fun x : List PId => x.count NOTIFIER + _ + _) (ustep_frame hu).2.2.2)
    · rename_i evs hph'
      rw [hph'] at hp
      cases hs
      refine ⟨h.tags, h.calls, trivial, ?_⟩
      have e2 : notifies (.back (visible evs).length :: l) = notifies l := by simp [notifies]
      show emptyBacks (.back (visible evs).length :: l) + s.c.port.count NOTIFIER + 0 + 0 + cnt n posts s.pc ≤ notifies (.back (visible evs).length :: l)
      rw [e2]
      simp only [bag, tok] at hp
      cases hv : visible evs with
      | nil =>
        rw [hv] at hp
        show emptyBacks l + (if limited l then 0 else 1) + _ + 0 + 0 + _ ≤ _
        cases hb : limited l <;> rw [hb] at hp <;> simp at hp ⊢ <;> omega
      | cons x y =>
        rw [hv] at hp
        show emptyBacks l + _ + 0 + 0 + _ ≤ _
        simp at hp ⊢; omega
    · cases hs
  | get =>
    simp only [IocpM.step] at hs
    split at hs
    · rename_i w hph'
      rw [hph'] at hph
      split at hs <;> cases hs
      refine h.go (fun _ => rfl) rfl hph ?_
      show (s.c.port.drop w.cap).count NOTIFIER + ((s.c.port.take w.cap).count NOTIFIER + w.notified.toNat) + 0 ≤ _
      rw [hph']
      show _ ≤ s.c.port.count NOTIFIER + w.notified.toNat + 0
      have : (s.c.port.take w.cap ++ s.c.port.drop w.cap).count NOTIFIER = s.c.port.count NOTIFIER := by rw [List.take_append_drop]
      rw [List.count_append] at this
      omega
    · cases hs
  | getFail e =>
    simp only [IocpM.step] at hs
    split at hs <;> cases hs
    next hph' =>
    rw [hph'] at hph
    exact h.go (fun _ => rfl) rfl hph (by rw [hph']; exact Nat.le_refl _)
  | decide e =>
    simp only [IocpM.step] at hs
    split at hs
    · rename_i w hph'
      rw [hph'] at hph
      split at hs <;> cases hs
      · next hd =>
        refine h.go (fun _ => rfl) rfl hph.2.buf ?_
        rw [hph']
        show s.c.port.count NOTIFIER + 0 + tok (limited l) (.fin w.evs) ≤ s.c.port.count NOTIFIER + (List.count NOTIFIER [] + w.notified.toNat) + 0
        have : tok (limited l) (.fin w.evs) ≤ w.notified.toNat := by
          simp only [tok]
          split
          · next hx =>
            rcases hd with hd | hd | hd
            · rw [hd]; decide
            · exfalso
              rw [hph.2.buf.visible] at hx
              have := hph.2.some
              rw [hx.2] at this
              simp only [List.length_nil] at this
              omega
            · rw [hph.1, hd.1] at hx; cases hx.1
          · exact Nat.zero_le _
        simp only [List.count_nil]
        omega
      · exact h.go (fun _ => rfl) rfl hph (by rw [hph']; simp [bag, tok])
    · cases hs
  | complete p r =>
    simp only [IocpM.step] at hs
    split at hs
    · rename_i k hpk
      repeat' split at hs
      all_goals cases hs
      have : Tags (setPk s.c p (.socket { k with op := .done r })) := h.tags.setPk p (by have := h.tags p; rw [hpk] at this; exact this)
      refine h.other this h.calls rfl ?_
      show (s.c.port ++ [p]).count NOTIFIER + _ ≤ _
      rw [List.count_append, notNotifier p (by rw [hpk]; nofun)]
      exact Nat.le_refl _
    · cases hs
  | fire p =>
    simp only [IocpM.step] at hs
    split at hs
    · rename_i w hpk
      split at hs <;> cases hs
      have : Tags (setPk s.c p (.waitable { w with registered := false })) := h.tags.setPk p (by have := h.tags p; rw [hpk] at this; exact this)
      exact h.other this h.calls rfl (Nat.le_refl _)
    · cases hs
  | callback p =>
    simp only [IocpM.step] at hs
    split at hs
    · rename_i w hpk
      split at hs <;> cases hs
      have : Tags (setPk s.c p (.waitable { w with status := .idle, registered := false })) := h.tags.setPk p (by have := h.tags p; rw [hpk] at this; exact this)
      exact h.other this h.calls rfl (Nat.le_refl _)
    · cases hs
  | callbackPost p fault =>
    simp only [IocpM.step] at hs
    split at hs <;> cases hs
    rename_i hm
    refine h.other ?_ h.calls rfl ?_
    · dsimp only; split <;> exact h.tags
    · dsimp only
      split
      · show (s.c.port ++ [p]).count NOTIFIER + _ ≤ _
        rw [List.count_append, notNotifier p, Nat.add_zero]
        · exact Nat.le_refl _
        intro hw
        have := (reach_cb hr).2 p (by simp [hm])
        rw [hw] at this; cases this
      · exact Nat.le_refl _

theorem reach_hand {n P s l} (hP : ∀ a, P a → Proper a) (h : Runs (fun s => s = init) (step n) P s l) : HInv n s (l.filterMap handOf) := by
  induction h with
  | init hi =>
    subst hi
    have h0 : cnt n posts init.pc = 0 := by
      by_cases h0 : cnt n posts init.pc = 0
      · exact h0
      · obtain ⟨_, _, h⟩ := cnt_pos.1 (Nat.pos_of_ne_zero h0); cases h
    refine ⟨?_, nofun, trivial, ?_⟩
    · intro p
      by_cases e : p = NOTIFIER
      · subst e; exact ⟨nofun, fun _ => rfl⟩
      · show TagOk p (tag (if p = NOTIFIER then .wakeup else .free))
        rw [if_neg e]; exact ⟨nofun, nofun⟩
    · show 0 + 0 + 0 + 0 + cnt n posts init.pc ≤ 0
      rw [h0]; exact Nat.le_refl _
  | @step s l a s' o hr ha hs ih =>
    have := ih.step (runs_reach hr) (hP a ha) hs
    rw [List.filterMap_cons]
    cases hh : handOf (a, o) <;> rw [hh] at this <;> exact this

end Polling.IocpM
