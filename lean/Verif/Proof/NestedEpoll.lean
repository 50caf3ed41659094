import Verif.Model.Nested
import Verif.Spec.Nested
import Verif.Proof.HandEpoll
import Verif.Props.C06Epoll

/-! The descriptor of an epoll poller: why it is readable. -/

namespace Polling.Spec

theorem recent_mono {l} (h : recent true l = true) : recent false l = true := by
  induction l with
  | nil => cases h
  | cons e l ih =>
    cases e with
    | notified => rfl
    | back _ => exact h
    | pass dt => exact ih h
    | wait t => simp [recent] at h

theorem overdue_mono {l n m} {r r' : Bool} (h : overdue r n l = true) (hn : n ≤ m) (hr : r' = true → r = true) : overdue r' m l = true := by
  induction l generalizing n m r r' with
  | nil => cases h
  | cons e l ih =>
    cases e with
    | notified => exact ih h hn hr
    | back _ => exact ih (r := true) (r' := true) h hn id
    | pass dt => exact ih (n := n + dt) (m := m + dt) h (by omega) hr
    | wait t =>
      simp only [overdue, Bool.or_eq_true] at h ⊢
      rcases h with h | h
      · left
        cases t with
        | none => exact h
        | some t =>
          simp only [Bool.and_eq_true, decide_eq_true_eq] at h ⊢
          exact ⟨h.1, Nat.le_trans h.2 hn⟩
      · right
        cases r with
        | true => simp at h
        | false =>
          cases r' with
          | true => exact absurd (hr rfl) (by simp)
          | false => exact ih h hn (fun e => e)

/-- The timeout of the latest `wait`, and the time since it began. -/
def lastWait : List Nest → Option Nat × Nat
  | [] => (none, 0)
  | .wait t :: _ => (t, 0)
  | .pass dt :: l => ((lastWait l).1, (lastWait l).2 + dt)
  | _ :: l => lastWait l

/-- Nothing but time and notifications since the latest `wait`. -/
def inWait : List Nest → Bool
  | [] => false
  | .wait _ :: _ => true
  | .back _ :: _ => false
  | _ :: l => inWait l

theorem overdue_last {l t n} (hi : inWait l = true) (h : (lastWait l).1 = some t) (h0 : 0 < t) (hn : t ≤ n + (lastWait l).2) :
    overdue true n l = true := by
  induction l generalizing n with
  | nil => cases hi
  | cons e l ih =>
    cases e with
    | notified => exact ih hi h hn
    | back _ => cases hi
    | pass dt =>
      simp only [lastWait] at h hn
      exact ih hi h (by omega)
    | wait t' =>
      simp only [lastWait] at h hn
      subst h
      simp only [overdue, Bool.or_eq_true, Bool.and_eq_true, decide_eq_true_eq]
      exact .inl ⟨h0, by omega⟩

end Polling.Spec

namespace Polling.EpollM
open Epoll Spec

/-- What is seen of a step. -/
def nest : Act × Obs EventExtra → Option Nest
  | (.waitBegin timeout _, _) => some (.wait (timeout.map Duration.ns))
  | (.tick dt, _) => some (.pass dt)
  | (_, .notified) => some .notified
  | (_, .waitOk _ evs) => some (.back evs.isEmpty)
  | _ => none

/-- The channel has been emptied in this `wait`. -/
def emptied : Phase → Bool
  | .cleared _ _ _ | .rearmed _ _ _ => true
  | _ => false

/-- The timer has been set by this `wait`. -/
def setBy : Phase → Bool
  | .idle | .top _ _ | .sized _ _ _ => false
  | _ => true

/-- The deadline is that of the latest `wait`. -/
def Cur (l : List Nest) (now : Nat) (dl : Option Nat) : Prop :=
  inWait l = true ∧ ∀ d, dl = some d → d ≤ unixMaxNs ∧ ∃ t, (lastWait l).1 = some t ∧ d + (lastWait l).2 = now + t

def CurP (l : List Nest) (now : Nat) : Phase → Prop
  | .idle | .rearmed _ _ _ => True
  | .top dl _ | .timed dl _ _ | .polling dl _ _ _ | .clearing dl _ _ | .cleared dl _ _ => Cur l now dl
  | .sized dl _ to => Cur l now dl ∧ ∀ r, to = some r → r.ns ≤ unixMaxNs ∧ ∃ t, (lastWait l).1 = some t ∧ t ≤ r.ns + (lastWait l).2 ∧ (0 < r.ns → 0 < t)

structure Nst (c : Cfg) (k : Kern) (ph : Phase) (l : List Nest) : Prop where
  cnt : k.count > 0 → recent (emptied ph) l = true
  exp : c.hasTimer = true → ∀ x, k.expiry = some x → k.time < x ∧ overdue (setBy ph) (x - k.time) l = true
  tck : c.hasTimer = true → k.ticks = true → overdue (setBy ph) 0 l = true
  cur : CurP l k.time ph

theorem Nst.kern {c k k' ph l} (h : Nst c k ph l) (h1 : k'.count = k.count) (h2 : k'.expiry = k.expiry) (h3 : k'.ticks = k.ticks)
    (h4 : k'.time = k.time) : Nst c k' ph l :=
  ⟨by rw [h1]; exact h.cnt, by rw [h2, h4]; exact h.exp, by rw [h3]; exact h.tck, by rw [h4]; exact h.cur⟩

theorem Nst.notified {c k ph l} (h : Nst c k ph l) : Nst c k ph (.notified :: l) :=
  ⟨fun _ => rfl, h.exp, h.tck, by
    have := h.cur
    cases ph <;> exact this⟩

theorem Nst.weak {c k ph ph' l} (h : Nst c k ph l) (h1 : emptied ph' = true → emptied ph = true) (h2 : setBy ph' = true → setBy ph = true)
    (hc : CurP l k.time ph') : Nst c k ph' l := by
  refine ⟨fun hx => ?_, fun ht x hx => ?_, fun ht hx => ?_, hc⟩
  · have := h.cnt hx
    cases he : emptied ph' with
    | true => rw [h1 he] at this; exact this
    | false =>
      cases he' : emptied ph with
      | true => rw [he'] at this; exact recent_mono this
      | false => rw [he'] at this; exact this
  · exact ⟨(h.exp ht x hx).1, overdue_mono (h.exp ht x hx).2 (Nat.le_refl _) h2⟩
  · exact overdue_mono (h.tck ht hx) (Nat.le_refl _) h2

theorem Nst.fail {c} {s s' : S} {dl cap e o l} (h : Nst c s.k s.phase l) (hd : Cur l s.k.time dl) (heq : waitFail s dl cap e = (s', o)) :
    Nst c s'.k s'.phase l ∧ nest (a, o) = nest (a, .tau) := by
  unfold waitFail at heq
  split at heq
  · cases heq; exact ⟨h.weak nofun nofun hd, rfl⟩
  · cases heq; exact ⟨h.weak nofun nofun trivial, by cases a <;> rfl⟩

theorem add_count {c : Cfg} {k k' : Kern} {fault fd ev mode r} (h : EpollM.add c fault k fd ev mode = (r, k')) : k'.count = k.count := by
  rcases ctlAdd_cases h with ⟨_, _, rfl⟩ | ⟨_, rfl⟩
  · rw [link_eq]; rfl
  · rfl

theorem modify_count {c : Cfg} {k k' : Kern} {fault fd ev mode r} (h : EpollM.modify c fault k fd ev mode = (r, k')) : k'.count = k.count := by
  rcases ctlMod_cases h with ⟨_, _, rfl⟩ | ⟨_, rfl⟩
  · rw [link_eq]; rfl
  · rfl

theorem delete_count {k k' : Kern} {fault fd r} (h : EpollM.delete fault k fd = (r, k')) : k'.count = k.count := by
  rcases ctlDel_cases h with ⟨_, _, rfl⟩ | ⟨_, rfl⟩ <;> rfl

theorem Nst.time {c k ph l} (h : Nst c k ph l) (dt : Nat) (k' : Kern) (h1 : k'.count = k.count) (h4 : k'.time = k.time + dt)
    (hk : (k'.expiry = k.expiry ∧ k'.ticks = k.ticks ∧ ∀ x, k.expiry = some x → ¬ x ≤ k.time + dt) ∨
      (k'.expiry = none ∧ ∃ x, k.expiry = some x ∧ x ≤ k.time + dt)) : Nst c k' ph (.pass dt :: l) := by
  refine ⟨fun hc => h.cnt (by omega), fun ht x hx => ?_, fun ht hx => ?_, ?_⟩
  · rcases hk with ⟨h2, _, h5⟩ | ⟨h2, _⟩
    · rw [h2] at hx
      have h6 := h5 x hx
      have h7 := h.exp ht x hx
      refine ⟨by omega, ?_⟩
      show overdue _ (x - k'.time + dt) l = true
      have : x - k'.time + dt = x - k.time := by omega
      rw [this]; exact h7.2
    · rw [h2] at hx; cases hx
  · show overdue _ (0 + dt) l = true
    rcases hk with ⟨_, h3, _⟩ | ⟨_, x, h5, h6⟩
    · rw [h3] at hx
      exact overdue_mono (h.tck ht hx) (Nat.zero_le _) id
    · exact overdue_mono (h.exp ht x h5).2 (by omega) id
  · have hcur := h.cur
    have key : ∀ {dl}, Cur l k.time dl → Cur (.pass dt :: l) k'.time dl := by
      intro dl hd
      refine ⟨hd.1, fun d e => ?_⟩
      obtain ⟨hm, t, h5, h6⟩ := hd.2 d e
      refine ⟨hm, t, h5, ?_⟩
      show d + ((lastWait l).2 + dt) = _
      omega
    cases ph with
    | idle => trivial
    | rearmed => trivial
    | sized dl cap to =>
      refine ⟨key hcur.1, fun r e => ?_⟩
      obtain ⟨hm, t, h5, h6, h7⟩ := hcur.2 r e
      refine ⟨hm, t, h5, ?_, h7⟩
      show t ≤ r.ns + ((lastWait l).2 + dt)
      omega
    | top => exact key hcur
    | timed => exact key hcur
    | polling => exact key hcur
    | clearing => exact key hcur
    | cleared => exact key hcur

theorem settime_exp {k : Kern} {to : Option Duration} (hm : ∀ r, to = some r → r.ns ≤ unixMaxNs) {x} (hx : (EpollM.settime k (timerValue to)).expiry = some x) :
    ∃ r, to = some r ∧ 0 < r.ns ∧ x = k.time + r.ns := by
  cases to with
  | none => simp [EpollM.settime, timerValue] at hx
  | some r =>
    have hr := hm r rfl
    refine ⟨r, rfl, ?_⟩
    have hlt : r.ns / 10 ^ 9 < 2 ^ 63 := by unfold unixMaxNs at hr; omega
    have e : u64AsI64 (r.ns / 10 ^ 9) = ((r.ns / 10 ^ 9 : Nat) : Int) := by unfold u64AsI64; rw [if_pos hlt]
    have e1 : timerValue (some r) = (((r.ns / 10 ^ 9 : Nat) : Int), ((r.ns % 10 ^ 9 : Nat) : Int)) := by
      show (u64AsI64 (r.ns / 10 ^ 9), _) = _
      rw [e]; rfl
    rw [e1] at hx
    unfold EpollM.settime at hx
    dsimp only at hx
    split at hx
    · cases hx
    · injection hx with hx
      omega

theorem Nst.step {c : Cfg} {s s' : S} {l : List Nest} {a : Act} {o : Obs EventExtra} (h : Nst c s.k s.phase l)
    (hs : EpollM.step c s a = some (s', o)) : Nst c s'.k s'.phase ((nest (a, o)).toList ++ l) := by
  have hcur := h.cur
  cases a with
  | add fd ev mode fault =>
    simp only [EpollM.step] at hs
    split at hs; · cases hs
    split at hs; · cases hs
    split at hs; · cases hs; exact h
    split at hs <;> next heq => cases hs; exact h.kern (add_count heq) (add_timer heq).1 (add_timer heq).2.1 (add_timer heq).2.2
  | modify fd ev mode fault =>
    simp only [EpollM.step] at hs
    split at hs; · cases hs
    split at hs; · cases hs
    split at hs; · cases hs; exact h
    split at hs <;> next heq => cases hs; exact h.kern (modify_count heq) (modify_timer heq).1 (modify_timer heq).2.1 (modify_timer heq).2.2
  | delete fd fault =>
    simp only [EpollM.step] at hs
    split at hs; · cases hs
    split at hs <;> next heq => cases hs; exact h.kern (delete_count heq) (delete_timer heq).1 (delete_timer heq).2.1 (delete_timer heq).2.2
  | notifyCas =>
    simp only [EpollM.step] at hs
    split at hs
    · cases hs; exact h.notified
    · split at hs <;> cases hs
      exact h
  | notifyWrite =>
    simp only [EpollM.step] at hs
    split at hs <;> cases hs
    have := h.notified
    refine ⟨fun _ => rfl, ?_, ?_, ?_⟩
    · dsimp only; rw [link_eq]; exact this.exp
    · dsimp only; rw [link_eq]; exact this.tck
    · dsimp only; rw [link_eq]; exact this.cur
  | waitBegin timeout cap =>
    simp only [EpollM.step] at hs
    split at hs
    · next hph =>
      split at hs <;> cases hs
      rw [hph] at h
      refine ⟨h.cnt, fun ht x hx => ⟨(h.exp ht x hx).1, ?_⟩, fun ht hx => ?_, rfl, fun d e => ?_⟩
      · show ((match timeout.map Duration.ns with | none => false | some t => decide (0 < t) && decide (t ≤ x - s.k.time)) || overdue false (x - s.k.time) l) = true
        rw [Bool.or_eq_true]; exact .inr (h.exp ht x hx).2
      · show ((match timeout.map Duration.ns with | none => false | some t => decide (0 < t) && decide (t ≤ 0)) || overdue false 0 l) = true
        rw [Bool.or_eq_true]; exact .inr (h.tck ht hx)
      · cases timeout with
        | none => cases e
        | some t =>
          obtain ⟨h1, h2⟩ := C09.add_le e
          exact ⟨h2, t.ns, rfl, by show d + 0 = s.k.time + t.ns; omega⟩
    · cases hs
  | waitBusy =>
    simp only [EpollM.step] at hs
    split at hs <;> cases hs
    exact h
  | compute =>
    simp only [EpollM.step] at hs
    split at hs <;> cases hs
    next hph =>
    rw [hph] at h hcur
    refine h.weak nofun nofun ⟨hcur, fun r e => ?_⟩
    rw [Option.map_eq_some_iff] at e
    obtain ⟨d, rfl, rfl⟩ := e
    obtain ⟨h1, t, h2, h3⟩ := hcur.2 d rfl
    rw [since_ns h1]
    exact ⟨by omega, t, h2, by omega, by omega⟩
  | settime fault =>
    simp only [EpollM.step] at hs
    split at hs
    · next dl cap to hph =>
      rw [hph] at hcur
      split at hs
      · split at hs
        · obtain ⟨h1, h2⟩ := h.fail (a := .settime (some _)) hcur.1 (Option.some.inj hs)
          rw [h2]; exact h1
        · cases hs
          refine ⟨by rw [hph] at h; exact h.cnt, fun ht x hx => ?_, (fun ht hx => by cases hx), hcur.1⟩
          obtain ⟨r, e, h1, rfl⟩ := settime_exp (fun r e => (hcur.2 r e).1) hx
          obtain ⟨_, t, h2, h3, h4⟩ := hcur.2 r e
          refine ⟨by show s.k.time < _; omega, ?_⟩
          show overdue true (s.k.time + r.ns - s.k.time) l = true
          exact overdue_last hcur.1.1 h2 (h4 h1) (by omega)
      · next ht =>
        cases hs
        rw [hph] at h
        exact ⟨h.cnt, fun ht' => absurd ht' ht, fun ht' => absurd ht' ht, hcur.1⟩
    · cases hs
  | armTimer fault =>
    simp only [EpollM.step] at hs
    split at hs
    · next dl cap to hph =>
      rw [hph] at hcur
      split at hs
      · split at hs <;> next heq =>
          have h1 : Nst c _ s.phase l := h.kern (modify_count heq) (modify_timer heq).1 (modify_timer heq).2.1 (modify_timer heq).2.2
          first
            | (cases hs; rw [hph] at h1; exact h1.weak nofun (fun _ => rfl) (by rw [(modify_timer heq).2.2]; exact hcur))
            | (obtain ⟨h2, h3⟩ := Nst.fail (a := .armTimer fault) (s := { s with k := _ }) h1 (by show Cur l _ dl; rw [(modify_timer heq).2.2]; exact hcur) (Option.some.inj hs)
               rw [h3]; exact h2)
      · cases hs; rw [hph] at h; exact h.weak nofun (fun _ => rfl) hcur
    · cases hs
  | epollReturn =>
    simp only [EpollM.step] at hs
    split at hs
    · next dl cap to t0 hph =>
      rw [hph] at hcur h
      split at hs <;> cases hs
      exact (h.kern (k' := (harvest c s.k cap).2) rfl rfl rfl rfl).weak nofun (fun _ => rfl) hcur
    · cases hs
  | epollFail e =>
    simp only [EpollM.step] at hs
    split at hs
    · next dl cap to t0 hph =>
      rw [hph] at hcur
      obtain ⟨h2, h3⟩ := h.fail (a := .epollFail e) hcur (Option.some.inj hs)
      rw [h3]; exact h2
    · cases hs
  | clearRead =>
    simp only [EpollM.step] at hs
    split at hs
    · next dl cap evs hph =>
      rw [hph] at hcur
      split at hs <;> cases hs
      · refine ⟨fun hx => h.cnt ?_, h.exp, h.tck, h.cur⟩
        have hx : s.k.count - 1024 > 0 := hx
        omega
      · rw [hph] at h
        exact ⟨fun hx => absurd hx (Nat.lt_irrefl 0), h.exp, h.tck, hcur⟩
    · cases hs
  | rearm fault =>
    simp only [EpollM.step] at hs
    split at hs
    · next dl cap evs hph =>
      rw [hph] at hcur
      split at hs <;> next heq =>
        have h1 : Nst c _ s.phase l := h.kern (modify_count heq) (modify_timer heq).1 (modify_timer heq).2.1 (modify_timer heq).2.2
        first
          | (cases hs; rw [hph] at h1; exact h1.weak (fun _ => rfl) (fun _ => rfl) trivial)
          | (obtain ⟨h2, h3⟩ := Nst.fail (a := .rearm fault) (s := { s with k := _ }) h1 (by show Cur l _ dl; rw [(modify_timer heq).2.2]; exact hcur) (Option.some.inj hs)
             rw [h3]; exact h2)
    · cases hs
  | finish =>
    simp only [EpollM.step] at hs
    split at hs <;> cases hs
    next hph =>
    rw [hph] at h
    exact ⟨h.cnt, h.exp, h.tck, trivial⟩
  | setReady fd flags key =>
    simp only [EpollM.step] at hs
    split at hs; · cases hs
    split at hs; · cases hs
    cases hs
    refine h.kern ?_ ?_ ?_ ?_ <;> rw [link_eq]
  | tick dt =>
    simp only [EpollM.step] at hs
    split at hs
    · next he => cases hs; exact h.time dt _ rfl rfl (.inl ⟨rfl, rfl, by rw [he]; nofun⟩)
    · next x he =>
      split at hs
      · next hx =>
        cases hs
        refine h.time dt _ ?_ ?_ (.inr ⟨?_, x, he, hx⟩)
        all_goals dsimp only; split
        all_goals first | rfl | rw [link_eq]
      · next hx =>
        cases hs; exact h.time dt _ rfl rfl (.inl ⟨rfl, rfl, by rw [he]; intro y hy; cases hy; exact hx⟩)

theorem timedOut_in {l : List Nest} (h : inWait l = true) : timedOut l = false := by
  induction l with
  | nil => rfl
  | cons e l ih =>
    cases e with
    | notified => exact ih h
    | back _ => cases h
    | pass dt => exact ih h
    | wait t => rfl

/-- The timer will not be reported before it is armed again. -/
def Off (c : Cfg) (k : Kern) : Prop := k.items c.timerFd ≠ some ⟨ARMED, NK⟩ ∨ (k.ticks = false ∧ k.expiry = none)

def Spt (c : Cfg) (k : Kern) (l : List Nest) : Phase → Prop
  | .idle => timedOut l = true → Off c k
  | .top _ _ | .sized _ _ _ => True
  | .timed _ _ to | .polling _ _ to _ => ∀ r, to = some r → r.ns = 0 → k.ticks = false ∧ k.expiry = none
  | .clearing _ _ evs | .cleared _ _ evs | .rearmed _ _ evs => Off c k ∨ visible evs ≠ [] ∨ recent false l = true

theorem Off.kern {c k k'} (h : Off c k) (h1 : k'.items c.timerFd = k.items c.timerFd) (h2 : k'.expiry = k.expiry) (h3 : k'.ticks = k.ticks) : Off c k' := by
  unfold Off
  rw [h1, h2, h3]; exact h

theorem Spt.kern {c k k' l ph} (h : Spt c k l ph) (h1 : k'.items c.timerFd = k.items c.timerFd) (h2 : k'.expiry = k.expiry) (h3 : k'.ticks = k.ticks) :
    Spt c k' l ph := by
  cases ph with
  | idle => exact fun e => (h e).kern h1 h2 h3
  | top => trivial
  | sized => trivial
  | timed => intro r e e'; rw [h2, h3]; exact h r e e'
  | polling => intro r e e'; rw [h2, h3]; exact h r e e'
  | clearing => exact h.imp (fun h => h.kern h1 h2 h3) id
  | cleared => exact h.imp (fun h => h.kern h1 h2 h3) id
  | rearmed => exact h.imp (fun h => h.kern h1 h2 h3) id

theorem Spt.later {c k l ph} (h : Spt c k l ph) (e : Nest) (he : e = .notified ∨ ∃ dt, e = .pass dt) : Spt c k (e :: l) ph := by
  have h1 : timedOut (e :: l) = timedOut l := by rcases he with rfl | ⟨_, rfl⟩ <;> rfl
  have h2 : recent false l = true → recent false (e :: l) = true := by rcases he with rfl | ⟨_, rfl⟩ <;> intro h <;> first | rfl | exact h
  cases ph with
  | idle => intro e; rw [h1] at e; exact h e
  | top => trivial
  | sized => trivial
  | timed => exact h
  | polling => exact h
  | clearing => exact h.imp id (.imp id h2)
  | cleared => exact h.imp id (.imp id h2)
  | rearmed => exact h.imp id (.imp id h2)

theorem Spt.fail {c} {s s' : S} {dl cap e o l} (hd : Cur l s.k.time dl) (heq : waitFail s dl cap e = (s', o)) : Spt c s'.k l s'.phase := by
  unfold waitFail at heq
  split at heq
  · cases heq; trivial
  · cases heq; intro e; rw [timedOut_in hd.1] at e; cases e

theorem add_item {c : Cfg} {k k' : Kern} {fault fd ev mode r} (h : EpollM.add c fault k fd ev mode = (r, k')) {x} (hx : x ≠ fd) : k'.items x = k.items x := by
  rcases ctlAdd_cases h with ⟨_, _, rfl⟩ | ⟨_, rfl⟩
  · rw [link_eq]; simp [setItem, hx]
  · rfl

theorem modify_item {c : Cfg} {k k' : Kern} {fault fd ev mode r} (h : EpollM.modify c fault k fd ev mode = (r, k')) {x} (hx : x ≠ fd) : k'.items x = k.items x := by
  rcases ctlMod_cases h with ⟨_, _, rfl⟩ | ⟨_, rfl⟩
  · rw [link_eq]; simp [setItem, hx]
  · rfl

theorem delete_item {k k' : Kern} {fault fd r} (h : EpollM.delete fault k fd = (r, k')) {x} (hx : x ≠ fd) : k'.items x = k.items x := by
  rcases ctlDel_cases h with ⟨_, _, rfl⟩ | ⟨_, rfl⟩
  · simp [setItem, hx]
  · rfl

theorem Off.tick {c k k'} (h : Off c k) (h1 : k'.items c.timerFd = k.items c.timerFd)
    (h2 : k.expiry = none → k'.expiry = none ∧ k'.ticks = k.ticks) : Off c k' := by
  rcases h with h | ⟨h3, h4⟩
  · left; rw [h1]; exact h
  · right; rw [(h2 h4).2]; exact ⟨h3, (h2 h4).1⟩

theorem Spt.tick {c k k' l ph} (h : Spt c k l ph) (h1 : k'.items c.timerFd = k.items c.timerFd)
    (h2 : k.expiry = none → k'.expiry = none ∧ k'.ticks = k.ticks) : Spt c k' l ph := by
  cases ph with
  | idle => exact fun e => (h e).tick h1 h2
  | top => trivial
  | sized => trivial
  | timed => intro r e e'; have := h r e e'; rw [(h2 this.2).2]; exact ⟨this.1, (h2 this.2).1⟩
  | polling => intro r e e'; have := h r e e'; rw [(h2 this.2).2]; exact ⟨this.1, (h2 this.2).1⟩
  | clearing => exact h.imp (fun h => h.tick h1 h2) id
  | cleared => exact h.imp (fun h => h.tick h1 h2) id
  | rearmed => exact h.imp (fun h => h.tick h1 h2) id

/-- What a `wait` that comes back with nothing leaves of the timer. -/
theorem return_off {c : Cfg} (ht : c.hasTimer = true) {k : Kern} {tr} (hk : KInv c k tr) {cap : Nat} {to : Option Duration} {t0 : Nat}
    (hz : ∀ r, to = some r → r.ns = 0 → k.ticks = false ∧ k.expiry = none)
    (hret : (harvest c k cap).1 ≠ [] ∨ timeUp (epollTimeoutMs c.hasTimer to) t0 k.time = true) :
    Off c (harvest c k cap).2 ∨ visible (harvest c k cap).1 ≠ [] ∨ k.count > 0 := by
  obtain ⟨pre, rest, h1, h2, h3, h4, h5⟩ := harvest_spec hk.l cap
  by_cases hv : visible (harvest c k cap).1 = []
  · rw [visible_user hk, List.map_eq_nil_iff, List.map_eq_nil_iff, List.filter_eq_nil_iff] at hv
    have hint : ∀ fd ∈ pre.filter (hot (ready c k) k.items), c.internal fd = true := by
      intro fd hfd
      have := hv (rawOf (ready c k) k.items fd) (by rw [h2]; exact List.mem_map_of_mem hfd)
      simpa [rawOf] using this
    by_cases hnil : (harvest c k cap).1 = []
    · left
      rcases hret with hret | hret
      · exact absurd hnil hret
      · cases to with
        | none => simp [timeUp, epollTimeoutMs] at hret
        | some r =>
          by_cases hr : r.ns = 0
          · right
            rw [h5]
            exact hz r rfl hr
          · simp [timeUp, epollTimeoutMs, hr, ht] at hret
    · rw [h2] at hnil
      obtain ⟨fd, l, hl⟩ := List.exists_cons_of_ne_nil (fun e => hnil (by rw [e]; rfl) : pre.filter (hot (ready c k) k.items) ≠ [])
      have hfd : fd ∈ pre.filter (hot (ready c k) k.items) := by rw [hl]; exact List.mem_cons_self ..
      have hh := (List.mem_filter.1 hfd).2
      rcases internal_cases (hint fd hfd) with rfl | ⟨_, rfl⟩
      · right; right
        cases hc : k.count with
        | succ n => omega
        | zero =>
          have h0 : ready c k c.notifFd = 0#32 := by
            unfold ready
            rw [if_pos rfl, if_neg (by omega)]
          unfold hot rev at hh
          rw [h0] at hh
          cases hi : k.items c.notifFd <;> simp [hi] at hh
      · left; left
        rw [h5]
        dsimp only
        rw [if_pos hfd]
        rcases hk.r.timer ht with e | e | e <;> rw [e] <;> decide
  · exact .inr (.inl hv)

theorem Spt.step {c : Cfg} (hok : c.Ok) (ht : c.hasTimer = true) {s s' : S} {l : List Nest} {tr} {a : Act} {o : Obs EventExtra} (hk : KInv c s.k tr)
    (hn : Nst c s.k s.phase l) (h : Spt c s.k l s.phase) (hs : EpollM.step c s a = some (s', o)) : Spt c s'.k ((nest (a, o)).toList ++ l) s'.phase := by
  have hcur := hn.cur
  have hne : ∀ fd, ¬ c.internal fd = true → c.timerFd ≠ fd := by
    rintro fd hi rfl
    exact hi (by simp [Cfg.internal, ht])
  cases a with
  | add fd ev mode fault =>
    simp only [EpollM.step] at hs
    split at hs; · cases hs
    next hi =>
    split at hs; · cases hs
    split at hs; · cases hs; exact h
    split at hs <;> next heq => cases hs; exact h.kern (add_item heq (hne _ hi)) (add_timer heq).1 (add_timer heq).2.1
  | modify fd ev mode fault =>
    simp only [EpollM.step] at hs
    split at hs; · cases hs
    next hi =>
    split at hs; · cases hs
    split at hs; · cases hs; exact h
    split at hs <;> next heq => cases hs; exact h.kern (modify_item heq (hne _ hi)) (modify_timer heq).1 (modify_timer heq).2.1
  | delete fd fault =>
    simp only [EpollM.step] at hs
    split at hs; · cases hs
    next hi =>
    split at hs <;> next heq => cases hs; exact h.kern (delete_item heq (hne _ hi)) (delete_timer heq).1 (delete_timer heq).2.1
  | notifyCas =>
    simp only [EpollM.step] at hs
    split at hs
    · cases hs; exact h.later _ (.inl rfl)
    · split at hs <;> cases hs
      exact h
  | notifyWrite =>
    simp only [EpollM.step] at hs
    split at hs <;> cases hs
    refine (h.later .notified (.inl rfl)).kern ?_ ?_ ?_ <;> rw [link_eq]
  | waitBegin timeout cap =>
    simp only [EpollM.step] at hs
    split at hs
    · split at hs <;> cases hs
      trivial
    · cases hs
  | waitBusy =>
    simp only [EpollM.step] at hs
    split at hs <;> cases hs
    exact h
  | compute =>
    simp only [EpollM.step] at hs
    split at hs <;> cases hs
    trivial
  | settime fault =>
    simp only [EpollM.step] at hs
    split at hs
    · next dl cap to hph =>
      rw [hph] at hcur
      rw [if_pos ht] at hs
      split at hs
      · have := Spt.fail (c := c) hcur.1 (Option.some.inj hs)
        rw [(hn.fail (a := .settime (some _)) hcur.1 (Option.some.inj hs)).2]; exact this
      · cases hs
        rintro r rfl hr
        refine ⟨rfl, ?_⟩
        have e1 : timerValue (some r) = (0, 0) := by
          show (u64AsI64 (r.ns / 10 ^ 9), (r.ns % 10 ^ 9 : Int)) = _
          rw [hr]; decide
        dsimp only
        rw [e1]
        rfl
    · cases hs
  | armTimer fault =>
    simp only [EpollM.step] at hs
    split at hs
    · next dl cap to hph =>
      rw [hph] at hcur h
      rw [if_pos ht] at hs
      split at hs <;> next heq =>
        have hc' := hcur
        rw [← (modify_timer heq).2.2] at hc'
        first
          | (cases hs; intro r e e'; have := h r e e'; dsimp only; rw [(modify_timer heq).1, (modify_timer heq).2.1]; exact this)
          | (have h2 := Spt.fail (c := c) (s := { s with k := _ }) hc' (Option.some.inj hs)
             have h1 : Nst c _ s.phase l := hn.kern (modify_count heq) (modify_timer heq).1 (modify_timer heq).2.1 (modify_timer heq).2.2
             rw [(Nst.fail (a := .armTimer fault) (s := { s with k := _ }) h1 hc' (Option.some.inj hs)).2]; exact h2)
    · cases hs
  | epollReturn =>
    simp only [EpollM.step] at hs
    split at hs
    · next dl cap to t0 hph =>
      rw [hph] at h
      have hcnt := hn.cnt
      rw [hph] at hcnt
      split at hs <;> cases hs
      next hret =>
      rcases return_off ht hk h hret with h | h | h
      · exact .inl h
      · exact .inr (.inl h)
      · exact .inr (.inr (hcnt h))
    · cases hs
  | epollFail e =>
    simp only [EpollM.step] at hs
    split at hs
    · next dl cap to t0 hph =>
      rw [hph] at hcur
      have := Spt.fail (c := c) hcur (Option.some.inj hs)
      rw [(hn.fail (a := .epollFail e) hcur (Option.some.inj hs)).2]; exact this
    · cases hs
  | clearRead =>
    simp only [EpollM.step] at hs
    split at hs
    · next dl cap evs hph =>
      split at hs <;> cases hs
      · exact h.kern rfl rfl rfl
      · rw [hph] at h; exact h
    · cases hs
  | rearm fault =>
    simp only [EpollM.step] at hs
    split at hs
    · next dl cap evs hph =>
      rw [hph] at hcur h
      split at hs <;> next heq =>
        have hc' := hcur
        rw [← (modify_timer heq).2.2] at hc'
        first
          | (cases hs; exact h.imp (fun h => h.kern (modify_item heq (fun e => hok ht e)) (modify_timer heq).1 (modify_timer heq).2.1) id)
          | (have h2 := Spt.fail (c := c) (s := { s with k := _ }) hc' (Option.some.inj hs)
             have h1 : Nst c _ s.phase l := hn.kern (modify_count heq) (modify_timer heq).1 (modify_timer heq).2.1 (modify_timer heq).2.2
             rw [(Nst.fail (a := .rearm fault) (s := { s with k := _ }) h1 hc' (Option.some.inj hs)).2]; exact h2)
    · cases hs
  | finish =>
    simp only [EpollM.step] at hs
    split at hs <;> cases hs
    next dl cap evs hph =>
    rw [hph] at h
    intro e
    simp only [nest, Option.toList, List.cons_append, List.nil_append, timedOut, Bool.and_eq_true, Bool.not_eq_true'] at e
    rcases h with h | h | h
    · exact h
    · exact absurd (List.isEmpty_iff.1 e.1) h
    · rw [h] at e; cases e.2
  | setReady fd flags key =>
    simp only [EpollM.step] at hs
    split at hs; · cases hs
    split at hs; · cases hs
    cases hs
    refine h.kern ?_ ?_ ?_ <;> rw [link_eq]
  | tick dt =>
    simp only [EpollM.step] at hs
    split at hs
    · cases hs; exact (h.later (.pass dt) (.inr ⟨_, rfl⟩)).kern rfl rfl rfl
    · next x he =>
      split at hs
      · cases hs
        refine (h.later (.pass dt) (.inr ⟨_, rfl⟩)).tick ?_ (by rw [he]; nofun)
        dsimp only
        rw [link_eq]
      · cases hs; exact (h.later (.pass dt) (.inr ⟨_, rfl⟩)).kern rfl rfl rfl

theorem reach_nst {c P s l} (h : Runs (fun s => ∃ user, s = init c user) (EpollM.step c) P s l) : Nst c s.k s.phase (l.filterMap nest) := by
  induction h with
  | init hi =>
    obtain ⟨u, rfl⟩ := hi
    have h0 : (init c u).k.count = 0 ∧ (init c u).k.expiry = none ∧ (init c u).k.ticks = false := by
      unfold init
      dsimp only
      generalize hm : EpollM.add c none _ c.notifFd (Event.onlyReadable NOTIFY_KEY) .oneshot = r1
      obtain ⟨r1, k1⟩ := r1
      split at hm
      · generalize hm' : EpollM.add c none _ c.timerFd (Event.none NOTIFY_KEY) .oneshot = r2 at hm
        obtain ⟨r2, k2⟩ := r2
        exact ⟨(add_count hm).trans (add_count hm'), (add_timer hm).1.trans (add_timer hm').1, (add_timer hm).2.1.trans (add_timer hm').2.1⟩
      · exact ⟨add_count hm, (add_timer hm).1, (add_timer hm).2.1⟩
    exact ⟨(fun hx => by rw [h0.1] at hx; exact absurd hx (Nat.lt_irrefl 0)), (fun _ x hx => by rw [h0.2.1] at hx; cases hx),
      (fun _ hx => by rw [h0.2.2] at hx; cases hx), trivial⟩
  | step _ _ hs ih =>
    have := ih.step hs
    rw [List.filterMap_cons]
    split
    · next e => rw [e] at this; exact this
    · next b e => rw [e] at this; exact this

theorem reach_spt {c P s l} (hok : c.Ok) (ht : c.hasTimer = true) (h : Runs (fun s => ∃ user, s = init c user) (EpollM.step c) P s l) :
    Spt c s.k (l.filterMap nest) s.phase := by
  induction h with
  | init hi =>
    obtain ⟨u, rfl⟩ := hi
    intro e; cases e
  | step hr _ hs ih =>
    have := ih.step hok ht (reach_kinv hok (runs_reach hr)) (reach_nst hr) hs
    rw [List.filterMap_cons]
    split
    · next e => rw [e] at this; exact this
    · next b e => rw [e] at this; exact this

theorem pollIn_hot (c : Cfg) (k : Kern) : pollIn c k = k.rdl.any (hot (ready c k) k.items) := by
  unfold pollIn
  congr 1
  funext fd
  unfold hot rev
  cases k.items fd with
  | none => simp
  | some it => by_cases h : ready c k fd &&& it.events &&& ~~~PRIVATE = 0#32 <;> simp [h]

theorem harvest_nil {c : Cfg} {k : Kern} (h : L c k) {n : Nat} (hn : n > 0) :
    (harvest c k n).1 = [] ↔ ∀ fd ∈ k.rdl, hot (ready c k) k.items fd = false := by
  obtain ⟨pre, rest, h1, h2, h3, h4, _⟩ := harvest_spec h n
  rw [h2, List.map_eq_nil_iff]
  constructor
  · intro he
    rw [he] at h4
    rcases h4 with h4 | h4
    · subst h4
      intro fd hfd
      rw [h1, List.append_nil] at hfd
      have := List.filter_eq_nil_iff.1 he fd hfd
      simpa using this
    · simp at h4; omega
  · intro he
    rw [List.filter_eq_nil_iff]
    intro fd hfd
    rw [he fd (by rw [h1]; exact List.mem_append_left _ hfd)]
    simp

/-- The way into `epoll_wait`, and what it can report then. -/
theorem enter_hot {c : Cfg} (hok : c.Ok) {s : S} {tr : List (Obs EventExtra)} (h : Reach c s tr) (hph : s.phase = .idle)
    (timeout : Option Duration) {cap : Nat} (hcap : cap > 0) :
    ∃ s' dl to t0, runActs c s (C06.enter timeout cap) = some (s', [.tau, .tau, .tau, .waitBegin]) ∧
      s'.phase = .polling dl cap to t0 ∧ dl = (timeout.bind fun t => instantCheckedAdd unixMaxNs s.k.time t) ∧
      to = (dl.map fun d => saturatingSince d s.k.time) ∧ t0 = s.k.time ∧ s'.k.time = s.k.time ∧ s'.k.count = s.k.count ∧ s'.k.rdl = s.k.rdl ∧
      ∀ fd, hot (ready c s'.k) s'.k.items fd = (hot (ready c s.k) s.k.items fd && !(c.hasTimer && fd == c.timerFd)) := by
  have hk := reach_kinv hok h
  generalize hdl : (timeout.bind fun t => instantCheckedAdd unixMaxNs s.k.time t) = dl
  have h1 : step c s (.waitBegin timeout cap) = some ({ s with phase := .top dl cap }, .waitBegin) := by
    simp only [step, hph]; rw [if_neg (by omega), hdl]
  generalize hto : (dl.map fun d => saturatingSince d s.k.time) = to
  have h2 : step c { s with phase := .top dl cap } .compute = some ({ s with phase := .sized dl cap to }, .tau) := by
    simp only [step, hto]
  cases ht : c.hasTimer with
  | false =>
    have h3 : step c { s with phase := .sized dl cap to } (.settime none) = some ({ s with phase := .timed dl cap to }, .tau) := by
      simp [step, ht]
    have h4 : step c { s with phase := .timed dl cap to } (.armTimer none) =
        some ({ s with phase := .polling dl cap to s.k.time }, .tau) := by simp [step, ht]
    refine ⟨{ s with phase := .polling dl cap to s.k.time }, dl, to, s.k.time, ?_, rfl, rfl, hto.symm, rfl, rfl, rfl, rfl, fun fd => by simp⟩
    simp only [C06.enter, runActs, h1, h2, h3, h4, Option.bind_some, Option.map_some, List.nil_append, List.cons_append]
  | true =>
    have h3 : step c { s with phase := .sized dl cap to } (.settime none) =
        some ({ s with k := EpollM.settime s.k (timerValue to), phase := .timed dl cap to }, .tau) := by simp [step, ht]
    have hsome : ((EpollM.settime s.k (timerValue to)).items c.timerFd).isSome = true := by
      show (s.k.items c.timerFd).isSome = true
      rcases hk.r.timer ht with e | e | e <;> simp [e]
    have hmod := modify_ok_of_some (c := c) (ev := Event.onlyReadable NOTIFY_KEY) (mode := .oneshot) hsome
    rcases hm : EpollM.modify c none (EpollM.settime s.k (timerValue to)) c.timerFd (Event.onlyReadable NOTIFY_KEY) .oneshot with ⟨r, k⟩
    rw [hm] at hmod
    simp only at hmod
    subst hmod
    have hrt : ∀ it, ready c (setItem (EpollM.settime s.k (timerValue to)) c.timerFd it) c.timerFd = 0#32 := by
      intro it
      unfold ready
      rw [if_neg (hok ht), if_pos ⟨ht, rfl⟩]
      rfl
    have hkk : k = setItem (EpollM.settime s.k (timerValue to)) c.timerFd (some ⟨ctlFlags (Event.onlyReadable NOTIFY_KEY) .oneshot ||| ERR ||| HUP, keyToU64 NOTIFY_KEY⟩) := by
      rcases ctlMod_cases hm with ⟨_, _, rfl⟩ | ⟨⟨e, he⟩, _⟩
      · rw [hrt]
        unfold link setItem
        dsimp only
        rw [if_pos rfl]
        dsimp only
        rw [if_neg (by simp)]
        rfl
      · cases he
    have h4 : step c { s with k := EpollM.settime s.k (timerValue to), phase := .timed dl cap to } (.armTimer none) =
        some ({ s with k, phase := .polling dl cap to k.time }, .tau) := by
      simp only [step, ht, if_true, hm]
    have hrun : runActs c s (C06.enter timeout cap) = some ({ s with k, phase := .polling dl cap to k.time }, [.tau, .tau, .tau, .waitBegin]) := by
      simp only [C06.enter, runActs, h1, h2, h3, h4, Option.bind_some, Option.map_some, List.nil_append, List.cons_append]
    refine ⟨{ s with k, phase := .polling dl cap to k.time }, dl, to, k.time, hrun, rfl, rfl, hto.symm, by rw [hkk]; rfl, by rw [hkk]; rfl, by rw [hkk]; rfl,
      by rw [hkk]; rfl, fun fd => ?_⟩
    dsimp only
    by_cases hfd : fd = c.timerFd
    · subst hfd
      rw [hkk]
      unfold hot rev setItem
      dsimp only
      rw [if_pos rfl]
      dsimp only
      have := hrt (some ⟨ctlFlags (Event.onlyReadable NOTIFY_KEY) .oneshot ||| ERR ||| HUP, keyToU64 NOTIFY_KEY⟩)
      unfold setItem at this
      rw [this]
      simp
    · have hi : k.items fd = s.k.items fd := by rw [hkk]; unfold setItem; dsimp only; rw [if_neg hfd]; rfl
      have hrd : ready c k fd = ready c s.k fd := by
        rw [hkk]
        unfold ready setItem EpollM.settime
        dsimp only
        simp [hfd]
      unfold hot rev
      rw [hi, hrd]
      simp [hfd]

end Polling.EpollM
