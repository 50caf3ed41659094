import Verif.Proof.EpollPhase
import Verif.Proof.TimeLemmas

/-! The timer of the epoll machine. -/

namespace Polling.EpollM
open Epoll Spec

/-- A representable deadline. -/
def DlOk (dl : Option Nat) : Prop := ∀ d, dl = some d → d ≤ unixMaxNs

/-- `to` was computed from `dl` at a time not after `now`. -/
def Remaining (dl : Option Nat) (to : Option Duration) (now : Nat) : Prop :=
  ∃ t, t ≤ now ∧ to = dl.map fun d => saturatingSince d t

/-- The timer does not fire before the deadline. -/
def TimerOk (dl : Option Nat) (k : Kern) : Prop :=
  (∀ x, k.expiry = some x → ∃ d, dl = some d ∧ d ≤ x) ∧ (k.ticks = true → ∃ d, dl = some d ∧ d ≤ k.time)

def T (c : Cfg) (k : Kern) : Phase → Prop
  | .top dl _ => DlOk dl
  | .sized dl _ to => DlOk dl ∧ Remaining dl to k.time
  | .timed dl _ to => DlOk dl ∧ Remaining dl to k.time ∧ (c.hasTimer = true → TimerOk dl k)
  | .polling dl _ to t0 => DlOk dl ∧ Remaining dl to t0 ∧ t0 ≤ k.time ∧ (c.hasTimer = true → TimerOk dl k)
  | .clearing dl _ _ | .cleared dl _ _ => DlOk dl
  | _ => True

theorem T.congr {c : Cfg} {k k' : Kern} {p : Phase} (h : T c k p) (h1 : k'.expiry = k.expiry) (h2 : k'.ticks = k.ticks)
    (h3 : k'.time = k.time) : T c k' p := by
  cases p <;> simp only [T, TimerOk, h1, h2, h3] at h ⊢ <;> exact h

theorem waitFail_T {c : Cfg} {s : S} {dl cap e s' o} (hd : DlOk dl) (heq : waitFail s dl cap e = (s', o)) :
    T c s'.k s'.phase := by
  unfold waitFail at heq
  split at heq <;> cases heq
  · exact hd
  · exact trivial

theorem add_timer {c : Cfg} {k k' : Kern} {fault fd ev mode res} (heq : EpollM.add c fault k fd ev mode = (res, k')) :
    k'.expiry = k.expiry ∧ k'.ticks = k.ticks ∧ k'.time = k.time := by
  rcases ctlAdd_cases heq with ⟨h1, h2, rfl⟩ | ⟨_, rfl⟩
  · rw [link_eq]; exact ⟨rfl, rfl, rfl⟩
  · exact ⟨rfl, rfl, rfl⟩

theorem modify_timer {c : Cfg} {k k' : Kern} {fault fd ev mode res} (heq : EpollM.modify c fault k fd ev mode = (res, k')) :
    k'.expiry = k.expiry ∧ k'.ticks = k.ticks ∧ k'.time = k.time := by
  rcases ctlMod_cases heq with ⟨h1, h2, rfl⟩ | ⟨_, rfl⟩
  · rw [link_eq]; exact ⟨rfl, rfl, rfl⟩
  · exact ⟨rfl, rfl, rfl⟩

theorem delete_timer {k k' : Kern} {fault fd res} (heq : EpollM.delete fault k fd = (res, k')) :
    k'.expiry = k.expiry ∧ k'.ticks = k.ticks ∧ k'.time = k.time := by
  rcases ctlDel_cases heq with ⟨h1, h2, rfl⟩ | ⟨_, rfl⟩
  · exact ⟨rfl, rfl, rfl⟩
  · exact ⟨rfl, rfl, rfl⟩

theorem since_ns {d t : Nat} (h : d ≤ unixMaxNs) : (saturatingSince d t).ns = d - t := by
  unfold saturatingSince unixMaxNs durLimit at *
  simp only; omega

theorem settime_ok {dl to} {k : Kern} (hd : DlOk dl) (hr : Remaining dl to k.time) :
    TimerOk dl (EpollM.settime k (timerValue to)) := by
  obtain ⟨t, ht, rfl⟩ := hr
  unfold EpollM.settime
  refine ⟨?_, fun h => by simp at h⟩
  intro x hx
  cases dl with
  | none => simp [timerValue] at hx
  | some d =>
    refine ⟨d, rfl, ?_⟩
    have hd' := hd d rfl
    have hns := since_ns (t := t) hd'
    simp only [Option.map_some, timerValue, Duration.asSecs, Duration.subsecNanos, hns] at hx
    have : (d - t) / 10 ^ 9 < 2 ^ 63 := by unfold unixMaxNs at hd'; omega
    rw [u64AsI64, if_pos this] at hx
    split at hx
    · cases hx
    · injection hx with hx
      omega

theorem tick_T {c : Cfg} {k : Kern} {p : Phase} (h : T c k p) (dt : Nat) :
    T c { k with time := k.time + dt } p := by
  have hr : ∀ dl to, Remaining dl to k.time → Remaining dl to (k.time + dt) := by
    rintro dl to ⟨t, ht, h⟩; exact ⟨t, by omega, h⟩
  have ht : ∀ dl, TimerOk dl k → TimerOk dl { k with time := k.time + dt } := by
    rintro dl ⟨h1, h2⟩
    exact ⟨h1, fun h => by obtain ⟨d, hd, hle⟩ := h2 h; exact ⟨d, hd, by simp only; omega⟩⟩
  cases p with
  | idle => trivial
  | top => exact h
  | sized => exact ⟨h.1, hr _ _ h.2⟩
  | timed => exact ⟨h.1, hr _ _ h.2.1, fun hh => ht _ (h.2.2 hh)⟩
  | polling => exact ⟨h.1, h.2.1, Nat.le_trans h.2.2.1 (Nat.le_add_right _ _), fun hh => ht _ (h.2.2.2 hh)⟩
  | clearing => exact h
  | cleared => exact h
  | rearmed => trivial

theorem expire_T {c : Cfg} {k : Kern} {p : Phase} (h : T c k p) (dt x : Nat) (hx : k.expiry = some x) (hle : x ≤ k.time + dt) :
    T c { k with time := k.time + dt, expiry := none, ticks := true } p := by
  have hr : ∀ dl to, Remaining dl to k.time → Remaining dl to (k.time + dt) := by
    rintro dl to ⟨t, ht, h⟩; exact ⟨t, by omega, h⟩
  have ht : ∀ dl, TimerOk dl k → TimerOk dl { k with time := k.time + dt, expiry := none, ticks := true } := by
    rintro dl ⟨h1, h2⟩
    refine ⟨by simp, fun _ => ?_⟩
    obtain ⟨d, hd, hdx⟩ := h1 x hx
    exact ⟨d, hd, by simp only; omega⟩
  cases p with
  | idle => trivial
  | top => exact h
  | sized => exact ⟨h.1, hr _ _ h.2⟩
  | timed => exact ⟨h.1, hr _ _ h.2.1, fun hh => ht _ (h.2.2 hh)⟩
  | polling => exact ⟨h.1, h.2.1, Nat.le_trans h.2.2.1 (Nat.le_add_right _ _), fun hh => ht _ (h.2.2.2 hh)⟩
  | clearing => exact h
  | cleared => exact h
  | rearmed => trivial

theorem step_T {c : Cfg} {s : S} {a : Act} {s' : S} {o : Obs EventExtra}
    (h : T c s.k s.phase) (hs : step c s a = some (s', o)) : T c s'.k s'.phase := by
  cases a with
  | add fd ev mode fault =>
    simp only [step] at hs
    split at hs
    · cases hs
    · split at hs
      · cases hs
      · split at hs
        · cases hs; exact h
        · rcases hm : EpollM.add c fault s.k fd ev mode with ⟨r, k⟩
          have hh := add_timer hm
          rw [hm] at hs
          cases r <;> (cases hs; exact h.congr hh.1 hh.2.1 hh.2.2)
  | modify fd ev mode fault =>
    simp only [step] at hs
    split at hs
    · cases hs
    · split at hs
      · cases hs
      · split at hs
        · cases hs; exact h
        · rcases hm : EpollM.modify c fault s.k fd ev mode with ⟨r, k⟩
          have hh := modify_timer hm
          rw [hm] at hs
          cases r <;> (cases hs; exact h.congr hh.1 hh.2.1 hh.2.2)
  | delete fd fault =>
    simp only [step] at hs
    split at hs
    · cases hs
    · rcases hm : EpollM.delete fault s.k fd with ⟨r, k⟩
      have hh := delete_timer hm
      rw [hm] at hs
      cases r <;> (cases hs; exact h.congr hh.1 hh.2.1 hh.2.2)
  | notifyCas =>
    simp only [step] at hs
    split at hs
    · cases hs; exact h
    · split at hs
      · cases hs; exact h
      · cases hs
  | notifyWrite =>
    simp only [step] at hs
    split at hs
    · cases hs
      refine h.congr ?_ ?_ ?_ <;> rw [link_eq]
    · cases hs
  | waitBegin timeout cap =>
    simp only [step] at hs
    split at hs
    · split at hs
      · cases hs
      · cases hs
        intro d hd
        rw [Option.bind_eq_some_iff] at hd
        obtain ⟨t, _, ht⟩ := hd
        unfold instantCheckedAdd at ht
        split at ht
        · cases ht; assumption
        · cases ht
    · cases hs
  | waitBusy =>
    simp only [step] at hs
    split at hs
    · cases hs
    · cases hs; exact h
  | compute =>
    simp only [step] at hs
    split at hs
    · next dl cap hph =>
      rw [hph] at h
      cases hs; exact ⟨h, s.k.time, Nat.le_refl _, rfl⟩
    · cases hs
  | settime fault =>
    simp only [step] at hs
    split at hs
    · next dl cap to hph =>
      rw [hph] at h
      split at hs
      · split at hs
        · exact waitFail_T h.1 (Option.some.inj hs)
        · cases hs; exact ⟨h.1, h.2, fun _ => settime_ok h.1 h.2⟩
      · next ht => cases hs; exact ⟨h.1, h.2, fun hh => absurd hh ht⟩
    · cases hs
  | armTimer fault =>
    simp only [step] at hs
    split at hs
    · next dl cap to hph =>
      rw [hph] at h
      split at hs
      · rcases hm : EpollM.modify c fault s.k c.timerFd (Event.onlyReadable NOTIFY_KEY) .oneshot with ⟨r, k⟩
        have hh := modify_timer hm
        rw [hm] at hs
        cases r with
        | ok =>
          cases hs
          have h' : T c k (.timed dl cap to) := T.congr h hh.1 hh.2.1 hh.2.2
          exact ⟨h'.1, h'.2.1, Nat.le_refl _, h'.2.2⟩
        | err e => exact waitFail_T h.1 (Option.some.inj hs)
      · cases hs; exact ⟨h.1, h.2.1, Nat.le_refl _, h.2.2⟩
    · cases hs
  | epollReturn =>
    simp only [step] at hs
    split at hs
    · next dl cap to t0 hph =>
      rw [hph] at h
      split at hs
      · cases hs; exact h.1
      · cases hs
    · cases hs
  | epollFail e =>
    simp only [step] at hs
    split at hs
    · next dl cap to t0 hph =>
      rw [hph] at h
      exact waitFail_T h.1 (Option.some.inj hs)
    · cases hs
  | clearRead =>
    simp only [step] at hs
    split at hs
    · next dl cap evs hph =>
      rw [hph] at h
      split at hs
      · injection hs with hs; injection hs with h1 h2; subst h1 h2
        simp only [hph, T]; exact h
      · injection hs with hs; injection hs with h1 h2; subst h1 h2
        exact h
    · cases hs
  | rearm fault =>
    simp only [step] at hs
    split at hs
    · next dl cap evs hph =>
      rw [hph] at h
      rcases hm : EpollM.modify c fault s.k c.notifFd (Event.onlyReadable NOTIFY_KEY) .oneshot with ⟨r, k⟩
      rw [hm] at hs
      cases r with
      | ok => cases hs; trivial
      | err e => exact waitFail_T h (Option.some.inj hs)
    · cases hs
  | finish =>
    simp only [step] at hs
    split at hs
    · cases hs; trivial
    · cases hs
  | setReady fd flags key =>
    simp only [step] at hs
    split at hs
    · cases hs
    · split at hs
      · cases hs
      · cases hs
        refine h.congr ?_ ?_ ?_ <;> rw [link_eq]
  | tick dt =>
    simp only [step] at hs
    split at hs
    · cases hs; exact tick_T h dt
    · next x he =>
      split at hs
      · next hle =>
        cases hs
        have := expire_T h dt x he hle
        simp only
        split
        · refine this.congr ?_ ?_ ?_ <;> rw [link_eq]
        · exact this
      · cases hs
        exact tick_T h dt

theorem reach_T {c : Cfg} {s tr} (h : Reach c s tr) : T c s.k s.phase := by
  induction h with
  | init user => trivial
  | step _ hs ih => exact step_T ih hs

end Polling.EpollM
