import Verif.Props.C09Machine

/-! C59: the timer of the epoll machine fires in time. -/

namespace Polling.EpollM
open Epoll Spec

/-- What was left at some time since `b` of a wait with the deadline `d`. -/
def Left (b d now : Nat) (to : Option Duration) (r : Nat) : Prop :=
  ∃ tc, b ≤ tc ∧ tc ≤ now ∧ to = some (saturatingSince d tc) ∧ r = d - tc

/-- The timer will fire `r` after `t0` at the latest, or has fired. -/
def Set (k : Kern) (t0 r : Nat) : Prop := k.ticks = true ∨ ∃ x, k.expiry = some x ∧ k.time < x ∧ x ≤ t0 + r

/-- A wait with the deadline `d`, at or after a round that was begun at time `b`. -/
def Due (c : Cfg) (b d : Nat) (k : Kern) : Phase → Prop
  | .top dl _ => dl = some d
  | .sized dl _ to => dl = some d ∧ ∃ r, Left b d k.time to r
  | .timed dl _ to => dl = some d ∧ ∃ r, Left b d k.time to r ∧ (c.hasTimer = true → r ≠ 0 → Set k k.time r)
  | .polling dl _ to t0 => dl = some d ∧ t0 ≤ k.time ∧ ∃ r, Left b d t0 to r ∧
      (c.hasTimer = true → k.items c.timerFd = some ⟨ARMED, NK⟩ ∧ (r ≠ 0 → Set k t0 r))
  | .idle => False
  | .clearing dl _ _ | .cleared dl _ _ | .rearmed dl _ _ => dl = some d

theorem Left.mono {b d now now' to r} (h : Left b d now to r) (hn : now ≤ now') : Left b d now' to r := by
  obtain ⟨tc, h1, h2, h3⟩ := h
  exact ⟨tc, h1, Nat.le_trans h2 hn, h3⟩

/-- A change that touches neither the clock nor the timer. -/
theorem Due.congr {c b d k k' p} (h : Due c b d k p) (h1 : k'.expiry = k.expiry) (h2 : k'.ticks = k.ticks)
    (h3 : k'.time = k.time) (h4 : c.hasTimer = true → k'.items c.timerFd = k.items c.timerFd) : Due c b d k' p := by
  cases p with
  | timed dl cap to =>
    obtain ⟨h5, r, h6, h7⟩ := h
    refine ⟨h5, r, by rw [h3]; exact h6, fun ht hr => ?_⟩
    simp only [Set, h1, h2, h3]
    exact h7 ht hr
  | polling dl cap to t0 =>
    obtain ⟨h5, h5', r, h6, h7⟩ := h
    refine ⟨h5, by rw [h3]; exact h5', r, h6, fun ht => ?_⟩
    rw [h4 ht]
    refine ⟨(h7 ht).1, fun hr => ?_⟩
    simp only [Set, h1, h2, h3]
    exact (h7 ht).2 hr
  | sized dl cap to => obtain ⟨h5, r, h6⟩ := h; exact ⟨h5, r, by rw [h3]; exact h6⟩
  | _ => exact h

theorem Set.tick {k : Kern} {t0 r dt} (h : Set k t0 r) (hx : ∀ x, k.expiry = some x → ¬ x ≤ k.time + dt) (t0') (ht : t0 ≤ t0') :
    Set { k with time := k.time + dt } t0' r := by
  rcases h with h | ⟨x, h1, h2, h3⟩
  · exact .inl h
  · have := hx x h1
    exact .inr ⟨x, h1, by simp only; omega, by omega⟩

theorem Due.tick {c b d k p dt} (h : Due c b d k p) (hx : ∀ x, k.expiry = some x → ¬ x ≤ k.time + dt) :
    Due c b d { k with time := k.time + dt } p := by
  cases p with
  | timed dl cap to =>
    obtain ⟨h5, r, h6, h7⟩ := h
    exact ⟨h5, r, h6.mono (Nat.le_add_right _ _), fun ht hr => (h7 ht hr).tick hx _ (Nat.le_add_right _ _)⟩
  | polling dl cap to t0 =>
    obtain ⟨h5, h5', r, h6, h7⟩ := h
    exact ⟨h5, Nat.le_trans h5' (Nat.le_add_right _ _), r, h6, fun ht => ⟨(h7 ht).1, fun hr => ((h7 ht).2 hr).tick hx _ (Nat.le_refl _)⟩⟩
  | sized dl cap to => obtain ⟨h5, r, h6⟩ := h; exact ⟨h5, r, h6.mono (Nat.le_add_right _ _)⟩
  | _ => exact h

theorem Due.fire {c b d k p dt} (h : Due c b d k p) :
    Due c b d { k with time := k.time + dt, expiry := none, ticks := true } p := by
  cases p with
  | timed dl cap to =>
    obtain ⟨h5, r, h6, h7⟩ := h
    exact ⟨h5, r, h6.mono (Nat.le_add_right _ _), fun _ _ => .inl rfl⟩
  | polling dl cap to t0 =>
    obtain ⟨h5, h5', r, h6, h7⟩ := h
    exact ⟨h5, Nat.le_trans h5' (Nat.le_add_right _ _), r, h6, fun ht => ⟨(h7 ht).1, fun _ => .inl rfl⟩⟩
  | sized dl cap to => obtain ⟨h5, r, h6⟩ := h; exact ⟨h5, r, h6.mono (Nat.le_add_right _ _)⟩
  | _ => exact h

theorem waitFail_due {c b d s cap e s' o} (heq : waitFail s (some d) cap e = (s', o)) (hne : ∀ e, o ≠ .waitErr e) :
    Due c b d s'.k s'.phase := by
  unfold waitFail at heq
  split at heq <;> cases heq
  · rfl
  · exact (hne _ rfl).elim

/-- Setting the timer to what is left. -/
theorem settime_set {b d k to r} (hd : d ≤ unixMaxNs) (h : Left b d k.time to r) (hr : r ≠ 0) :
    Set (EpollM.settime k (timerValue to)) k.time r := by
  obtain ⟨tc, h1, h2, rfl, rfl⟩ := h
  refine .inr ⟨k.time + (d - tc), ?_, by show k.time < _; omega, Nat.le_refl _⟩
  have hns := since_ns (t := tc) hd
  simp only [EpollM.settime, timerValue, Duration.asSecs, Duration.subsecNanos, hns]
  have : (d - tc) / 10 ^ 9 < 2 ^ 63 := by unfold unixMaxNs at hd; omega
  rw [u64AsI64, if_pos this]
  have h3 : ((((d - tc) / 10 ^ 9 : Nat) : Int) * 10 ^ 9 + (((d - tc) % 10 ^ 9 : Nat) : Int)) = ((d - tc : Nat) : Int) := by omega
  rw [h3, if_neg (by omega)]
  simp

theorem step_due {c : Cfg} {s s' : S} {a : Act} {o : Obs EventExtra} {b d} (hd : d ≤ unixMaxNs) (hb : b ≤ s.k.time)
    (h : Due c b d s.k s.phase) (hs : step c s a = some (s', o))
    (hok : ∀ n evs, o ≠ .waitOk n evs) (herr : ∀ e, o ≠ .waitErr e) : Due c b d s'.k s'.phase := by
  cases a with
  | add fd ev mode fault =>
    simp only [step] at hs
    split at hs; · cases hs
    next hi =>
    split at hs; · cases hs
    split at hs; · cases hs; exact h
    split at hs <;> next heq =>
      cases hs
      have := add_timer heq
      exact h.congr this.1 this.2.1 this.2.2 fun ht => (add_internal (ne_timer (by simpa using hi) ht) heq).1
  | modify fd ev mode fault =>
    simp only [step] at hs
    split at hs; · cases hs
    next hi =>
    split at hs; · cases hs
    split at hs; · cases hs; exact h
    split at hs <;> next heq =>
      cases hs
      have := modify_timer heq
      exact h.congr this.1 this.2.1 this.2.2 fun ht => (modify_internal (ne_timer (by simpa using hi) ht) heq).1
  | delete fd fault =>
    simp only [step] at hs
    split at hs; · cases hs
    next hi =>
    split at hs <;> next heq =>
      cases hs
      have := delete_timer heq
      exact h.congr this.1 this.2.1 this.2.2 fun ht => (delete_internal (ne_timer (by simpa using hi) ht) heq).1
  | notifyCas =>
    simp only [step] at hs
    split at hs
    · cases hs; exact h
    · split at hs <;> cases hs
      exact h
  | notifyWrite =>
    simp only [step] at hs
    split at hs <;> cases hs
    exact h.congr (by rw [link_eq]) (by rw [link_eq]) (by rw [link_eq]) fun _ => by rw [link_items]
  | waitBegin timeout cap =>
    simp only [step] at hs
    split at hs
    · next hp => rw [hp] at h; exact h.elim
    · cases hs
  | waitBusy =>
    simp only [step] at hs
    split at hs <;> cases hs
    exact h
  | compute =>
    simp only [step] at hs
    split at hs <;> cases hs
    next hp =>
      rw [hp] at h
      cases h
      exact ⟨rfl, d - s.k.time, s.k.time, hb, Nat.le_refl _, rfl, rfl⟩
  | settime fault =>
    simp only [step] at hs
    split at hs
    · next dl cap to hp =>
      rw [hp] at h
      obtain ⟨rfl, r, h1⟩ := h
      split at hs
      · split at hs
        · exact waitFail_due (Option.some.inj hs) herr
        · cases hs; exact ⟨rfl, r, h1, fun _ hr => settime_set hd h1 hr⟩
      · next ht => cases hs; exact ⟨rfl, r, h1, fun hh => absurd hh ht⟩
    · cases hs
  | armTimer fault =>
    simp only [step] at hs
    split at hs
    · next dl cap to hp =>
      rw [hp] at h
      obtain ⟨rfl, r, h1, h2⟩ := h
      split at hs
      · next ht =>
        rcases hm : EpollM.modify c fault s.k c.timerFd (Event.onlyReadable NOTIFY_KEY) .oneshot with ⟨rs, k⟩
        have hh := modify_timer hm
        rw [hm] at hs
        cases rs with
        | ok =>
          cases hs
          refine ⟨rfl, Nat.le_refl _, r, by simp only [hh.2.2]; exact h1, fun _ => ⟨?_, fun hr => ?_⟩⟩
          · rcases ctlMod_cases hm with ⟨_, _, rfl⟩ | ⟨⟨e, he⟩, _⟩
            · simp only [link_items, setItem_items, if_true]; rfl
            · cases he
          · have := h2 ht hr
            simp only [Set, hh.1, hh.2.1, hh.2.2]
            exact this
        | err e => exact waitFail_due (Option.some.inj hs) herr
      · next ht => cases hs; exact ⟨rfl, Nat.le_refl _, r, h1, fun hh => absurd hh ht⟩
    · cases hs
  | epollReturn =>
    simp only [step] at hs
    split at hs
    · next dl cap to t0 hp =>
      rw [hp] at h
      split at hs <;> cases hs
      exact h.1
    · cases hs
  | epollFail e =>
    simp only [step] at hs
    split at hs
    · next dl cap to t0 hp =>
      rw [hp] at h
      obtain ⟨rfl, _⟩ := h
      exact waitFail_due (Option.some.inj hs) herr
    · cases hs
  | clearRead =>
    simp only [step] at hs
    split at hs
    · next hp =>
      rw [hp] at h
      split at hs <;> cases hs
      · simp only [hp, Due]; exact h
      · exact h
    · cases hs
  | rearm fault =>
    simp only [step] at hs
    split at hs
    · next dl cap evs hp =>
      rw [hp] at h
      cases h
      split at hs
      · cases hs; exact (rfl : some d = some d)
      · next heq => exact waitFail_due (Option.some.inj hs) herr
    · cases hs
  | finish =>
    simp only [step] at hs
    split at hs <;> cases hs
    exact (hok _ _ rfl).elim
  | setReady fd flags key =>
    simp only [step] at hs
    split at hs; · cases hs
    split at hs; · cases hs
    cases hs
    exact h.congr (by rw [link_eq]) (by rw [link_eq]) (by rw [link_eq]) fun _ => by rw [link_items]
  | tick dt =>
    simp only [step] at hs
    split at hs
    · next he => cases hs; exact h.tick (by simp [he])
    · next x he =>
      split at hs
      · cases hs
        have := h.fire (dt := dt)
        simp only
        split
        · exact this.congr (by rw [link_eq]) (by rw [link_eq]) (by rw [link_eq]) fun _ => by rw [link_items]
        · exact this
      · next hle => cases hs; exact h.tick (by rintro y hy; rw [he] at hy; cases hy; exact hle)

theorem run_due {c : Cfg} {b d} (hd : d ≤ unixMaxNs) : ∀ (acts : List Act) {s s' : S} {obs}, Since b (some d) s → Due c b d s.k s.phase →
    runActs c s acts = some (s', obs) → (∀ n evs, .waitOk n evs ∉ obs) → (∀ e, .waitErr e ∉ obs) → Due c b d s'.k s'.phase := by
  intro acts
  induction acts with
  | nil => intro s s' obs _ h hr _ _; cases hr; exact h
  | cons a acts ih =>
    intro s s' obs h0 h hr h1 h2
    simp only [runActs, Option.bind_eq_some_iff, Option.map_eq_some_iff] at hr
    obtain ⟨⟨s1, o⟩, hs, ⟨s2, obs'⟩, hr, heq⟩ := hr
    cases heq
    have h3 : ∀ n evs, o ≠ .waitOk n evs := by rintro n evs rfl; exact h1 n evs (by simp)
    have h4 : ∀ e, o ≠ .waitErr e := by rintro e rfl; exact h2 e (by simp)
    exact ih (step_since h0 hs h3 h4) (step_due hd h0.1 h hs h3 h4) hr (fun n evs hm => h1 n evs (by simp [hm]))
      (fun e hm => h2 e (by simp [hm]))

/-- The timer has fired: `epoll_wait` can return at once. -/
theorem timer_ready {c : Cfg} {k : Kern} (hl : L c k) (hne : c.timerFd ≠ c.notifFd) (ht : c.hasTimer = true)
    (ha : k.items c.timerFd = some ⟨ARMED, NK⟩) (hc : k.ticks = true) {n : Nat} (hn : n > 0) : (harvest c k n).1 ≠ [] := by
  have hhot : hot (ready c k) k.items c.timerFd = true := by
    simp only [hot, rev, ha, ready, hne, ht, hc, if_false, and_self, if_true]; decide
  have hin : c.timerFd ∈ k.rdl := by
    refine hl.linked _ _ ha (by decide) ?_
    simp only [ready, hne, ht, hc, if_false, and_self, if_true]; decide
  obtain ⟨pre, rest, h1, h2, h3, h4, h5⟩ := harvest_spec hl n
  rw [h2]
  intro he
  rw [List.map_eq_nil_iff] at he
  rw [he] at h4
  rcases h4 with h4 | h4
  · subst h4
    rw [h1, List.append_nil] at hin
    have : c.timerFd ∈ pre.filter (hot (ready c k) k.items) := List.mem_filter.2 ⟨hin, hhot⟩
    rw [he] at this; cases this
  · simp at h4; omega

end Polling.EpollM
