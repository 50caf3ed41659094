import Verif.Proof.KqRun
import Verif.Proof.Cnt

/-! C04, C06, C35 and C39 (kqueue): notifications. -/

namespace Polling.C04
open KqM Kqueue KqSpec

/-- In every reachable state, for any number of threads and any interleaving of the single steps, and any failures of OS
calls other than the notifier's own: if a `wait` is blocked in `kevent` although a `notify` was called and returned after the last
`wait` that returned `Ok`, then `kevent` can return at once, or another `notify` call is in progress whose one
remaining system call makes it return.  For both notifiers (`EVFILT_USER` and the pair of sockets), and whatever the
kernel does with the mode of a knote that is added again. -/
theorem kqueue_notification_not_lost (c : Cfg) (hok : c.Ok) (s : S) (tr : List KObs) (h : Reach c Works s tr)
    (hw : owed tr = true) (t timed cap) (hpc : s.pc t = .wKev timed cap) :
    (∃ s' evs, step c s t .kevent = some (s', .deliver t evs)) ∨
    ∃ u a s1 o, u ≠ t ∧ pend (s.pc u) = true ∧ (a = .change none ∨ a = .write false) ∧ step c s u a = some (s1, o) ∧
      ∃ s' evs, step c s1 t .kevent = some (s', .deliver t evs) := by
  rcases reach_signalled h (.inr (.inl hw)) with hs | ⟨u, hu⟩ | ⟨u, hu⟩
  · obtain ⟨f, _, hq, hh⟩ := wakes hok h hpc hs
    exact .inl (kevent_enabled h hpc hq hh)
  · right
    have hut : u ≠ t := by rintro rfl; rw [hpc] at hu; cases hu
    have hun : u < c.threads := by
      by_cases ht : u < c.threads
      · exact ht
      · rw [reach_range h u (by omega)] at hu; cases hu
    have hge : ¬ u ≥ c.threads := by omega
    have hok' := reach_pcOk h u
    have fin : ∀ a s1 o, noFault a = true → (a = .change none ∨ a = .write false) → step c s u a = some (s1, o) →
        s1.pc t = s.pc t → signal c s1.k → ∃ u a s1 o, u ≠ t ∧ pend (s.pc u) = true ∧
          (a = .change none ∨ a = .write false) ∧ step c s u a = some (s1, o) ∧
          ∃ s' evs, step c s1 t .kevent = some (s', .deliver t evs) := by
      intro a s1 o hnf ha hs hpt hsig
      have h1 := Reach.step h (works_of hnf) hs
      have hp1 : s1.pc t = .wKev timed cap := by rw [hpt]; exact hpc
      obtain ⟨f, _, hq, hh⟩ := wakes hok h1 hp1 hsig
      exact ⟨u, a, s1, o, hut, hu, ha, hs, kevent_enabled h1 hp1 hq hh⟩
    cases hp : s.pc u with
    | nWrite =>
      rw [hp] at hok'
      have hcu : c.user = false := hok'
      have hs : step c s u (.write false) = some ({ s with
        k := activate { s.k with chan := s.k.chan + 1 } (.read c.notifFd)
        pc := upd s.pc u .out }, .notified u) := by unfold step; rw [if_neg hge]; simp only [hp]; rfl
      refine fin _ _ _ rfl (.inr rfl) hs (upd_other _ hut.symm) ?_
      unfold signal
      rw [if_neg (by simp [hcu]), activate_chan]; exact Nat.succ_pos _
    | submit w todo done =>
      rw [hp] at hu hok'
      cases w with
      | notify =>
        cases todo with
        | nil => cases hu
        | cons ev todo =>
          obtain ⟨rfl, rfl, rfl⟩ := notify_change hok'
          rcases hr : register c none s.k (userChange true) with ⟨errno, k⟩
          have hs : step c s u (.change none) = some ({ s with k, pc := upd s.pc u (.submit .notify [] ([] ++ [receipt (userChange true) errno])) },
              changeObs u (userChange true) errno) := by
            unfold step; rw [if_neg hge]; simp only [hp, hr]; simp
          refine fin _ _ _ rfl (.inl rfl) hs (upd_other _ hut.symm) ?_
          unfold signal
          have hcu : c.user = true := hok'.1
          rw [if_pos hcu]
          exact (knote_after (register_reg hr) rfl rfl).2.2.2 (.inr rfl)
      | call => cases hu
      | rearm => cases hu
    | _ => rw [hp] at hu; cases hu
  · exfalso
    have hl := reach_lib h
    have h1 : inWait (s.pc u) = true := by
      revert hu
      cases s.pc u <;> simp [post, inWait]
      next w todo done => cases w <;> simp
    have h2 : s.lib = some t := (hl t).2 (by rw [hpc]; rfl)
    have h3 := (hl u).2 h1
    rw [h2] at h3
    injection h3 with h3
    subst h3
    rw [hpc] at hu; cases hu

/-- Once `kevent` has returned, `wait` comes to its end by its own steps, resets the flag and empties the channel. -/
theorem kqueue_wait_ends (c : Cfg) (hok : c.Ok) (s : S) (tr : List KObs) (h : Reach c Works s tr) (t : Tid) :
    (∀ evs, s.pc t = .wFin evs → ∃ s', step c s t .finish = some (s', .waitOk t (visible evs).length (visible evs)) ∧
      s'.pc t = .out ∧ s'.notified = false ∧ s'.lib = none) ∧
    (∀ timed cap evs, s.pc t = .wClear timed cap evs → ∃ m s' obs,
      runActs c s (by_ t (List.replicate m (.read false) ++ [.src, .change none, .change none, .eval, .finish])) =
        some (s', .waitOk t (visible evs).length (visible evs) :: obs) ∧
      s'.pc t = .out ∧ s'.notified = false ∧ s'.lib = none ∧ s'.k.chan = 0) := by
  constructor
  · intro evs hpc
    have htn : ¬ t ≥ c.threads := by
      intro hge; rw [reach_range h t hge] at hpc; cases hpc
    refine ⟨{ s with notified := false, lib := none, pc := upd s.pc t .out }, ?_, upd_self _ _ _, rfl, rfl⟩
    unfold step; rw [if_neg htn]; simp only [hpc]
  · intro timed cap evs hpc
    have hu : c.user = false := by have := reach_pcOk h t; rw [hpc] at this; exact this.1
    obtain ⟨m, s', obs, h1, h2, h3, h4, h5, -⟩ := pair_ends hok hu h hpc
    exact ⟨m, s', obs, h1, by rw [h2, upd_self], h3, h4, h5⟩

/-- A poller with `EVFILT_USER`, on a kernel that keeps the mode of a knote that is added again. -/
def userCfg : Cfg := ⟨true, 3, fun _ => true, true, fun _ => false, fun _ => true, 3⟩
/-- A poller with a pair of sockets. -/
def pairCfg : Cfg := ⟨false, 3, fun _ => false, true, fun _ => false, fun _ => true, 3⟩

/-- The observations of a run from the start. -/
def trace (c : Cfg) (cond : Filter → Option Bool) (acts : List (Tid × Act)) : Option (List KObs) :=
  (runActs c (init c cond) acts).map Prod.snd

/-- A thread is blocked; a second one has set the flag but not yet triggered the knote; a third `notify` returns at
once, so a notification is owed.  Then the trigger, and the `wait` returns.  Without it, it does not. -/
example :
    trace userCfg (fun _ => none) [(0, .wait false 4), (1, .notifyCas), (2, .notifyCas), (1, .change none), (0, .kevent), (0, .finish)] =
      some [.waitOk 0 0 [], .deliver 0 [], .armed 1 (.user 0) (keyToU64 NOTIFY_KEY) false false, .notifySeen 2, .notifyBegin 1, .waitBegin 0] ∧
    trace userCfg (fun _ => none) [(0, .wait false 4), (1, .notifyCas), (2, .notifyCas), (0, .kevent)] = none ∧
    trace pairCfg (fun _ => none) [(0, .wait false 4), (1, .notifyCas), (2, .notifyCas), (0, .kevent)] = none ∧
    owed [.notifySeen 2, .notifyBegin 1, .waitBegin 0] = true ∧
    (trace pairCfg (fun _ => none) ([(0, .wait false 4), (1, .notifyCas), (2, .notifyCas), (1, .write false), (0, .kevent),
      (0, .read false), (0, .read false), (0, .src), (0, .change none), (0, .change none), (0, .eval), (0, .finish)])).map List.head? =
      some (some (.waitOk 0 0 [])) := by decide +kernel

end Polling.C04

namespace Polling.C39
open KqM Kqueue KqSpec C04

/-- The steps by which the notifier's own OS calls fail: the trigger or the write in `notify`. -/
def NotifyWorks (s : S) (t : Tid) (a : Act) : Prop :=
  match s.pc t, a with
  | .submit .notify _ _, .change fault => fault = none
  | .submit .notify _ _, .kfail _ => False
  | .nWrite, .write fail => fail = false
  | _, _ => True

/-- With `EVFILT_USER` a failed `wait` never disables `notify`: whatever else fails, and however often `wait` fails, an
owed notification wakes the waiting thread. -/
theorem kqueue_user_failed_wait (c : Cfg) (hok : c.Ok) (hu : c.user = true) (s : S) (tr : List KObs)
    (h : Reach c NotifyWorks s tr) (hw : owed tr = true) (t timed cap) (hpc : s.pc t = .wKev timed cap) :
    (∃ s' evs, step c s t .kevent = some (s', .deliver t evs)) ∨
    ∃ u a s1 o, u ≠ t ∧ pend (s.pc u) = true ∧ (a = .change none ∨ a = .write false) ∧ step c s u a = some (s1, o) ∧
      ∃ s' evs, step c s1 t .kevent = some (s', .deliver t evs) := by
  have h' : Reach c Works s tr := by
    clear hpc hw
    induction h with
    | init => exact .init _
    | @step s tr t a s' o hr hp hs ih =>
      refine .step ih ?_ hs
      have hpk := reach_pcOk ih t
      unfold Works
      unfold NotifyWorks at hp
      split
      · next h1 => rw [h1] at hp; exact hp
      · next h1 => rw [h1] at hp; exact hp
      · next h1 => rw [h1] at hpk; have := hpk.1.1; rw [hu] at this; cases this
      · next h1 => rw [h1] at hpk; have := hpk.1.1; rw [hu] at this; cases this
      · next h1 => rw [h1] at hp; exact hp
      · trivial
  exact kqueue_notification_not_lost c hok s tr h' hw t timed cap hpc

/-- A failing `kevent`, then a notification that is delivered by the next `wait`. -/
example : (trace userCfg (fun _ => none) [(0, .wait false 4), (1, .notifyCas), (0, .kfail (.os 12)), (1, .change none), (1, .eval),
      (2, .notifyCas), (0, .wait false 4), (0, .kevent), (0, .finish)]).map (List.take 5) =
    some [.waitOk 0 0 [], .deliver 0 [], .waitBegin 0, .notifySeen 2, .notified 1] := by decide +kernel

/-- The general case, as far as it is true: a failed `wait` does not disable `notify` unless it was the re-registration
of the pair of sockets that failed.  (This is `C04.kqueue_notification_not_lost`: `Works` restricts only the
notifier's own OS calls.)  Missing: that case, see `kqueue_pair_failed_wait_disables_notify`. -/
theorem kqueue_failed_wait_partial (c : Cfg) (hok : c.Ok) (s s1 s2 : S) (tr tr' : List KObs) (t u : Tid) (a : Act) (e : Err)
    (h : Reach c Works s tr) (hf : step c s t a = some (s1, .waitErr t e))
    (acts : List (Tid × Act)) (obs : List KObs) (hrun : runActs c s1 acts = some (s2, obs)) (hnf : Works s t a)
    (hacts : ∀ x ∈ acts, noFault x.2 = true) (htr : tr' = obs ++ .waitErr t e :: tr) (hw : owed obs = true)
    (timed cap) (hpc : s2.pc u = .wKev timed cap) :
    (∃ s' evs, step c s2 u .kevent = some (s', .deliver u evs)) ∨
    ∃ v a s3 o, v ≠ u ∧ pend (s2.pc v) = true ∧ (a = .change none ∨ a = .write false) ∧ step c s2 v a = some (s3, o) ∧
      ∃ s' evs, step c s3 u .kevent = some (s', .deliver u evs) := by
  subst htr
  have h1 := Reach.step h hnf hf
  have h2 := reach_runW h1 acts hacts s2 obs hrun
  refine kqueue_notification_not_lost c hok s2 _ h2 ?_ u timed cap hpc
  -- being owed after the failure is being owed
  have beg : ∀ (l m : List KObs) t, begun l t = true → begun (l ++ m) t = true := by
    intro l m t
    induction l with
    | nil => intro h; cases h
    | cons o l ih =>
      cases o <;> simp only [begun, List.cons_append] <;> first | exact ih | skip
      · simp only [Bool.or_eq_true]; exact fun h => h.imp id ih
      · exact id
  have : ∀ (l m : List KObs), owed l = true → owed (l ++ m) = true := by
    intro l m
    induction l with
    | nil => intro h; cases h
    | cons o l ih =>
      cases o <;> simp only [owed, List.cons_append] <;> first | exact ih | skip
      · simp only [Bool.or_eq_true]; exact fun h => h.imp (beg _ _ _) ih
      · exact id
      · exact id
  exact this _ _ hw

/-- The exception: when the re-registration of the pair of sockets fails, `wait` returns the error with `notified`
still set and the read side not watched.  A later `notify` returns without doing anything and a later `wait(None)` stays blocked:
a notification is owed, every other thread is idle, and `kevent` does not return. -/
theorem kqueue_pair_failed_wait_disables_notify :
    ∃ c s tr, c.Ok ∧ Reach c Any s tr ∧ owed tr = true ∧ s.pc 0 = .wKev false 4 ∧ (∀ t, t ≠ 0 → s.pc t = .out) ∧
      (∃ e tr', tr = [.waitBegin 0, .notifySeen 1, .waitErr 0 e] ++ tr') ∧ step c s 0 .kevent = none := by
  have hr : ((runActs pairCfg (init pairCfg fun _ => none) [(1, .notifyCas), (1, .write false), (0, .wait false 4), (0, .kevent), (0, .read false),
      (0, .read false), (0, .src), (0, .change (some 12)), (0, .change none), (0, .eval), (1, .notifyCas), (0, .wait false 4)]).map fun r =>
        (r.2, r.1.pc 0, r.1.pc 1, r.1.pc 2, r.1.k.queue)) =
      some ([.waitBegin 0, .notifySeen 1, .waitErr 0 (.os 12), .refused 0 (.write 3) 2, .refused 0 (.read 3) 12, .tau, .tau, .tau, .deliver 0 [],
        .waitBegin 0, .notified 1, .notifyBegin 1], .wKev false 4, .out, .out, []) := by decide +kernel
  rw [Option.map_eq_some_iff] at hr
  obtain ⟨⟨s, o⟩, hr, he⟩ := hr
  simp only [Prod.mk.injEq] at he
  obtain ⟨rfl, hp0, hp1, hp2, hq⟩ := he
  have hreach := reach_run (.init _) _ _ _ hr
  rw [List.append_nil] at hreach
  refine ⟨pairCfg, s, _, fun fd => ⟨rfl, rfl⟩, hreach, by decide, hp0, ?_, ⟨_, _, rfl⟩, ?_⟩
  · intro t ht
    by_cases h3 : t ≥ pairCfg.threads
    · exact reach_range hreach t h3
    · have : t < 3 := by simpa [pairCfg] using h3
      match t, this with
      | 0, _ => exact absurd rfl ht
      | 1, _ => exact hp1
      | 2, _ => exact hp2
  · have : harvest pairCfg s.k 4 = ([], { s.k with queue := [] }) := by
      unfold harvest; rw [hq]; simp [scan]
    unfold step
    rw [if_neg (by decide)]
    simp only [hp0, this]
    simp

end Polling.C39

namespace Polling.C35
open KqM Kqueue KqSpec

/-- Reading the notification away does not fail while there are bytes. -/
def Drains (_ : S) (_ : Tid) (a : Act) : Prop := a ≠ .read true

/-- About to write, or past the clearing of the channel. -/
def uses : Pc → Bool
  | .nWrite | .wHas _ _ _ | .wFin _ | .submit (.rearm _ _ _) _ _ => true
  | _ => false

def kqMayWrite (s : S) : Nat := if s.notified then 0 else 1

/-- The number of bytes in the channel of a poller with a pair of sockets never exceeds the number of threads plus one,
however many notifications are made; and when a thread is about to write it is at most the number of threads. -/
theorem kqueue_channel_bounded (c : Cfg) (hu : c.user = false) (s : S) (tr : List KObs) (h : Reach c Drains s tr) :
    s.k.chan ≤ c.threads + 1 ∧ ∀ t, s.pc t = .nWrite → s.k.chan ≤ c.threads := by
  have key : s.k.chan + kqMayWrite s + cnt c.threads uses s.pc ≤ c.threads + 1 := by
    induction h with
    | init cond =>
      have h1 : (init c cond).k.chan = 0 := by
        unfold init
        rw [if_neg (by simp [hu])]
        simp only [fdChanges, List.foldl]
        rw [(reg_env (register_reg (Prod.eta _).symm)).2, (reg_env (register_reg (Prod.eta _).symm)).2]
      have h2 : (init c cond).pc = fun _ => .out := by unfold init; split <;> rfl
      have h3 : cnt c.threads uses (fun _ : Tid => Pc.out) = 0 := by
        by_cases h0 : cnt c.threads uses (fun _ : Tid => Pc.out) = 0
        · exact h0
        · obtain ⟨_, _, h⟩ := cnt_pos.1 (Nat.pos_of_ne_zero h0); cases h
      rw [h1, h2, h3]
      unfold kqMayWrite; split <;> omega
    | @step s tr t a s' o hr hd hs ih =>
      obtain ⟨ht, hn⟩ := step_next hs
      have hcu := fun p => cnt_upd uses s.pc ht p
      have hle := fun p => cnt_le c.threads uses (upd s.pc t p)
      have hpk := reach_pcOk hr t
      unfold kqMayWrite at ih ⊢
      have same : ∀ {k : Kern} {p : Pc} {l src}, k.chan = s.k.chan → uses p = uses (s.pc t) ∨ uses p = false →
          (⟨k, src, s.notified, l, upd s.pc t p⟩ : S).k.chan + (if s.notified then 0 else 1) +
            cnt c.threads uses (upd s.pc t p) ≤ c.threads + 1 := by
        intro k p l src hk hp
        have := hcu p
        simp only [hk]
        have e : cnt c.threads uses (upd s.pc t p) ≤ cnt c.threads uses s.pc := by
          unfold upd
          rcases hp with hp | hp
          · rw [hp] at this; omega
          · rw [hp] at this; simp at this; omega
        omega
      cases hn with
      | reject => exact ih
      | panic0 => exact ih
      | kevRetry => exact ih
      | casSeen => exact ih
      | waitBusy => exact ih
      | raise => simp only [activate_chan]; exact ih
      | fall => exact ih
      | read => simp only; omega
      | @begin call hp => exact same rfl (.inr (by cases call <;> rfl))
      | dup hp => exact same rfl (.inr rfl)
      | inserted hp => exact same rfl (.inr rfl)
      | missing hp => exact same rfl (.inr rfl)
      | panic hp => exact same rfl (.inr rfl)
      | has hp => exact same rfl (.inr rfl)
      | removed hp => exact same rfl (.inr rfl)
      | ended hp => exact same rfl (.inr rfl)
      | wMissing hp => exact same rfl (.inr rfl)
      | wHas hp => exact same rfl (.inl (by rw [hp]; rfl))
      | @change fault w ev todo done errno k hp hf hr => exact same (reg_env (register_reg hr)).2 (.inl (by rw [hp]; cases w <;> rfl))
      | finCall => exact same rfl (.inr rfl)
      | finDelete => exact same rfl (.inr rfl)
      | finNotify => exact same rfl (.inr rfl)
      | finRearm hf => exact same rfl (.inl (by obtain ⟨_, _, hp⟩ := hf.pc; rw [hp]; rfl))
      | rearmRetry => exact same rfl (.inr rfl)
      | rearmErr => exact same rfl (.inr rfl)
      | kevErr => exact same rfl (.inr rfl)
      | casUser _ _ h1 => rw [hu] at h1; cases h1
      | casPair hp hno =>
        have := hcu .nWrite
        simp only [hp, uses, Bool.toNat_false, Bool.toNat_true, hno, Bool.false_eq_true, if_false] at this ih ⊢
        unfold upd
        simp only [if_true]
        omega
      | writeFail => exact same rfl (.inr rfl)
      | write hp =>
        have := hcu .out
        simp only [hp, uses, Bool.toNat_false, Bool.toNat_true, activate_chan] at this ih ⊢
        unfold upd
        omega
      | waitBegin => exact same rfl (.inr rfl)
      | @kevent timed cap evs k hp hh =>
        have hch : k.chan = s.k.chan := by
          unfold harvest at hh; injection hh with _ h2; rw [← h2]
        exact same hch (.inr (by rw [hu]; rfl))
      | @readEnd timed cap evs fail hp hch =>
        rcases hch with hch | rfl
        · have := hle (.wHas timed cap evs)
          simp only [hch]
          split <;> omega
        · exact absurd rfl hd
      | finish hp =>
        have := hcu .out
        simp only [hp, uses, Bool.toNat_false, Bool.toNat_true, Bool.false_eq_true, if_false] at this ih ⊢
        unfold upd
        omega
  refine ⟨by omega, fun t hp => ?_⟩
  have htn : t < c.threads := by
    by_cases ht : t < c.threads
    · exact ht
    · rw [reach_range h t (by omega)] at hp; cases hp
  have : cnt c.threads uses s.pc > 0 := cnt_pos.2 ⟨t, htn, by rw [hp]; rfl⟩
  omega

/-- Two threads notify: one during the end of a `wait`, then, after it has reset the flag, another one. -/
example : (runActs C04.pairCfg (init C04.pairCfg fun _ => none) [(0, .wait true 4), (0, .kevent), (0, .read false), (1, .notifyCas),
    (0, .src), (0, .change none), (0, .change none), (0, .eval), (0, .finish), (2, .notifyCas), (1, .write false), (2, .write false)]).map
    (fun r => r.1.k.chan) = some 2 := by decide +kernel

end Polling.C35
