import Verif.Model.Buffers

/-! C38: `wait` replaces the content of the buffer and respects its capacity. -/

namespace Polling.C38
open Buffers Lib

variable {X W : Type}

/-- What a backend's `wait` does depends on the buffer only through its capacity; in particular not on what is in it.  The
result, the effect on the world, and - if it succeeds - the events left in the buffer are the same; the capacity does not
shrink. -/
def Replaces {Buf : Type} (cap : Buf → Nat) (iter : Buf → List (Event X)) (wait : W → Buf → Option Duration → Res × W × Buf) : Prop :=
  ∀ w b b' t, cap b = cap b' →
    (wait w b t).1 = (wait w b' t).1 ∧ (wait w b t).2.1 = (wait w b' t).2.1 ∧ cap (wait w b t).2.2 = cap (wait w b' t).2.2 ∧
    cap b ≤ cap (wait w b t).2.2 ∧ ((wait w b t).1 = .ok → iter (wait w b t).2.2 = iter (wait w b' t).2.2)

/-- epoll -/
theorem epoll_replaces (os : Os X W) : Replaces (fun v : Vec (Event X) => v.cap) (fun v => v.data) (epollWait os) := by
  intro w b b' t hc
  obtain ⟨d, c⟩ := b
  obtain ⟨d', c'⟩ := b'
  dsimp only at hc
  subst hc
  unfold epollWait
  simp only [Vec.clear]
  repeat' split
  all_goals simp

/-- kqueue -/
theorem kqueue_replaces (os : Os X W) : Replaces (fun v : Vec (Event X) => v.cap) (fun v => v.data) (kqueueWait os) := by
  intro w b b' t hc
  obtain ⟨d, c⟩ := b
  obtain ⟨d', c'⟩ := b'
  dsimp only at hc
  subst hc
  unfold kqueueWait
  repeat' split
  all_goals simp_all

/-- event ports -/
theorem port_replaces (os : Os X W) : Replaces (fun v : Vec (Event X) => v.cap) (fun v => v.data) (portWait os) := by
  intro w b b' t hc
  obtain ⟨d, c⟩ := b
  obtain ⟨d', c'⟩ := b'
  dsimp only at hc
  subst hc
  unfold portWait
  simp only [Vec.clear]
  repeat' split
  all_goals simp

theorem room_le (grow : Nat → Nat → Nat) (hg : ∀ old need, old < need → need ≤ grow old need) {α : Type} (v : Vec α) (n : Nat) :
    v.cap ≤ (v.room grow n).cap ∧ n ≤ (v.room grow n).cap ∧ (v.room grow n).data = v.data ∧ (n ≤ v.cap → (v.room grow n) = v) := by
  unfold Vec.room
  split
  · next h => exact ⟨Nat.le_refl _, h, rfl, fun _ => rfl⟩
  · next h =>
    have := hg v.cap n (by omega)
    exact ⟨by dsimp only; omega, this, rfl, fun h' => absurd h' h⟩

theorem pushes (grow : Nat → Nat → Nat) (hg : ∀ old need, old < need → need ≤ grow old need) {α : Type} (l : List α) (v : Vec α) :
    (l.foldl (fun v x => v.push grow x) v).data = v.data ++ l ∧ v.cap ≤ (l.foldl (fun v x => v.push grow x) v).cap ∧
    (v.data.length + l.length ≤ v.cap → (l.foldl (fun v x => v.push grow x) v).cap = v.cap) := by
  induction l generalizing v with
  | nil => exact ⟨by simp, Nat.le_refl _, fun _ => rfl⟩
  | cons x l ih =>
    rw [List.foldl_cons]
    obtain ⟨h1, h2, h3⟩ := ih (v.push grow x)
    obtain ⟨r1, r2, r3, r4⟩ := room_le grow hg v (v.data.length + 1)
    have hd : (v.push grow x).data = v.data ++ [x] := by unfold Vec.push; dsimp only; rw [r3]
    have hc : (v.push grow x).cap = (v.room grow (v.data.length + 1)).cap := rfl
    refine ⟨by rw [h1, hd]; simp, by omega, fun hl => ?_⟩
    rw [List.length_cons] at hl
    have := r4 (by omega)
    rw [h3 (by rw [hd, hc, this]; simp; omega), hc, this]

/-- poll -/
theorem poll_replaces (grow : Nat → Nat → Nat) (hg : ∀ old need, old < need → need ≤ grow old need) (poll : W → Option Duration → Polled X × W) :
    Replaces (fun v : Vec (Event X) => v.cap) (fun v => v.data) (pollWait grow poll) := by
  intro w b b' t hc
  obtain ⟨d, c⟩ := b
  obtain ⟨d', c'⟩ := b'
  dsimp only at hc
  subst hc
  unfold pollWait
  simp only [Vec.clear]
  split
  · simp
  · next n l w' hp =>
    split
    · refine ⟨trivial, trivial, trivial, ?_, fun _ => trivial⟩
      have h1 := (room_le grow hg (⟨[], c⟩ : Vec (Event X)) (0 + n)).1
      exact Nat.le_trans h1 (pushes grow hg (l.take n) _).2.1
    · simp

theorem iocpFeed_grows (grow : Nat → Nat → Nat) (hg : ∀ old need, old < need → need ≤ grow old need) (l : List (Fed X)) :
    ∀ (v : Vec (Event X)) nt new, v.cap ≤ (iocpFeed grow l v nt new).2.cap := by
  induction l with
  | nil => intro v nt new; exact Nat.le_refl _
  | cons x l ih =>
    intro v nt new
    cases x with
    | noEvent => exact ih v nt new
    | notified => exact ih v true new
    | failed e => exact Nat.le_refl _
    | event ev =>
      have h1 := (pushes grow hg [ev] v).2.1
      exact Nat.le_trans h1 (ih _ nt (new + 1))

theorem iocpLoop_grows (grow : Nat → Nat → Nat) (hg : ∀ old need, old < need → need ≤ grow old need) (ccap : Nat)
    (round : W → Nat → Except Err (List (Fed X)) × W) (expired : W → Bool) (fuel : Nat) :
    ∀ w (v : Vec (Event X)) nt r w' v', iocpLoop grow ccap round expired fuel w v nt = some (r, w', v') → v.cap ≤ v'.cap := by
  induction fuel with
  | zero => intro w v nt r w' v' h; cases h
  | succ fuel ih =>
    intro w v nt r w' v' h
    unfold iocpLoop at h
    split at h
    · cases h; exact Nat.le_refl _
    · next l w1 _ =>
      have hf := iocpFeed_grows grow hg l v nt 0
      split at h
      · next e v1 he => cases h; rw [he] at hf; exact hf
      · next nt1 new v1 he =>
        rw [he] at hf
        split at h
        · cases h; exact hf
        · exact Nat.le_trans hf (ih _ _ _ _ _ _ h)

/-- IOCP (for any number of rounds after which the loop ends): the content of the buffer has no influence at all, and the
capacity does not shrink. -/
theorem iocp_replaces (grow : Nat → Nat → Nat) (hg : ∀ old need, old < need → need ≤ grow old need) (ccap fuel : Nat)
    (round : Option Duration → W → Nat → Except Err (List (Fed X)) × W) (expired : Option Duration → W → Bool) (w : W) (b b' : Vec (Event X)) (t) (hc : b.cap = b'.cap) :
    iocpWait grow ccap fuel round expired w b t = iocpWait grow ccap fuel round expired w b' t ∧
    ∀ r w' v, iocpWait grow ccap fuel round expired w b t = some (r, w', v) → b.cap ≤ v.cap := by
  constructor
  · unfold iocpWait Vec.clear; rw [hc]
  · intro r w' v h
    have := iocpLoop_grows grow hg ccap (round t) (expired t) fuel w _ false r w' v h
    exact this

/-- The portable `wait` over such a backend: the same calls with buffers that differ only in their content return the same
result and leave the same events and the same poller; retries after interruptions included. -/
theorem wait_replaces {sys : Sys X} (cap : sys.Buf → Nat) (hr : Replaces cap sys.iter sys.wait) (hcl : ∀ b, cap (sys.clear b) = cap b)
    (maxNs fuel : Nat) (p : Poller sys) (b b' : sys.Buf) (t : Option Duration) (hl : p.locked = false) (hc : cap b = cap b') (out : WaitOut sys)
    (h : Lib.wait maxNs fuel p b t = some out) :
    ∃ out', Lib.wait maxNs fuel p b' t = some out' ∧ out'.res = out.res ∧ out'.p = out.p ∧ cap b ≤ cap out.buf ∧ cap out'.buf = cap out.buf ∧
      (∀ n, out.res = .ok n → eventsIter sys out'.buf = eventsIter sys out.buf) := by
  have loop : ∀ (dl : Option Nat) (fuel : Nat) (p : Poller sys) (b b' : sys.Buf) (calls calls' : List (Call sys)) (out : WaitOut sys), cap b = cap b' →
      waitLoop dl fuel p b calls = some out →
      ∃ out', waitLoop dl fuel p b' calls' = some out' ∧ out'.res = out.res ∧ out'.p = out.p ∧ cap b ≤ cap out.buf ∧ cap out'.buf = cap out.buf ∧
        (∀ n, out.res = .ok n → eventsIter sys out'.buf = eventsIter sys out.buf) := by
    intro dl fuel
    induction fuel with
    | zero => intro p b b' calls calls' out _ h; cases h
    | succ fuel ih =>
      intro p b b' calls calls' out hc h
      unfold waitLoop at h ⊢
      have key : ∀ (now : Option Nat) (timeout : Option Duration) (w : sys.W),
          (match sys.wait w b timeout with
            | (.err e, w, buf) => if e = .interrupted then waitLoop dl fuel { p with w } (sys.clear buf) (calls ++ [⟨now, timeout, b⟩])
              else some ⟨.err e, { p with w }, buf, calls ++ [⟨now, timeout, b⟩]⟩
            | (.ok, w, buf) => some ⟨.ok (eventsLen sys buf), { p with w, notified := false }, buf, calls ++ [⟨now, timeout, b⟩]⟩) = some out →
          ∃ out', (match sys.wait w b' timeout with
            | (.err e, w, buf) => if e = .interrupted then waitLoop dl fuel { p with w } (sys.clear buf) (calls' ++ [⟨now, timeout, b'⟩])
              else some ⟨.err e, { p with w }, buf, calls' ++ [⟨now, timeout, b'⟩]⟩
            | (.ok, w, buf) => some ⟨.ok (eventsLen sys buf), { p with w, notified := false }, buf, calls' ++ [⟨now, timeout, b'⟩]⟩) = some out' ∧
            out'.res = out.res ∧ out'.p = out.p ∧ cap b ≤ cap out.buf ∧ cap out'.buf = cap out.buf ∧
            (∀ n, out.res = .ok n → eventsIter sys out'.buf = eventsIter sys out.buf) := by
        intro now timeout w hm
        obtain ⟨e1, e2, e3, e4, e5⟩ := hr w b b' timeout hc
        rcases hw : sys.wait w b timeout with ⟨r, w1, b1⟩
        rcases hw' : sys.wait w b' timeout with ⟨r', w1', b1'⟩
        rw [hw, hw'] at e1 e2 e3 e5
        rw [hw] at e4
        dsimp only at e1 e2 e3 e4 e5
        subst e1 e2
        rw [hw] at hm
        cases r with
        | ok =>
          have e5 := e5 rfl
          dsimp only at hm ⊢
          obtain rfl := Option.some.inj hm
          refine ⟨_, rfl, ?_, rfl, e4, e3.symm, fun _ _ => ?_⟩
          · dsimp only; unfold eventsLen eventsIter; rw [e5]
          · unfold eventsIter; dsimp only; rw [e5]
        | err e =>
          dsimp only at hm ⊢
          split at hm
          · next hi =>
            rw [if_pos hi]
            obtain ⟨out', g1, g2, g3, g4, g5, g6⟩ := ih _ _ (sys.clear b1') _ (calls' ++ [⟨now, timeout, b'⟩]) _ (by rw [hcl, hcl]; exact e3) hm
            exact ⟨out', g1, g2, g3, by rw [hcl] at g4; omega, g5, g6⟩
          · next hi =>
            rw [if_neg hi]
            obtain rfl := Option.some.inj hm
            exact ⟨_, rfl, rfl, rfl, e4, e3.symm, nofun⟩
      cases dl with
      | none => exact key none none p.w h
      | some d => exact key _ _ _ h
  unfold Lib.wait at h ⊢
  rw [hl] at h ⊢
  dsimp only at h ⊢
  cases t with
  | none => exact loop none fuel p b b' [] [] out hc h
  | some t => exact loop _ fuel _ b b' [] [] out hc h

/-- epoll, kqueue, event ports: a successful `wait` leaves exactly the events the OS reported to it (none if it timed out),
no more than the buffer has room for. -/
theorem exactly_reported (os : Os X W) (hos : os.Ok) (w w' : W) (v v' : Vec (Event X)) (t : Option Duration) :
    (epollWait os w v t = (.ok, w', v') → ∃ w1 w2, os.get w1 v.cap t = (.ok v'.data, w2) ∧ v'.cap = v.cap ∧ v'.data.length ≤ v'.cap) ∧
    (kqueueWait os w v t = (.ok, w', v') → ∃ w2, os.get w v.cap t = (.ok v'.data, w2) ∧ v'.cap = v.cap ∧ v'.data.length ≤ v'.cap) ∧
    (portWait os w v t = (.ok, w', v') → v'.cap = v.cap ∧ v'.data.length ≤ v'.cap ∧
      (os.get w v.cap t = (.ok v'.data, w') ∨ (os.get w v.cap t = (.error ETIME, w') ∧ v'.data = []))) := by
  refine ⟨?_, ?_, ?_⟩
  · intro h
    unfold epollWait at h
    split at h
    · cases h
    · next w1 hp =>
      dsimp only [Vec.clear] at h
      split at h
      · cases h
      · next l w2 hg =>
        have := hos _ _ _ _ _ hg
        injection h with h1 h2
        injection h2 with h2 h3
        subst h3
        exact ⟨w1, w2, hg, rfl, this⟩
  · intro h
    unfold kqueueWait at h
    split at h
    · cases h
    · next l w2 hg =>
      have := hos _ _ _ _ _ hg
      injection h with h1 h2
      injection h2 with h2 h3
      subst h3
      exact ⟨w2, hg, rfl, this⟩
  · intro h
    unfold portWait at h
    dsimp only [Vec.clear] at h
    split at h
    · next e w2 hg =>
      split at h
      · next he => cases h; subst he; exact ⟨rfl, Nat.zero_le _, .inr ⟨hg, rfl⟩⟩
      · cases h
    · next l w2 hg =>
      have := hos _ _ _ _ _ hg
      cases h
      exact ⟨rfl, this, .inl hg⟩

/-- poll: a successful `wait` leaves exactly the events that were found, all of them (there are `num_fd_events`,
`C14.poll_wait_reports_exactly`), the buffer growing if necessary; it leaves none if it returns early. -/
theorem poll_exactly_found (grow : Nat → Nat → Nat) (hg : ∀ old need, old < need → need ≤ grow old need) (poll : W → Option Duration → Polled X × W)
    (w w' : W) (v v' : Vec (Event X)) (t : Option Duration) (h : pollWait grow poll w v t = (.ok, w', v')) :
    (∃ r, poll w t = (.returned r, w') ∧ v'.data = []) ∨
    (∃ n l, poll w t = (.events n l, w') ∧ v'.data = l.take n ∧ (l.length = n → v'.data = l) ∧ (n ≤ v.cap → v'.cap = v.cap)) := by
  unfold pollWait at h
  dsimp only [Vec.clear] at h
  split at h
  · next r w1 hp => cases h; exact .inl ⟨_, hp, rfl⟩
  · next n l w1 hp =>
    have hk : ∀ m, (⟨[], v.cap⟩ : Vec (Event X)).reserve grow m = (⟨[], v.cap⟩ : Vec (Event X)).room grow m := by
      intro m; unfold Vec.reserve; simp
    split at h
    · cases h
      have h1 := pushes grow hg (l.take n) ((⟨[], v.cap⟩ : Vec (Event X)).reserve grow n)
      have h2 := room_le grow hg (⟨[], v.cap⟩ : Vec (Event X)) n
      rw [hk] at h1 ⊢
      have hd : (List.foldl (fun v x => Vec.push grow v x) ((⟨[], v.cap⟩ : Vec (Event X)).room grow n) (l.take n)).data = l.take n := by
        rw [h1.1, h2.2.2.1]; rfl
      refine .inr ⟨n, l, hp, hd, fun hl => ?_, fun hn => ?_⟩
      · rw [hd, ← hl, List.take_length]
      · rw [h1.2.2 ?_, h2.2.2.2 hn]
        rw [h2.2.2.2 hn, List.length_take]
        simp only [List.length_nil]
        omega
    · next hn =>
      have : n = 0 := by omega
      subst this
      cases h
      exact .inr ⟨0, l, hp, by simp, fun hl => (List.length_eq_zero_iff.1 hl).symm, fun _ => rfl⟩

theorem iocpFeed_data (grow : Nat → Nat → Nat) (hg : ∀ old need, old < need → need ≤ grow old need) (l : List (Fed X)) :
    ∀ (v : Vec (Event X)) nt new, (iocpFeed grow l v nt new).2.data.length ≤ v.data.length + l.length ∧
      (v.data.length + l.length ≤ v.cap → (iocpFeed grow l v nt new).2.cap = v.cap) ∧
      (∀ nt' new' v', iocpFeed grow l v nt new = (.ok (nt', new'), v') →
        v'.data = v.data ++ l.filterMap (fun x => match x with | .event ev => some ev | _ => none) ∧
        new' + v.data.length = new + v'.data.length) := by
  induction l with
  | nil =>
    intro v nt new
    exact ⟨Nat.le_refl _, fun _ => rfl, fun nt' new' v' h => by cases h; simp⟩
  | cons x l ih =>
    intro v nt new
    rw [List.length_cons]
    cases x with
    | noEvent =>
      obtain ⟨h1, h2, h3⟩ := ih v nt new
      exact ⟨by show _ ≤ _; simp only [iocpFeed]; omega, fun h => h2 (by omega), fun nt' new' v' h => h3 nt' new' v' h⟩
    | notified =>
      obtain ⟨h1, h2, h3⟩ := ih v true new
      exact ⟨by simp only [iocpFeed]; omega, fun h => h2 (by omega), fun nt' new' v' h => h3 nt' new' v' h⟩
    | failed e => exact ⟨by simp only [iocpFeed]; omega, fun _ => rfl, fun nt' new' v' h => by cases h⟩
    | event ev =>
      obtain ⟨h1, h2, h3⟩ := ih (v.push grow ev) nt (new + 1)
      have hp := pushes grow hg [ev] v
      have hd : (v.push grow ev).data = v.data ++ [ev] := hp.1
      rw [hd, List.length_append, List.length_singleton] at h1 h2 h3
      refine ⟨by simp only [iocpFeed]; omega, fun h => ?_, fun nt' new' v' h => ?_⟩
      · have hcap : (v.push grow ev).cap = v.cap := hp.2.2 (by simp; omega)
        show (iocpFeed grow l (v.push grow ev) nt (new + 1)).2.cap = v.cap
        rw [h2 (by rw [hcap]; omega), hcap]
      · obtain ⟨g1, g2⟩ := h3 nt' new' v' h
        refine ⟨by rw [g1]; simp, by omega⟩

/-- IOCP: if the OS returns no more completions than asked for, and the two vectors have the same capacity (they are created
with the same one), the vector of events never has to grow: no batch exceeds what the buffer can hold.  A successful `wait`
leaves exactly the events of its last round. -/
theorem iocp_capacity (grow : Nat → Nat → Nat) (hg : ∀ old need, old < need → need ≤ grow old need) (fuel : Nat)
    (round : Option Duration → W → Nat → Except Err (List (Fed X)) × W) (expired : Option Duration → W → Bool) (v : Vec (Event X))
    (hos : ∀ t w l w', round t w v.cap = (.ok l, w') → l.length ≤ v.cap) (w w' : W) (t : Option Duration) (r : Res) (v' : Vec (Event X))
    (h : iocpWait grow v.cap fuel round expired w v t = some (r, w', v')) :
    v'.cap = v.cap ∧ v'.data.length ≤ v.cap ∧
    (r = .ok → ∃ w1 l w2, round t w1 v.cap = (.ok l, w2) ∧ v'.data = l.filterMap (fun x => match x with | .event ev => some ev | _ => none)) := by
  unfold iocpWait at h
  have loop : ∀ (fuel : Nat) (w : W) (b : Vec (Event X)) nt, b.cap = v.cap → b.data = [] → iocpLoop grow v.cap (round t) (expired t) fuel w b nt = some (r, w', v') →
      v'.cap = v.cap ∧ v'.data.length ≤ v.cap ∧
      (r = .ok → ∃ w1 l w2, round t w1 v.cap = (.ok l, w2) ∧ v'.data = l.filterMap (fun x => match x with | .event ev => some ev | _ => none)) := by
    intro fuel
    induction fuel with
    | zero => intro w b nt _ _ h; cases h
    | succ fuel ih =>
      intro w b nt hb hd h
      unfold iocpLoop at h
      split at h
      · cases h
        exact ⟨hb, by rw [hd]; exact Nat.zero_le _, nofun⟩
      · next l w1 hrd =>
        have hlen := hos _ _ _ _ hrd
        obtain ⟨f1, f2, f3⟩ := iocpFeed_data grow hg l b nt 0
        rw [hd, List.length_nil, Nat.zero_add, hb] at f2
        rw [hd, List.length_nil, Nat.zero_add] at f1
        have f2 := f2 hlen
        split at h
        · next e v1 he =>
          rw [he] at f1 f2
          cases h
          exact ⟨f2, by dsimp only at f1; omega, nofun⟩
        · next nt1 new v1 he =>
          have f3 := f3 nt1 new v1 he
          rw [he] at f1 f2
          dsimp only at f1 f2
          rw [hd, List.nil_append] at f3
          split at h
          · cases h
            exact ⟨f2, by omega, fun _ => ⟨w, l, w', hrd, f3.1⟩⟩
          · next hno =>
            simp only [Bool.or_eq_true, decide_eq_true_eq, not_or] at hno
            refine ih w1 v1 nt1 f2 ?_ h
            have := f3.2
            rw [List.length_nil] at this
            exact List.length_eq_zero_iff.1 (by omega)
  exact loop fuel w v.clear false rfl rfl h

/-- The port of IOCP: what was in the buffer before does not matter; an OS that stores no more entries than asked for never
overruns it; the number returned is the number of entries in the buffer, and these are the ones that the OS has stored; a
timeout counts as no entries, and after an error there are none either. -/
theorem iocp_port_replaces {α : Type} (get : W → Nat → Nat → Except Err (List α) × W)
    (hos : ∀ w n ms l w', get w n ms = (.ok l, w') → l.length ≤ n) (w w' : W) (v v' : Vec α) (t : Option Duration) (r : Except Err Nat)
    (h : iocpPortWait get w v t = some (r, w', v')) :
    iocpPortWait get w v.clear t = some (r, w', v') ∧ v'.cap = v.cap ∧ v'.data.length ≤ v'.cap ∧
    (∀ n, r = .ok n → n = v'.data.length ∧ (v'.data ≠ [] → get w v.cap (iocpTimeoutMs t) = (.ok v'.data, w'))) ∧
    (∀ l w1, get w v.cap (iocpTimeoutMs t) = (.ok l, w1) → v'.data = l ∧ w' = w1) ∧
    (∀ w1, get w v.cap (iocpTimeoutMs t) = (.error WAIT_TIMEOUT, w1) → r = .ok 0 ∧ v'.data = []) ∧
    (∀ e, r = .error e → v'.data = []) := by
  refine ⟨h, ?_⟩
  unfold iocpPortWait at h
  dsimp only [Vec.clear] at h
  unfold tryInto at h
  split at h
  · cases h
  · next n hn =>
    split at hn
    · cases hn
      split at h
      · next e w1 hg =>
        cases h
        refine ⟨rfl, Nat.zero_le _, ?_, ?_, ?_, ?_⟩
        · intro n hr
          split at hr
          · cases hr
            exact ⟨rfl, fun hc => absurd rfl hc⟩
          · cases hr
        · intro l w1 h2
          rw [hg] at h2
          cases h2
        · intro w1 h2
          rw [hg] at h2
          cases h2
          exact ⟨if_pos rfl, rfl⟩
        · exact fun _ _ => rfl
      · next l w1 hg =>
        cases h
        refine ⟨rfl, hos _ _ _ _ _ hg, ?_, ?_, ?_, nofun⟩
        · intro n hr
          cases hr
          exact ⟨rfl, fun _ => hg⟩
        · intro l w1 h2
          rw [hg] at h2
          cases h2
          exact ⟨rfl, rfl⟩
        · intro w1 h2
          rw [hg] at h2
          cases h2
    · cases hn

/-- Three entries are queued, there is room for two, and an old one is in the buffer. -/
example : iocpPortWait (fun w n _ => (.ok (w.take n), w.drop n)) [1, 2, 3] (⟨[9], 2⟩ : Vec Nat) none = some (.ok 2, [3], ⟨[1, 2], 2⟩) :=
  rfl

/-- `Events::capacity` never panics: a buffer is created with a capacity of at least one (`NonZeroUsize`), and no `wait`
makes it smaller (`Replaces`, `iocp_replaces`); nor does `clear`. -/
theorem capacity_never_panics {Buf : Type} (cap : Buf → Nat) (iter : Buf → List (Event X)) (wait : W → Buf → Option Duration → Res × W × Buf)
    (clear : Buf → Buf) (hr : Replaces cap iter wait) (hcl : ∀ b, cap (clear b) = cap b) (b0 : Buf) (h0 : 1 ≤ cap b0)
    (ops : List (W × Option Duration ⊕ Unit)) :
    cap b0 ≤ cap (ops.foldl (fun b op => match op with | .inl (w, t) => (wait w b t).2.2 | .inr () => clear b) b0) := by
  induction ops generalizing b0 with
  | nil => exact Nat.le_refl _
  | cons op ops ih =>
    rw [List.foldl_cons]
    rcases op with ⟨w, t⟩ | ⟨⟩
    · have := (hr w b0 b0 t rfl).2.2.2.1
      have h2 := ih ((wait w b0 t).2.2) (by omega)
      exact Nat.le_trans this h2
    · have h2 := ih (clear b0) (by rw [hcl]; exact h0)
      rw [hcl] at h2
      exact h2

/-- An OS that reports two events, the first time with an interruption. -/
def exOs : Os Unit Nat where
  prepare w _ := (.ok, w)
  get w cap _ := if w = 0 then (.error .interrupted, 1) else (.ok (([⟨1, true, false, ()⟩, ⟨2, false, true, ()⟩] : List (Event Unit)).take cap), w + 1)
  finish w := (.ok, w)

example : exOs.Ok := by
  intro w cap t l w' h
  simp only [exOs] at h
  split at h
  · cases h
  · cases h; simp; omega

/-- A `Sys` with the epoll buffer over it: an old event in the buffer disappears; with capacity one, one event is reported. -/
def exSys : Sys Unit where
  W := Nat
  Buf := Vec (Event Unit)
  clock w := (0, w)
  add w _ _ _ := (.ok, w)
  modify w _ _ _ := (.ok, w)
  delete w _ := (.ok, w)
  wait := epollWait exOs
  notify w := (.ok, w)
  iter v := v.data
  clear v := v.clear
  supportsLevel := true
  supportsEdge := true

example : ((Lib.wait 100 3 (sys := exSys) ⟨(0 : Nat), false, true⟩ (⟨[⟨9, true, true, ()⟩], 2⟩ : Vec (Event Unit)) none).map fun o => (o.res, eventsIter exSys o.buf)) =
    some (.ok 2, [⟨1, true, false, ()⟩, ⟨2, false, true, ()⟩]) ∧
    ((Lib.wait 100 3 (sys := exSys) ⟨(0 : Nat), false, true⟩ (⟨[⟨9, true, true, ()⟩], 1⟩ : Vec (Event Unit)) none).map fun o => (o.res, eventsIter exSys o.buf)) =
    some (.ok 1, [⟨1, true, false, ()⟩]) := by decide

end Polling.C38
