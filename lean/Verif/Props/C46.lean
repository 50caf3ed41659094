import Verif.Proof.LifecycleWorks

/-! C46: creating a poller is all or nothing, and dropping it gives back what it opened. -/

namespace Polling.C46
open Life

/-- From `before` to `after`, exactly the descriptors `fds` were opened. -/
def Opened (before after : Fd → Option Info) (fds : List Fd) : Prop :=
  fds.Nodup ∧ (∀ fd ∈ fds, before fd = none ∧ (after fd).isSome = true) ∧ ∀ fd, fd ∉ fds → after fd = before fd

/-- A descriptor is not inherited by programs that are executed. -/
def CloseOnExec (tbl : Fd → Option Info) (fd : Fd) : Prop := ∃ i, tbl fd = some i ∧ i.cloexec = true
/-- Reading from the descriptor does not block. -/
def NonBlocking (tbl : Fd → Option Info) (fd : Fd) : Prop := ∃ i, tbl fd = some i ∧ i.nonblock = true

/-- `Poller::new` either gives a poller with the descriptors `fds`, all opened by this call and none inherited by other programs,
or fails and leaves the descriptor table as it was.  No descriptor is closed that was not open. -/
def AllOrNothing {K P : Type} (fds : P → List Fd) (w : W K) (r : Except Err P × W K) : Prop :=
  r.2.bad = w.bad ∧
  match r.1 with
  | .ok p => Opened w.tbl r.2.tbl (fds p) ∧ ∀ fd ∈ fds p, CloseOnExec r.2.tbl fd
  | .error _ => r.2.tbl = w.tbl

variable {K : Type} (os : Os)

theorem of_outcome {P : Type} {fds : P → List Fd} {w : W K} {new : P → List (Fd × Info)} {r : Except Err P × W K}
    (hnew : ∀ p, (new p).map (·.1) = fds p) (hce : ∀ p, ∀ q ∈ new p, q.2.cloexec = true) (h : Outcome w new r) :
    AllOrNothing fds w r := by
  unfold Outcome at h
  unfold AllOrNothing
  rcases r with ⟨_ | p, w'⟩
  · dsimp only at h ⊢
    exact ⟨h.bad, funext fun fd => h.other fd (by simp)⟩
  · dsimp only at h ⊢
    refine ⟨h.bad, ⟨hnew p ▸ h.nodup, ?_, fun fd hfd => h.other fd (hnew p ▸ hfd)⟩, ?_⟩
    · intro fd hfd
      rw [← hnew] at hfd
      obtain ⟨q, hq, rfl⟩ := List.mem_map.1 hfd
      exact ⟨h.fresh q hq, by rw [h.info q hq]; rfl⟩
    · intro fd hfd
      rw [← hnew] at hfd
      obtain ⟨q, hq, rfl⟩ := List.mem_map.1 hfd
      exact ⟨q.2, h.info q hq, hce p q hq⟩

/-! ### epoll -/

theorem epoll_new (noEventfd redox : Bool) (w : W EpollM.Kern) :
    AllOrNothing EpollPoller.fds w (epollNew os noEventfd redox w) := by
  refine of_outcome infos_fds ?_ (epollNew_outcome os noEventfd redox w)
  rintro ⟨ep, n, t⟩ q hq
  cases n <;> cases t <;> simp [EpollPoller.infos, Notifier.infos] at hq <;> rcases hq with rfl | rfl | rfl | rfl <;> rfl

/-- Reading the notification away cannot block. -/
theorem epoll_notifier_nonblocking (noEventfd redox : Bool) (w w' : W EpollM.Kern) (p : EpollPoller)
    (h : epollNew os noEventfd redox w = (.ok p, w')) : NonBlocking w'.tbl p.notifier.asFd := by
  have ho := epollNew_outcome os noEventfd redox w
  rw [h] at ho
  have ho : Adds w w' p.infos := ho
  rcases p with ⟨ep, n | ⟨r, x⟩, t⟩
  · exact ⟨⟨true, true⟩, ho.info (n, ⟨true, true⟩) (by simp [EpollPoller.infos, Notifier.infos]), rfl⟩
  · exact ⟨⟨true, true⟩, ho.info (r, ⟨true, true⟩) (by simp [EpollPoller.infos, Notifier.infos]), rfl⟩

/-- An epoll instance that was just made. -/
def emptyEpoll (user : Fd → Epoll.Flags) : EpollM.Kern := ⟨fun _ => none, [], user, 0, 0, none, false⟩

/-- The poller starts in the state from which everything else is proved: the timer is registered without interest and the
notifier with interest in readability, both under the reserved key. -/
theorem epoll_initial_state (noEventfd redox : Bool) (w w' : W EpollM.Kern) (p : EpollPoller) (user threads)
    (h : epollNew os noEventfd redox w = (.ok p, w')) (hk : w.k = emptyEpoll user) :
    w'.k = (EpollM.init (p.cfg threads) user).k := by
  obtain ⟨_, w1, hk1, hok, hk'⟩ := new_kernel (keeps_epollBuild os noEventfd redox) h
  rw [← hk']
  rw [hk] at hk1
  have hadd : ∀ (k : EpollM.Kern) fd ev mode, EpollM.add (p.cfg 0) none k fd ev mode = EpollM.add (p.cfg threads) none k fd ev mode :=
    fun _ _ _ _ => rfl
  rcases p with ⟨ep, n, _ | t⟩
  · change (epollAdd os _ _ _ _ w1).1 = _ at hok
    change (epollAdd os _ _ _ _ w1).2.k = _
    unfold epollAdd at hok ⊢
    cases hf : os.fault .ctl w1.n with
    | some e => rw [hf] at hok; cases hok
    | none =>
      simp only [hf, hk1, hadd] at hok ⊢
      unfold EpollM.init
      simp only [EpollPoller.cfg, Option.isSome_none, Bool.false_eq_true, if_false]
      split <;> rename_i k he <;> simp only [emptyEpoll] at he <;> rw [he]
  · change (andThen (epollAdd os _ t _ _) _ w1).1 = _ at hok
    change (andThen (epollAdd os _ t _ _) _ w1).2.k = _
    unfold andThen at hok ⊢
    unfold epollAdd at hok ⊢
    cases hf : os.fault .ctl w1.n with
    | some e => simp only [hf] at hok; cases hok
    | none =>
      simp only [hf, hk1, hadd] at hok ⊢
      rcases h1 : EpollM.add (EpollPoller.cfg threads ⟨ep, n, some t⟩) none (emptyEpoll user) t (Event.none NOTIFY_KEY) .oneshot with ⟨_ | e, k1⟩
      · simp only [h1] at hok ⊢
        cases hf2 : os.fault .ctl (w1.n + 1) with
        | some e => simp only [hf2] at hok; cases hok
        | none =>
          simp only [hf2, hadd] at hok ⊢
          unfold EpollM.init
          simp only [EpollPoller.cfg, Option.isSome_some, Option.getD_some, if_true] at h1 ⊢
          simp only [emptyEpoll] at h1
          rw [h1]
          split <;> rename_i k he <;> rw [he]
      · simp only [h1] at hok; cases hok

/-- Dropping the poller, at any time, closes exactly its own descriptors, each once: a source the user registered stays open. -/
theorem epoll_drop (p : EpollPoller) (w : W EpollM.Kern) (hn : p.fds.Nodup) (ho : ∀ fd ∈ p.fds, (w.tbl fd).isSome = true) :
    (∀ fd ∈ p.fds, (epollDrop os p w).2.tbl fd = none) ∧ (∀ fd, fd ∉ p.fds → (epollDrop os p w).2.tbl fd = w.tbl fd) ∧
    (epollDrop os p w).2.bad = w.bad := by
  obtain ⟨h1, h2, _⟩ := epollDrop_closes os p w hn ho
  exact ⟨fun fd hfd => by rw [h1, if_pos hfd], fun fd hfd => by rw [h1, if_neg hfd], h2⟩

/-! ### kqueue -/

theorem kqueue_new (c : KqM.Cfg) (w : W KqState) : AllOrNothing KqPoller.fds w (kqNew os c w) := by
  refine of_outcome kq_infos_fds ?_ (kqNew_outcome os c w)
  rintro ⟨kq, _ | _⟩ q hq <;> simp [KqPoller.infos, KqNotify.infos] at hq
  · subst hq; rfl
  · rcases hq with rfl | rfl | rfl <;> rfl

theorem kqueue_notifier_nonblocking (c : KqM.Cfg) (w w' : W KqState) (p : KqPoller)
    (h : kqNew os c w = (.ok p, w')) : ∀ fd ∈ p.notify.fds, NonBlocking w'.tbl fd := by
  have ho := kqNew_outcome os c w
  rw [h] at ho
  have ho : Adds w w' p.infos := ho
  rcases p with ⟨kq, _ | ⟨r, x⟩⟩
  · exact fun fd hfd => by cases hfd
  · intro fd hfd
    simp [KqNotify.fds] at hfd
    rcases hfd with rfl | rfl
    · exact ⟨⟨true, true⟩, ho.info (fd, ⟨true, true⟩) (by simp [KqPoller.infos, KqNotify.infos]), rfl⟩
    · exact ⟨⟨true, true⟩, ho.info (fd, ⟨true, true⟩) (by simp [KqPoller.infos, KqNotify.infos]), rfl⟩

/-- A kqueue that was just made. -/
def emptyKqueue (cond : Kqueue.Filter → Option Bool) : KqState := ⟨⟨fun _ => none, [], cond, 0⟩, fun _ => false⟩

/-- The errors the OS may report for a single change are neither "no such entry" nor "broken pipe", which `submit_changes`
ignores (kqueue.rs:159-170) because they are expected when something is deleted. -/
def RealErrors : Prop := ∀ n e, os.errno n = some e → e ≠ 0 ∧ e ≠ KqM.ENOENT ∧ e ≠ KqM.EPIPE

theorem counts {e : Nat} (h0 : e ≠ 0) (h1 : e ≠ KqM.ENOENT) (h2 : e ≠ KqM.EPIPE) (ev : Kqueue.KEvent) (l) :
    KqM.submitResult (KqM.receipt ev e :: l) = .err (.os e) := by
  have a : ((e : Int) != 0) = true := by simp [h0]
  have b : ((e : Int) != KqM.ENOENT) = true := by simpa using fun h => h1 (by exact_mod_cast h)
  have c : ((e : Int) != KqM.EPIPE) = true := by simpa using fun h => h2 (by exact_mod_cast h)
  simp [KqM.submitResult, KqM.receipt, a, b, c]

theorem skip (ev : Kqueue.KEvent) (l) : KqM.submitResult (KqM.receipt ev 0 :: l) = KqM.submitResult l := by
  simp [KqM.submitResult, KqM.receipt]

/-- The poller starts in the state from which everything else is proved: the notifier is registered. -/
theorem kqueue_initial_state (c : KqM.Cfg) (w w' : W KqState) (p : KqPoller) (cond)
    (h : kqNew os c w = (.ok p, w')) (hk : w.k = emptyKqueue cond) (hr : RealErrors os) :
    w'.k.k = (KqM.init (p.cfg c) cond).k ∧ w'.k.sources = (KqM.init (p.cfg c) cond).sources := by
  obtain ⟨⟨w0, hb⟩, w1, hk1, hok, hk'⟩ := new_kernel (keeps_kqBuild os c.user) h
  rw [← hk']
  rw [hk] at hk1
  rcases p with ⟨kq, n⟩
  rcases kqBuild_kind os c.user w0 _ hb with ⟨hu, hn⟩ | ⟨hu, r, x, hn⟩
  · cases hn
    have hu' : (KqPoller.cfg c ⟨kq, .user⟩).user = true := hu
    change (kqSubmit os _ _ w1).1 = _ at hok
    change (kqSubmit os _ _ w1).2.k.k = _ ∧ (kqSubmit os _ _ w1).2.k.sources = _
    unfold kqSubmit at hok ⊢
    cases hf : os.fault .kevent w1.n with
    | some e => rw [hf] at hok; cases hok
    | none =>
      simp only [hf, hk1, List.foldl_cons, List.foldl_nil, List.nil_append] at hok ⊢
      cases he : os.errno (w1.n + 1) with
      | some e =>
        obtain ⟨h0, h1, h2⟩ := hr _ _ he
        simp only [he, KqM.register, counts h0 h1 h2] at hok
        cases hok
      | none =>
        unfold KqM.init
        rw [if_pos hu']
        exact ⟨rfl, rfl⟩
  · cases hn
    have hu' : ¬ (KqPoller.cfg c ⟨kq, .pair r x⟩).user = true := by
      show ¬ c.user = true
      rw [hu]; decide
    change (kqAdd os _ r w1).1 = _ at hok
    change (kqAdd os _ r w1).2.k.k = _ ∧ (kqAdd os _ r w1).2.k.sources = _
    unfold kqAdd at hok ⊢
    have hs : ¬ w1.k.sources (.fd r) = true := by rw [hk1]; simp [emptyKqueue]
    rw [if_neg hs] at hok ⊢
    unfold kqSubmit at hok ⊢
    cases hf : os.fault .kevent w1.n with
    | some e => simp only [hf] at hok; cases hok
    | none =>
      simp only [hf, hk1, KqM.fdChanges, List.foldl_cons, List.foldl_nil, List.nil_append] at hok ⊢
      cases he : os.errno (w1.n + 1) with
      | some e =>
        obtain ⟨h0, h1, h2⟩ := hr _ _ he
        simp only [he, KqM.register, List.cons_append, counts h0 h1 h2] at hok
        cases hok
      | none =>
        cases he2 : os.errno (w1.n + 1 + 1) with
        | some e =>
          obtain ⟨h0, h1, h2⟩ := hr _ _ he2
          have hreg : ∀ (c : KqM.Cfg) k e, (KqM.register c (some e) k
              { filter := .write r, flags := KqM.changeFlags (Event.onlyReadable NOTIFY_KEY : Event Kqueue.EventExtra).writable .oneshot,
                udata := keyToU64 (Event.onlyReadable NOTIFY_KEY : Event Kqueue.EventExtra).key }).1 = e := fun _ _ _ => rfl
          have hreg1 : ∀ (c : KqM.Cfg) k, (KqM.register c none k
              { filter := .read r, flags := KqM.changeFlags (Event.onlyReadable NOTIFY_KEY : Event Kqueue.EventExtra).readable .oneshot,
                udata := keyToU64 (Event.onlyReadable NOTIFY_KEY : Event Kqueue.EventExtra).key }).1 = 0 := fun _ _ => rfl
          simp only [he, he2, hreg, hreg1, List.cons_append, List.nil_append, skip, counts h0 h1 h2] at hok
          cases hok
        | none =>
          unfold KqM.init
          rw [if_neg hu']
          refine ⟨rfl, ?_⟩
          funext y
          by_cases hy : y = .fd r
          · subst hy; simp [KqPoller.cfg, KqNotify.fds]
          · simp [KqPoller.cfg, KqNotify.fds, hy, emptyKqueue]

/-- Dropping the poller closes exactly its own descriptors, each once. -/
theorem kqueue_drop (c : KqM.Cfg) (p : KqPoller) (w : W KqState) (hn : p.fds.Nodup)
    (ho : ∀ fd ∈ p.fds, (w.tbl fd).isSome = true) :
    (∀ fd ∈ p.fds, (kqDrop os c p w).2.tbl fd = none) ∧ (∀ fd, fd ∉ p.fds → (kqDrop os c p w).2.tbl fd = w.tbl fd) ∧
    (kqDrop os c p w).2.bad = w.bad := by
  obtain ⟨h1, h2, _⟩ := kqDrop_closes os c p w hn ho
  exact ⟨fun fd hfd => by rw [h1, if_pos hfd], fun fd hfd => by rw [h1, if_neg hfd], h2⟩

/-! ### event ports, poll, IOCP: no destructor besides those of the descriptors -/

theorem port_new (w : W K) : AllOrNothing (fun fd => [fd]) w (portNew os w) :=
  of_outcome (fun _ => rfl) (fun p q hq => by simp at hq; subst hq; rfl) (portNew_outcome os w)

theorem iocp_new (w : W K) : AllOrNothing (fun fd => [fd]) w (iocpNew os w) :=
  of_outcome (fun _ => rfl) (fun p q hq => by simp at hq; subst hq; rfl) (iocpNew_outcome os w)

theorem poll_new (hasPipe2 : Bool) (w : W K) :
    AllOrNothing (fun p : PollB.NotifyFds × PollB.Fds => [p.1.readFd, p.1.writeFd]) w (pollNew os (.pipe hasPipe2) w) := by
  have h := pollNotify_pipe_outcome os hasPipe2 w
  show AllOrNothing _ w (andThen (pollNotifyNew os (.pipe hasPipe2)) _ w)
  unfold andThen
  rcases hr : pollNotifyNew os (.pipe hasPipe2) w with ⟨r, w'⟩
  rw [hr] at h
  cases r with
  | ok n =>
    exact of_outcome (r := (.ok (n, PollB.Fds.init n), w'))
      (new := fun p : PollB.NotifyFds × PollB.Fds => [(p.1.readFd, ⟨true, true⟩), (p.1.writeFd, ⟨true, false⟩)])
      (fun _ => rfl) (fun p q hq => by simp at hq; rcases hq with rfl | rfl <;> rfl) h
  | error e =>
    exact of_outcome (r := (.error e, w'))
      (new := fun p : PollB.NotifyFds × PollB.Fds => [(p.1.readFd, ⟨true, true⟩), (p.1.writeFd, ⟨true, false⟩)])
      (fun _ => rfl) (fun p q hq => by simp at hq; rcases hq with rfl | rfl <;> rfl) h

/-- The table of a new poller has the notifier's read end and nothing else; reading from it does not block. -/
theorem poll_initial_state (hasPipe2 : Bool) (w w' : W K) (n : PollB.NotifyFds) (fds : PollB.Fds)
    (h : pollNew os (.pipe hasPipe2) w = (.ok (n, fds), w')) :
    fds.pollFds = [⟨n.readFd, RDNORM, 0#16⟩] ∧ (∀ fd, fds.fdData fd = none) ∧ NonBlocking w'.tbl n.readFd := by
  have ho := pollNotify_pipe_outcome os hasPipe2 w
  change andThen (pollNotifyNew os (.pipe hasPipe2)) _ w = _ at h
  unfold andThen at h
  rcases hr : pollNotifyNew os (.pipe hasPipe2) w with ⟨r, w1⟩
  rw [hr] at h ho
  cases r with
  | error e => cases h
  | ok m =>
    have hfl : m.flags = RDNORM := by
      have hk := scope_ok (m := do
        let (r, w) ← newPipe os hasPipe2
        ret (⟨r, w, RDNORM⟩ : PollB.NotifyFds)) (moved := fun n => [n.readFd, n.writeFd]) (w := w) (a := m)
        (show (pollNotifyNew os (.pipe hasPipe2) w).1 = _ by rw [hr])
      obtain ⟨⟨r, x⟩, _, hk⟩ := bind_ok hk
      cases hk; rfl
    cases h
    have ho : Adds w w' [(n.readFd, ⟨true, true⟩), (n.writeFd, ⟨true, false⟩)] := ho
    refine ⟨by simp [PollB.Fds.init, PollB.PollFd.new, hfl], fun _ => rfl, ⟨true, true⟩, ho.info (n.readFd, ⟨true, true⟩) (by simp), rfl⟩

/-- Where the notifier is an eventfd there is one descriptor (`exec` does not exist on those systems). -/
theorem poll_new_eventfd (w : W K) :
    match pollNew os .eventfd w with
    | (.ok (n, _), w') => Opened w.tbl w'.tbl [n.readFd] ∧ n.writeFd = n.readFd ∧ w'.bad = w.bad ∧ NonBlocking w'.tbl n.readFd
    | (.error _, w') => w'.tbl = w.tbl ∧ w'.bad = w.bad := by
  have h := pollNotify_eventfd_outcome os w
  have hp : pollNew os .eventfd w = andThen (pollNotifyNew os .eventfd) (fun n => ret (n, PollB.Fds.init n)) w := rfl
  rw [hp]
  unfold andThen
  rcases hr : pollNotifyNew os .eventfd w with ⟨r, w'⟩
  rw [hr] at h
  cases r with
  | ok n =>
    have h : Adds w w' [(n.readFd, ⟨false, true⟩)] := h
    have hk := scope_ok (m := do
        let fd ← openFd os .eventfd ⟨false, true⟩
        ret (⟨fd, fd, PollFlags.IN⟩ : PollB.NotifyFds)) (moved := fun n => [n.readFd]) (w := w) (a := n)
        (show (pollNotifyNew os .eventfd w).1 = _ by rw [hr])
    obtain ⟨fd, _, hk⟩ := bind_ok hk
    cases hk
    refine ⟨⟨by simp, ?_, fun x hx => h.other x (by simpa using hx)⟩, rfl, h.bad, ⟨false, true⟩, h.info (fd, ⟨false, true⟩) (by simp), rfl⟩
    intro x hx
    simp only [List.mem_singleton] at hx
    subst hx
    exact ⟨h.fresh (x, ⟨false, true⟩) (by simp), by rw [h.info (x, ⟨false, true⟩) (by simp)]; rfl⟩
  | error e =>
    have h : Adds w w' [] := h
    exact ⟨funext fun fd => h.other fd (by simp), h.bad⟩

/-- What is left when the value is dropped. -/
theorem close_all (w : W K) (fds : List Fd) (hn : fds.Nodup) (ho : ∀ fd ∈ fds, (w.tbl fd).isSome = true) :
    (∀ fd ∈ fds, (closeAll w fds).tbl fd = none) ∧ (∀ fd, fd ∉ fds → (closeAll w fds).tbl fd = w.tbl fd) ∧
    (closeAll w fds).bad = w.bad :=
  ⟨fun fd h => by rw [closeAll_tbl, if_pos h], fun fd h => by rw [closeAll_tbl, if_neg h], closeAll_bad w fds hn ho⟩

/-- IOCP: if the undocumented functions or the AFD device are not there, the error is `Unsupported`; any other error is that
of making the completion port. -/
theorem iocp_new_errors (w w' : W K) (e : Err) (h : iocpNew os w = (.error e, w')) :
    e = .unsupported ∨ e = EMFILE ∨ ∃ n, os.fault .iocp n = some e := by
  have hu : ∀ {α : Type} (m : M K α) w e, (asUnsupported m w).1 = .error e → e = .unsupported := by
    intro α m w e h
    unfold asUnsupported at h
    rcases hr : m w with ⟨r, w'⟩
    rw [hr] at h
    cases r with
    | ok a => cases h
    | error e => cases h; rfl
  have key : ∀ {α β : Type} (m : M K α) (f : α → M K β) w e, ((m >>= f) w).1 = .error e →
      (m w).1 = .error e ∨ ∃ a w', (f a w').1 = .error e := by
    intro α β m f w e h
    change (andThen m f w).1 = _ at h
    unfold andThen at h
    rcases hr : m w with ⟨r, w'⟩
    rw [hr] at h
    cases r with
    | ok a => exact .inr ⟨a, w', h⟩
    | error e => cases h; exact .inl rfl
  have hs : ∀ {α : Type} (moved : α → List Fd) (m : M K α) w e, (scope moved m w).1 = .error e → ∃ w', (m w').1 = .error e := by
    intro α moved m w e h
    unfold scope at h
    rcases hr : m { w with owned := [] } with ⟨r, w'⟩
    rw [hr] at h
    cases r with
    | ok a => cases h
    | error e' => cases h; exact ⟨_, by rw [hr]⟩
  obtain ⟨w1, h1⟩ := hs _ _ w e (show (iocpNew os w).1 = _ by rw [h])
  rcases key _ _ _ _ h1 with h2 | ⟨_, w2, h2⟩
  · exact .inl (hu _ _ _ h2)
  · rcases key _ _ _ _ h2 with h3 | ⟨_, w3, h3⟩
    · exact .inl (hu _ _ _ h3)
    · refine .inr ?_
      unfold openFd at h3
      cases hf : os.fault .iocp w3.n with
      | some e' => rw [hf] at h3; cases h3; exact .inr ⟨_, hf⟩
      | none =>
        rw [hf] at h3
        dsimp only at h3
        split at h3
        · cases h3
        · cases h3; exact .inl rfl

/-! ### Missing system calls -/

/-- The OS has unused numbers for new descriptors. -/
structure Numbers (w : W K) : Prop where
  free : ∀ n, w.tbl (os.fd n) = none ∧ w.tbl (os.fd2 n) = none
  inj : ∀ m n, os.fd m = os.fd n → m = n
  inj2 : ∀ m n, os.fd2 m = os.fd2 n → m = n
  apart : ∀ m n, os.fd m ≠ os.fd2 n

/-- These system calls do not fail. -/
def Available (l : List Sys) : Prop := ∀ s ∈ l, ∀ n, os.fault s n = none

/-- A poller can be made without eventfd (as in some containers), without timerfd and without `pipe2`: a pipe is used for
notifications, and the timeout of `epoll_wait` instead of the timer. -/
theorem epoll_works_without (noEventfd redox : Bool) (w : W EpollM.Kern) (user) (hn : Numbers os w) (hk : w.k = emptyEpoll user)
    (ha : Available os [.epollCreate, .pipe, .getfd, .setfd, .getfl, .setfl, .ctl]) :
    ∃ p, (epollNew os noEventfd redox w).1 = .ok p := by
  have hb : Works os (epollBuild os noEventfd redox) :=
    works_bind (works_openFd hn.inj hn.apart (ha _ (by simp)) _) fun _ =>
    works_bind (works_notifierNew hn.inj hn.inj2 hn.apart _ fun s hs => ha s (by
      simp only [List.mem_cons, List.not_mem_nil, or_false] at hs; rcases hs with rfl | rfl | rfl | rfl | rfl <;> simp)) fun _ =>
    works_bind (works_attemptIf _ (goes_openFd hn.inj hn.apart _ _)) fun _ => works_ret _
  have hctl : ∀ n, os.fault .ctl n = none := ha _ (by simp)
  obtain ⟨⟨p, hp⟩, -⟩ := hb { w with owned := [] } fun m _ => hn.free m
  have hin := epollBuild_inner os noEventfd redox { w with owned := [] }
  have hk' := keeps_epollBuild os noEventfd redox { w with owned := [] }
  rcases hr : epollBuild os noEventfd redox { w with owned := [] } with ⟨r, w1⟩
  rw [hr] at hp hin hk'
  dsimp only at hp
  subst hp
  obtain ⟨l, hl, rfl⟩ := hin
  have hnd := hl.nodup
  rw [infos_fds] at hnd
  have hs := setup_ok hctl p hnd { w1 with owned := w1.owned.filter fun fd => decide (fd ∉ p.fds) } (fun fd => by
    show w1.k.items fd = none; rw [hk'.trans hk]; rfl)
  refine ⟨p, ?_⟩
  have hd : (andThen (epollBuild os noEventfd redox) (fun p => andThen (orDrop p.fds (epollDrop os p) (epollSetup os p))
      fun _ => ret p) { w with owned := [] }).1 = .ok p := by
    simp only [andThen, hr, orDrop]
    rcases hr2 : epollSetup os p { w1 with owned := w1.owned.filter fun fd => decide (fd ∉ p.fds) } with ⟨r2, w2⟩
    rw [hr2] at hs
    dsimp only at hs
    subst hs
    rfl
  exact scope_of_ok hd

/-! ### Concrete cases -/

/-- An OS on which everything works but the calls in `broken`. -/
def sample (broken : List Sys) : Os where
  fault := fun s _ => if s ∈ broken then some (.os 38) else none
  fd := fun n => 10 + 2 * n
  fd2 := fun n => 11 + 2 * n
  errno := fun _ => none

/-- A process with the standard streams open. -/
def start (k : K) : W K where
  tbl := fun fd => if fd ≤ 2 then some ⟨false, false⟩ else none
  bad := false
  owned := []
  n := 0
  k := k

theorem sample_numbers (broken : List Sys) (k : K) : Numbers (sample broken) (start k) where
  free n := by
    have h1 : ¬ (10 + 2 * n : Nat) ≤ 2 := by omega
    have h2 : ¬ (11 + 2 * n : Nat) ≤ 2 := by omega
    exact ⟨if_neg h1, if_neg h2⟩
  inj m n h := by have h : (10 + 2 * m : Nat) = 10 + 2 * n := h; omega
  inj2 m n h := by have h : (11 + 2 * m : Nat) = 11 + 2 * n := h; omega
  apart m n h := by have h : (10 + 2 * m : Nat) = 11 + 2 * n := h; omega

/-- A kqueue like that of FreeBSD. -/
def someKernel (user : Bool) : KqM.Cfg := ⟨user, 0, fun _ => false, true, fun _ => false, fun _ => true, 1⟩

def value {α : Type} (r : Except Err α × W K) : Option α := match r.1 with | .ok a => some a | .error _ => none
def error {α : Type} (r : Except Err α × W K) : Option Err := match r.1 with | .ok _ => none | .error e => some e
/-- The open descriptors below 40. -/
def openFds {α : Type} (r : Except Err α × W K) : List Fd := (List.range 40).filter fun fd => (r.2.tbl fd).isSome

-- an eventfd and a timerfd
example : value (epollNew (sample []) false false (start (emptyEpoll fun _ => 0))) = some ⟨10, .eventFd 12, some 14⟩ := by decide +kernel
-- neither: a pipe
example : value (epollNew (sample [.eventfd, .timerfdCreate]) false false (start (emptyEpoll fun _ => 0))) =
    some ⟨10, .pipe 14 15, none⟩ := by decide +kernel
-- not even pipe2
example : value (epollNew (sample [.eventfd, .timerfdCreate, .pipe2]) false false (start (emptyEpoll fun _ => 0))) =
    some ⟨10, .pipe 16 17, none⟩ := by decide +kernel
example : Available (sample [.eventfd, .timerfdCreate, .pipe2]) [.epollCreate, .pipe, .getfd, .setfd, .getfl, .setfl, .ctl] := by
  intro s hs n
  simp only [List.mem_cons, List.not_mem_nil, or_false] at hs
  rcases hs with rfl | rfl | rfl | rfl | rfl | rfl | rfl <;> rfl
-- failures at different places: everything is closed again
example : (([[.ctl], [.eventfd, .pipe2, .setfd], [.eventfd, .pipe2, .pipe], [.eventfd, .setfl], [.epollCreate]] : List (List Sys)).map fun b =>
    let r := epollNew (sample b) false false (start (emptyEpoll fun _ => 0))
    (error r, openFds r, r.2.bad, r.2.n)) =
    [(some (.os 38), [0, 1, 2], false, 6), (some (.os 38), [0, 1, 2], false, 6), (some (.os 38), [0, 1, 2], false, 4),
     (some (.os 38), [0, 1, 2], false, 5), (some (.os 38), [0, 1, 2], false, 1)] := by decide +kernel
-- kqueue, both kinds of notifier, and a failure of the registration
example : ([true, false].map fun u =>
    value (kqNew (sample []) (someKernel u) (start (emptyKqueue fun _ => some false)))) =
    [some ⟨10, .user⟩, some ⟨10, .pair 14 15⟩] := by decide +kernel
example : (let r := kqNew (sample [.kevent]) (someKernel false) (start (emptyKqueue fun _ => some false))
    (error r, openFds r, r.2.bad)) = (some (.os 38), [0, 1, 2], false) := by decide +kernel
example : RealErrors (sample []) := fun _ _ h => by cases h
-- after the drop
example : (let r := epollNew (sample []) false false (start (emptyEpoll fun _ => 0))
    openFds (epollDrop (sample []) ⟨10, .eventFd 12, some 14⟩ r.2)) = [0, 1, 2] ∧
    openFds (epollNew (sample []) false false (start (emptyEpoll fun _ => 0))) = [0, 1, 2, 10, 12, 14] := by decide +kernel
-- IOCP without AFD, event ports, poll
example : error (iocpNew (sample [.afd]) (start ())) = some .unsupported ∧
    openFds (iocpNew (sample []) (start ())) = [0, 1, 2, 14] := by decide +kernel
example : value (portNew (sample []) (start ())) = some 10 ∧ openFds (portNew (sample [.setfd]) (start ())) = [0, 1, 2] := by
  decide +kernel
example : (value (pollNew (sample []) (.pipe true) (start ()))).map (·.1) = some ⟨10, 11, RDNORM⟩ ∧
    (value (pollNew (sample []) (.pipe false) (start ()))).map (·.1) = some ⟨10, 11, RDNORM⟩ ∧
    openFds (pollNew (sample [.getfl]) (.pipe true) (start ())) = [0, 1, 2] := by decide +kernel

/-- The condition `RealErrors` is needed: if the kernel reports "broken pipe" for the registration of the notifier, `new`
succeeds, and the notifier is not registered. -/
theorem kqueue_deaf_notifier :
    ∃ os : Os, ∃ p w', kqNew os (someKernel false) (start (emptyKqueue fun _ => some false)) = (.ok p, w') ∧
      ∀ f, w'.k.k.knotes f = none := by
  refine ⟨{ sample [] with errno := fun _ => some KqM.EPIPE }, _, _, rfl, ?_⟩
  intro f
  rfl

end Polling.C46
