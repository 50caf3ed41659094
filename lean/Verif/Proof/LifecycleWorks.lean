import Verif.Proof.Lifecycle
import Verif.Proof.EpollInv

/-! When `Poller::new` succeeds. -/

namespace Polling.Life
variable {K : Type} (os : Os)

/-- The numbers of later calls are not used yet. -/
def Later (w : W K) : Prop := ∀ m, w.n ≤ m → w.tbl (os.fd m) = none ∧ w.tbl (os.fd2 m) = none

/-- Whatever the outcome, later calls can still succeed. -/
def Goes (m : M K α) : Prop := ∀ w, Later os w → Later os (m w).2
/-- … and this code succeeds. -/
def Works (m : M K α) : Prop := ∀ w, Later os w → (∃ a, (m w).1 = .ok a) ∧ Later os (m w).2

section
variable {os} {α β : Type}

theorem Works.goes {m : M K α} (h : Works os m) : Goes os m := fun w hw => (h w hw).2

theorem works_bind {m : M K α} {f : α → M K β} (h : Works os m) (hf : ∀ a, Works os (f a)) : Works os (m >>= f) := by
  intro w hw
  show (∃ b, (andThen m f w).1 = _) ∧ Later os (andThen m f w).2
  unfold andThen
  obtain ⟨⟨a, ha⟩, hw'⟩ := h w hw
  rcases hr : m w with ⟨r, w'⟩
  rw [hr] at ha hw'
  dsimp only at ha
  subst ha
  exact hf a w' hw'

theorem works_ret (a : α) : Works os (ret a : M K α) := fun _ hw => ⟨⟨a, rfl⟩, hw⟩

theorem works_attempt {m : M K α} (h : Goes os m) : Works os (attempt m) := by
  intro w hw
  unfold attempt
  have := h w hw
  rcases hr : m w with ⟨r, w'⟩
  rw [hr] at this
  cases r <;> exact ⟨⟨_, rfl⟩, this⟩

theorem works_attemptIf {m : M K α} (on : Bool) (h : Goes os m) : Works os (attemptIf on m) := by
  cases on
  · exact works_ret _
  · exact works_attempt h

theorem later_closeAll {w : W K} {l : List Fd} (h : Later os w) : Later os (closeAll w l) := by
  intro m hm
  rw [closeAll_n] at hm
  have := h m hm
  constructor <;> rw [closeAll_tbl] <;> split
  · rfl
  · exact this.1
  · rfl
  · exact this.2

theorem works_scope {m : M K α} (moved : α → List Fd) (h : Works os m) : Works os (scope moved m) := by
  intro w hw
  unfold scope
  obtain ⟨⟨a, ha⟩, hw'⟩ := h { w with owned := [] } hw
  rcases hr : m { w with owned := [] } with ⟨r, w'⟩
  rw [hr] at ha hw'
  dsimp only at ha
  subst ha
  exact ⟨⟨a, rfl⟩, fun m hm => later_closeAll hw' m hm⟩

theorem works_sys {s : Sys} (h : ∀ n, os.fault s n = none) : Works os (sys os s : M K Unit) := by
  intro w hw
  unfold sys
  rw [h]
  exact ⟨⟨(), rfl⟩, fun m hm => hw m (by have : w.n + 1 ≤ m := hm; omega)⟩

theorem goes_openFd (hi : ∀ m n, os.fd m = os.fd n → m = n) (ha : ∀ m n, os.fd m ≠ os.fd2 n) (s : Sys) (i : Info) :
    Goes os (openFd os s i : M K Fd) := by
  intro w hw
  unfold openFd
  cases os.fault s w.n with
  | some e => exact fun m hm => hw m (by have : w.n + 1 ≤ m := hm; omega)
  | none =>
    dsimp only
    split
    · intro m hm
      have hm : w.n + 1 ≤ m := hm
      have := hw m (by omega)
      have h1 : os.fd m ≠ os.fd w.n := fun h => by have := hi _ _ h; omega
      have h2 : os.fd2 m ≠ os.fd w.n := fun h => ha _ _ h.symm
      exact ⟨by simp only [setTbl, if_neg h1]; exact this.1, by simp only [setTbl, if_neg h2]; exact this.2⟩
    · exact fun m hm => hw m (by have : w.n + 1 ≤ m := hm; omega)

theorem works_openFd (hi : ∀ m n, os.fd m = os.fd n → m = n) (ha : ∀ m n, os.fd m ≠ os.fd2 n) {s : Sys}
    (h : ∀ n, os.fault s n = none) (i : Info) : Works os (openFd os s i : M K Fd) := by
  intro w hw
  refine ⟨?_, goes_openFd hi ha s i w hw⟩
  unfold openFd
  simp only [h, (hw w.n (Nat.le_refl _)).1, if_true]
  exact ⟨_, rfl⟩

theorem goes_openPair (hi : ∀ m n, os.fd m = os.fd n → m = n) (hi2 : ∀ m n, os.fd2 m = os.fd2 n → m = n)
    (ha : ∀ m n, os.fd m ≠ os.fd2 n) (s : Sys) (i : Info) : Goes os (openPair os s i : M K (Fd × Fd)) := by
  intro w hw
  unfold openPair
  cases os.fault s w.n with
  | some e => exact fun m hm => hw m (by have : w.n + 1 ≤ m := hm; omega)
  | none =>
    dsimp only
    split
    · intro m hm
      have hm : w.n + 1 ≤ m := hm
      have := hw m (by omega)
      have h1 : os.fd m ≠ os.fd w.n := fun h => by have := hi _ _ h; omega
      have h2 : os.fd2 m ≠ os.fd w.n := fun h => ha _ _ h.symm
      have h3 : os.fd2 m ≠ os.fd2 w.n := fun h => by have := hi2 _ _ h; omega
      have h4 : os.fd m ≠ os.fd2 w.n := ha _ _
      exact ⟨by simp only [setTbl, if_neg h1, if_neg h4]; exact this.1, by simp only [setTbl, if_neg h2, if_neg h3]; exact this.2⟩
    · exact fun m hm => hw m (by have : w.n + 1 ≤ m := hm; omega)

theorem works_openPair (hi : ∀ m n, os.fd m = os.fd n → m = n) (hi2 : ∀ m n, os.fd2 m = os.fd2 n → m = n)
    (ha : ∀ m n, os.fd m ≠ os.fd2 n) {s : Sys} (h : ∀ n, os.fault s n = none) (i : Info) :
    Works os (openPair os s i : M K (Fd × Fd)) := by
  intro w hw
  refine ⟨?_, goes_openPair hi hi2 ha s i w hw⟩
  unfold openPair
  have hl := hw w.n (Nat.le_refl _)
  simp only [h]
  rw [if_pos ⟨hl.1, hl.2, ha _ _⟩]
  exact ⟨_, rfl⟩

theorem works_getfl (h : ∀ n, os.fault .getfl n = none) (fd : Fd) : Works os (getfl os fd : M K Bool) :=
  works_bind (works_sys h) fun _ _ hw => ⟨⟨_, rfl⟩, hw⟩
theorem works_getfd (h : ∀ n, os.fault .getfd n = none) (fd : Fd) : Works os (getfd os fd : M K Bool) :=
  works_bind (works_sys h) fun _ _ hw => ⟨⟨_, rfl⟩, hw⟩

theorem later_set {w : W K} (hw : Later os w) (fd : Fd) (f : Info → Info) :
    Later os { w with tbl := setTbl w.tbl fd ((w.tbl fd).map f) } := by
  intro m hm
  have := hw m hm
  constructor
  · by_cases hfd : os.fd m = fd
    · subst hfd; simp [setTbl, this.1]
    · simp only [setTbl, if_neg hfd]; exact this.1
  · by_cases hfd : os.fd2 m = fd
    · subst hfd; simp [setTbl, this.2]
    · simp only [setTbl, if_neg hfd]; exact this.2

theorem works_setfl (h : ∀ n, os.fault .setfl n = none) (fd : Fd) (b : Bool) : Works os (setfl os fd b : M K Unit) :=
  works_bind (works_sys h) fun _ _ hw => ⟨⟨_, rfl⟩, later_set hw fd _⟩
theorem works_setfd (h : ∀ n, os.fault .setfd n = none) (fd : Fd) (b : Bool) : Works os (setfd os fd b : M K Unit) :=
  works_bind (works_sys h) fun _ _ hw => ⟨⟨_, rfl⟩, later_set hw fd _⟩

end

def Avail (l : List Sys) : Prop := ∀ s ∈ l, ∀ n, os.fault s n = none

section
variable {os} {K : Type} (hi : ∀ m n, os.fd m = os.fd n → m = n) (hi2 : ∀ m n, os.fd2 m = os.fd2 n → m = n)
  (ha : ∀ m n, os.fd m ≠ os.fd2 n)
include hi hi2 ha

theorem works_fallbackPipe (hv : Avail os [.pipe, .getfd, .setfd]) : Works os (fallbackPipe os : M K (Fd × Fd)) :=
  works_scope _ <| works_bind (works_openPair hi hi2 ha (hv _ (by simp)) _) fun (r, w) =>
    works_bind (works_getfd (hv _ (by simp)) _) fun _ => works_bind (works_setfd (hv _ (by simp)) _ _) fun _ =>
    works_bind (works_getfd (hv _ (by simp)) _) fun _ => works_bind (works_setfd (hv _ (by simp)) _ _) fun _ => works_ret _

theorem works_newPipe (hasPipe2 : Bool) (hv : Avail os [.pipe, .getfd, .setfd, .getfl, .setfl]) :
    Works os (newPipe os hasPipe2 : M K (Fd × Fd)) := by
  refine works_scope _ <| works_bind (works_attemptIf _ (goes_openPair hi hi2 ha _ _)) fun first =>
    works_bind ?_ fun (r, w) => works_bind (works_getfl (hv _ (by simp)) _) fun _ =>
    works_bind (works_setfl (hv _ (by simp)) _ _) fun _ => works_ret _
  cases first with
  | some p => exact works_ret _
  | none => exact works_fallbackPipe hi hi2 ha fun s hs => hv s (by
      simp only [List.mem_cons, List.not_mem_nil, or_false] at hs; rcases hs with rfl | rfl | rfl <;> simp)

theorem works_notifierNew (noEventfd : Bool) (hv : Avail os [.pipe, .getfd, .setfd, .getfl, .setfl]) :
    Works os (notifierNew os noEventfd : M K Notifier) := by
  refine works_scope _ <| works_bind (works_attemptIf _ (goes_openFd hi ha _ _)) fun first => ?_
  cases first with
  | some p => exact works_ret _
  | none => exact works_bind (works_newPipe hi hi2 ha true hv) fun (r, w) => works_ret _

end

theorem scope_of_ok {K α : Type} {m : M K α} {moved : α → List Fd} {w : W K} {a : α} (h : (m { w with owned := [] }).1 = .ok a) :
    (scope moved m w).1 = .ok a := by
  unfold scope
  rcases hr : m { w with owned := [] } with ⟨r, w'⟩
  rw [hr] at h
  dsimp only at h
  subst h
  rfl

theorem setup_ok {os : Os} (hctl : ∀ n, os.fault .ctl n = none) (p : EpollPoller) (hn : p.fds.Nodup) (w : W EpollM.Kern)
    (hk : ∀ fd, w.k.items fd = none) : (epollSetup os p w).1 = .ok () := by
  have hadd : ∀ fd ev mode (w : W EpollM.Kern), w.k.items fd = none →
      (epollAdd os p fd ev mode w).1 = .ok () ∧ ∀ x, x ≠ fd → (epollAdd os p fd ev mode w).2.k.items x = w.k.items x := by
    intro fd ev mode w hfd
    unfold epollAdd EpollM.add EpollM.ctlAdd
    simp only [hctl, hfd, true_and]
    intro x hx
    rw [EpollM.link_items]
    simp [EpollM.setItem, hx]
  rcases p with ⟨ep, n, _ | t⟩
  · exact (hadd _ _ _ w (hk _)).1
  · show (andThen (epollAdd os _ t _ _) _ w).1 = _
    unfold andThen
    have h1 := hadd t (Event.none NOTIFY_KEY) .oneshot w (hk _)
    rcases hr : epollAdd os ⟨ep, n, some t⟩ t (Event.none NOTIFY_KEY) .oneshot w with ⟨r, w1⟩
    simp only [hr] at h1 ⊢
    rw [h1.1]
    refine (hadd _ _ _ w1 ?_).1
    rw [h1.2]
    · exact hk _
    · intro he
      simp only [EpollPoller.fds, Option.toList_some] at hn
      rw [List.nodup_append] at hn
      refine hn.2.2 n.asFd ?_ t (by simp) he
      cases n <;> simp [Notifier.asFd, Notifier.fds]

end Polling.Life
