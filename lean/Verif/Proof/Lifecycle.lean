import Verif.Model.Lifecycle

/-! What the pieces of `Poller::new` open and close. -/

namespace Polling.Life
variable {K α β : Type}

/-- From `w` to `w'`, exactly the descriptors `new` were opened, and the running function owns them. -/
structure Adds (w w' : W K) (new : List (Fd × Info)) : Prop where
  nodup : (new.map (·.1)).Nodup
  fresh : ∀ p ∈ new, w.tbl p.1 = none
  info : ∀ p ∈ new, w'.tbl p.1 = some p.2
  other : ∀ fd, fd ∉ new.map (·.1) → w'.tbl fd = w.tbl fd
  bad : w'.bad = w.bad
  owned : w'.owned = w.owned ++ new.map (·.1)

theorem Adds.refl (w : W K) : Adds w w [] := ⟨by simp, by simp, by simp, by simp, rfl, by simp⟩

/-- Nothing that `Adds` looks at changed. -/
theorem Adds.same {w w1 w2 : W K} {l} (h : Adds w w1 l) (ht : w2.tbl = w1.tbl) (hb : w2.bad = w1.bad)
    (ho : w2.owned = w1.owned) : Adds w w2 l :=
  ⟨h.nodup, h.fresh, fun p hp => by rw [ht]; exact h.info p hp, fun fd hf => by rw [ht]; exact h.other fd hf,
    hb.trans h.bad, ho.trans h.owned⟩

theorem Adds.trans {w w1 w2 : W K} {l1 l2} (h1 : Adds w w1 l1) (h2 : Adds w1 w2 l2) : Adds w w2 (l1 ++ l2) := by
  have hdis : ∀ a ∈ l1.map (·.1), ∀ b ∈ l2.map (·.1), a ≠ b := by
    intro a ha b hb hab
    obtain ⟨p, hp, rfl⟩ := List.mem_map.1 ha
    obtain ⟨q, hq, rfl⟩ := List.mem_map.1 hb
    have h := h2.fresh q hq
    rw [← hab, h1.info p hp] at h
    cases h
  refine ⟨?_, ?_, ?_, ?_, h2.bad.trans h1.bad, ?_⟩
  · rw [List.map_append]
    exact List.nodup_append.2 ⟨h1.nodup, h2.nodup, hdis⟩
  · intro p hp
    rcases List.mem_append.1 hp with hp | hp
    · exact h1.fresh p hp
    · have hn : p.1 ∉ l1.map (·.1) := fun hm => hdis _ hm _ (List.mem_map.2 ⟨p, hp, rfl⟩) rfl
      rw [← h1.other _ hn]; exact h2.fresh p hp
  · intro p hp
    rcases List.mem_append.1 hp with hp | hp
    · have hn : p.1 ∉ l2.map (·.1) := fun hm => hdis _ (List.mem_map.2 ⟨p, hp, rfl⟩) _ hm rfl
      rw [h2.other _ hn]; exact h1.info p hp
    · exact h2.info p hp
  · intro fd hf
    rw [List.map_append, List.mem_append, not_or] at hf
    rw [h2.other _ hf.2, h1.other _ hf.1]
  · rw [h2.owned, h1.owned, List.map_append, List.append_assoc]

/-- The flags of one of the new descriptors were set. -/
theorem Adds.set {w w1 : W K} {l1 l2 fd i} (h : Adds w w1 (l1 ++ (fd, i) :: l2)) (f : Info → Info) (w2 : W K)
    (ht : w2.tbl = setTbl w1.tbl fd ((w1.tbl fd).map f)) (hb : w2.bad = w1.bad) (ho : w2.owned = w1.owned) :
    Adds w w2 (l1 ++ (fd, f i) :: l2) := by
  have hm : (l1 ++ (fd, f i) :: l2).map (·.1) = (l1 ++ (fd, i) :: l2).map (·.1) := by simp
  have hfd : w1.tbl fd = some i := h.info (fd, i) (by simp)
  have hnd := h.nodup
  rw [List.map_append, List.map_cons, List.nodup_append, List.nodup_cons] at hnd
  refine ⟨hm ▸ h.nodup, ?_, ?_, ?_, hb.trans h.bad, by rw [hm]; exact ho.trans h.owned⟩
  · intro p hp
    simp only [List.mem_append, List.mem_cons] at hp
    rcases hp with hp | rfl | hp
    · exact h.fresh p (by simp [hp])
    · exact h.fresh (fd, i) (by simp)
    · exact h.fresh p (by simp [hp])
  · intro p hp
    rw [ht]
    simp only [List.mem_append, List.mem_cons] at hp
    rcases hp with hp | rfl | hp
    · have hne : p.1 ≠ fd := hnd.2.2 p.1 (List.mem_map.2 ⟨p, hp, rfl⟩) fd (by simp)
      simp only [setTbl, if_neg hne]; exact h.info p (by simp [hp])
    · simp [setTbl, hfd]
    · have hne : p.1 ≠ fd := fun he => hnd.2.1.1 (he ▸ List.mem_map.2 ⟨p, hp, rfl⟩)
      simp only [setTbl, if_neg hne]; exact h.info p (by simp [hp])
  · intro x hx
    rw [hm] at hx
    have hne : x ≠ fd := fun he => hx (by simp [he])
    rw [ht]
    simp only [setTbl, if_neg hne]; exact h.other x hx

theorem closeAll_owned (w : W K) (l : List Fd) : (closeAll w l).owned = w.owned := by
  induction l generalizing w with
  | nil => rfl
  | cons a l ih => exact (ih _).trans rfl

theorem closeAll_n (w : W K) (l : List Fd) : (closeAll w l).n = w.n := by
  induction l generalizing w with
  | nil => rfl
  | cons a l ih => exact (ih _).trans rfl

theorem closeAll_k (w : W K) (l : List Fd) : (closeAll w l).k = w.k := by
  induction l generalizing w with
  | nil => rfl
  | cons a l ih => exact (ih _).trans rfl

/-- Closing different open descriptors. -/
theorem closeAll_tbl (w : W K) (l : List Fd) (fd : Fd) : (closeAll w l).tbl fd = if fd ∈ l then none else w.tbl fd := by
  induction l generalizing w with
  | nil => simp [closeAll]
  | cons a l ih =>
    have h : (closeAll w (a :: l)).tbl fd = (closeAll (close w a) l).tbl fd := rfl
    rw [h, ih]
    by_cases hfd : fd ∈ l
    · simp [hfd]
    · by_cases ha : fd = a
      · simp [hfd, ha, close, setTbl]
      · simp [hfd, ha, close, setTbl]

theorem closeAll_bad (w : W K) (l : List Fd) (hn : l.Nodup) (ho : ∀ fd ∈ l, (w.tbl fd).isSome = true) :
    (closeAll w l).bad = w.bad := by
  induction l generalizing w with
  | nil => rfl
  | cons a l ih =>
    have h : (closeAll w (a :: l)).bad = (closeAll (close w a) l).bad := rfl
    rw [List.nodup_cons] at hn
    rw [h, ih _ hn.2]
    · have := ho a (by simp)
      cases hw : w.tbl a with
      | none => rw [hw] at this; cases this
      | some i => simp [close, hw]
    · intro fd hfd
      have hne : fd ≠ a := fun he => hn.1 (he ▸ hfd)
      simp only [close, setTbl, if_neg hne]
      exact ho fd (by simp [hfd])

/-- The outcome of code that started in `w`: on success the new descriptors are `new` of the result; on failure there are
none. -/
def Outcome (w : W K) (new : α → List (Fd × Info)) (r : Except Err α × W K) : Prop :=
  match r.1 with
  | .ok a => Adds w r.2 (new a)
  | .error _ => Adds w r.2 []

/-- Inside a function: a failure may leave open descriptors behind, which `scope` closes. -/
def Inner (w : W K) (Q : α → List (Fd × Info) → Prop) (r : Except Err α × W K) : Prop :=
  match r.1 with
  | .ok a => ∃ l, Adds w r.2 l ∧ Q a l
  | .error _ => ∃ l, Adds w r.2 l

theorem Adds.closeAll {w w' : W K} {l} (h : Adds w w' l) (ho : w.owned = []) :
    Adds w { closeAll w' w'.owned with owned := w.owned } [] := by
  have hown : w'.owned = l.map (·.1) := by rw [h.owned, ho, List.nil_append]
  refine ⟨by simp, by simp, by simp, ?_, ?_, by simp⟩
  · intro fd _
    show (Life.closeAll w' w'.owned).tbl fd = _
    rw [closeAll_tbl, hown]
    by_cases hm : fd ∈ l.map (·.1)
    · rw [if_pos hm]
      obtain ⟨p, hp, rfl⟩ := List.mem_map.1 hm
      exact (h.fresh p hp).symm
    · rw [if_neg hm]; exact h.other fd hm
  · show (Life.closeAll w' w'.owned).bad = _
    rw [closeAll_bad _ _ (hown ▸ h.nodup), h.bad]
    intro fd hfd
    rw [hown] at hfd
    obtain ⟨p, hp, rfl⟩ := List.mem_map.1 hfd
    rw [h.info p hp]; rfl

/-- A function whose result holds everything it opened. -/
theorem scope_outcome {w : W K} {moved : α → List Fd} {new : α → List (Fd × Info)} {m : M K α}
    (hnew : ∀ a, (new a).map (·.1) = moved a)
    (h : Inner { w with owned := [] } (fun a l => l = new a) (m { w with owned := [] })) :
    Outcome w new (scope moved m w) := by
  unfold Outcome Inner at *
  unfold scope
  rcases hr : m { w with owned := [] } with ⟨r, w'⟩
  rw [hr] at h
  cases r with
  | ok a =>
    obtain ⟨l, h, rfl⟩ := h
    have hown : w'.owned = moved a := by have := h.owned; rw [hnew] at this; simpa using this
    have hf : (w'.owned.filter fun fd => decide (fd ∉ moved a)) = [] := by
      rw [hown, List.filter_eq_nil_iff]; simp
    show Adds w { closeAll w' _ with owned := w.owned ++ moved a } (new a)
    rw [hf]
    exact ⟨h.nodup, h.fresh, h.info, h.other, h.bad, by rw [hnew]⟩
  | error e =>
    obtain ⟨l, h⟩ := h
    show Adds w { closeAll w' w'.owned with owned := w.owned } []
    have h' := h.closeAll rfl
    exact ⟨by simp, by simp, by simp, h'.other, h'.bad, by simp⟩

/-- A call inside a function. -/
theorem inner_bind {w : W K} {P : α → List (Fd × Info) → Prop} {Q : β → List (Fd × Info) → Prop} {m : M K α}
    {f : α → M K β} {w0 : W K} (h : Inner w0 P (m w)) (hf : ∀ a l w1, Adds w0 w1 l → P a l → Inner w0 Q (f a w1)) :
    Inner w0 Q ((m >>= f) w) := by
  show Inner w0 Q (andThen m f w)
  unfold andThen
  rcases hr : m w with ⟨r, w'⟩
  rw [hr] at h
  cases r with
  | ok a => obtain ⟨l, h, hp⟩ := h; exact hf a l w' h hp
  | error e => exact h

theorem inner_ret {w0 w : W K} {l} (h : Adds w0 w l) {Q : α → List (Fd × Info) → Prop} {a : α} (hq : Q a l) :
    Inner w0 Q (ret a w) := ⟨l, h, hq⟩

theorem inner_pure {w0 w : W K} {l} (h : Adds w0 w l) {Q : α → List (Fd × Info) → Prop} {a : α} (hq : Q a l) :
    Inner w0 Q ((pure a : M K α) w) := ⟨l, h, hq⟩

/-- Using the outcome of a whole function. -/
theorem inner_of {w0 w : W K} {l} (h : Adds w0 w l) {new : α → List (Fd × Info)} {r : Except Err α × W K}
    (hr : Outcome w new r) : Inner w0 (fun a l' => l' = l ++ new a) r := by
  unfold Outcome at hr
  unfold Inner
  split at hr
  · exact ⟨_, h.trans hr, rfl⟩
  · exact ⟨_, h.trans hr⟩

theorem inner_attempt {w0 w : W K} {l} (h : Adds w0 w l) {new : α → List (Fd × Info)} {m : M K α}
    (hr : Outcome w new (m w)) :
    Inner w0 (fun a l' => l' = l ++ (match a with | some a => new a | none => [])) (attempt m w) := by
  unfold attempt
  unfold Outcome at hr
  rcases hm : m w with ⟨r, w'⟩
  rw [hm] at hr
  cases r with
  | ok a => exact ⟨_, h.trans hr, rfl⟩
  | error e => exact ⟨_, h.trans hr, rfl⟩

variable (os : Os)

theorem openFd_outcome (s : Sys) (i : Info) (w : W K) : Outcome w (fun fd => [(fd, i)]) (openFd os s i w) := by
  unfold Outcome openFd
  cases os.fault s w.n with
  | some e => exact (Adds.refl w).same rfl rfl rfl
  | none =>
    dsimp only
    by_cases hn : w.tbl (os.fd w.n) = none
    · rw [if_pos hn]
      refine ⟨by simp, by simpa using hn, by simp [setTbl], ?_, rfl, by simp⟩
      intro fd hfd
      simp only [List.map_cons, List.map_nil, List.mem_singleton] at hfd
      simp [setTbl, hfd]
    · rw [if_neg hn]; exact (Adds.refl w).same rfl rfl rfl

theorem openPair_outcome (s : Sys) (i : Info) (w : W K) :
    Outcome w (fun p => [(p.1, i), (p.2, i)]) (openPair os s i w) := by
  unfold Outcome openPair
  cases os.fault s w.n with
  | some e => exact (Adds.refl w).same rfl rfl rfl
  | none =>
    dsimp only
    by_cases hn : w.tbl (os.fd w.n) = none ∧ w.tbl (os.fd2 w.n) = none ∧ os.fd w.n ≠ os.fd2 w.n
    · rw [if_pos hn]
      refine ⟨by simpa using hn.2.2, by simpa using ⟨hn.1, hn.2.1⟩, ?_, ?_, rfl, by simp⟩
      · simp [setTbl]
      · intro fd hfd
        simp only [List.map_cons, List.map_nil, List.mem_cons, List.not_mem_nil, or_false, not_or] at hfd
        simp [setTbl, hfd]
    · rw [if_neg hn]; exact (Adds.refl w).same rfl rfl rfl

theorem inner_sys {w0 w : W K} {l} (h : Adds w0 w l) (s : Sys) :
    Inner w0 (fun _ l' => l' = l) (sys os s w) := by
  unfold Inner sys
  cases os.fault s w.n with
  | some e => exact ⟨l, h.same rfl rfl rfl⟩
  | none => exact ⟨l, h.same rfl rfl rfl, rfl⟩

theorem inner_getfd {w0 w : W K} {l} (h : Adds w0 w l) (fd : Fd) :
    Inner w0 (fun _ l' => l' = l) (getfd os fd w) := by
  refine inner_bind (inner_sys os h _) ?_
  rintro a l' w1 h1 rfl
  exact ⟨l', h1, rfl⟩

theorem inner_getfl {w0 w : W K} {l} (h : Adds w0 w l) (fd : Fd) :
    Inner w0 (fun _ l' => l' = l) (getfl os fd w) := by
  refine inner_bind (inner_sys os h _) ?_
  rintro a l' w1 h1 rfl
  exact ⟨l', h1, rfl⟩

theorem inner_setfd {w0 w : W K} {l1 l2 fd i} (h : Adds w0 w (l1 ++ (fd, i) :: l2)) (b : Bool) :
    Inner w0 (fun _ l' => l' = l1 ++ (fd, { i with cloexec := b }) :: l2) (setfd os fd b w) := by
  refine inner_bind (inner_sys os h _) ?_
  rintro a l' w1 h1 rfl
  exact ⟨_, h1.set (fun i => { i with cloexec := b }) _ rfl rfl rfl, rfl⟩

theorem inner_setfl {w0 w : W K} {l1 l2 fd i} (h : Adds w0 w (l1 ++ (fd, i) :: l2)) (b : Bool) :
    Inner w0 (fun _ l' => l' = l1 ++ (fd, { i with nonblock := b }) :: l2) (setfl os fd b w) := by
  refine inner_bind (inner_sys os h _) ?_
  rintro a l' w1 h1 rfl
  exact ⟨_, h1.set (fun i => { i with nonblock := b }) _ rfl rfl rfl, rfl⟩

theorem fallbackPipe_outcome (w : W K) :
    Outcome w (fun p => [(p.1, ⟨true, false⟩), (p.2, ⟨true, false⟩)]) (fallbackPipe os w) := by
  unfold fallbackPipe
  refine scope_outcome (fun a => rfl) ?_
  refine inner_bind (inner_of (Adds.refl _) (openPair_outcome os _ _ _)) ?_
  rintro ⟨r, x⟩ l w1 h1 rfl
  refine inner_bind (inner_getfd os h1 r) ?_
  rintro f l w2 h2 rfl
  refine inner_bind (inner_setfd os (l1 := []) h2 _) ?_
  rintro _ l w3 h3 rfl
  refine inner_bind (inner_getfd os h3 x) ?_
  rintro g l w4 h4 rfl
  refine inner_bind (inner_setfd os (l1 := [(r, _)]) (l2 := []) h4 _) ?_
  rintro _ l w5 h5 rfl
  exact inner_ret h5 (by simp)

theorem inner_attemptIf {w0 w : W K} {l} (h : Adds w0 w l) {new : α → List (Fd × Info)} {m : M K α} (on : Bool)
    (hr : Outcome w new (m w)) :
    Inner w0 (fun a l' => l' = l ++ (match a with | some a => new a | none => [])) (attemptIf on m w) := by
  cases on with
  | true => exact inner_attempt h hr
  | false => exact inner_ret h (by simp)

theorem newPipe_outcome (hasPipe2 : Bool) (w : W K) :
    Outcome w (fun p => [(p.1, ⟨true, true⟩), (p.2, ⟨true, false⟩)]) (newPipe os hasPipe2 w) := by
  unfold newPipe
  refine scope_outcome (fun a => rfl) ?_
  refine inner_bind (inner_attemptIf (Adds.refl _) hasPipe2 (openPair_outcome os _ _ _)) ?_
  rintro a l w1 h1 rfl
  refine inner_bind (P := fun (p : Fd × Fd) l => l = [(p.1, ⟨true, false⟩), (p.2, ⟨true, false⟩)]) ?_ ?_
  · cases a with
    | some p => exact inner_ret h1 rfl
    | none => exact inner_of h1 (fallbackPipe_outcome os w1)
  · rintro ⟨r, x⟩ l w2 h2 rfl
    refine inner_bind (inner_getfl os h2 r) ?_
    rintro f l w3 h3 rfl
    refine inner_bind (inner_setfl os (l1 := []) h3 _) ?_
    rintro _ l w4 h4 rfl
    exact inner_ret h4 (by simp)

/-- The code does not touch the kernel object. -/
def Keeps (m : M K α) : Prop := ∀ w, (m w).2.k = w.k

theorem keeps_bind {m : M K α} {f : α → M K β} (h : Keeps m) (hf : ∀ a, Keeps (f a)) : Keeps (m >>= f) := by
  intro w
  show (andThen m f w).2.k = _
  unfold andThen
  have hw := h w
  rcases hr : m w with ⟨r, w'⟩
  rw [hr] at hw
  cases r with
  | ok a => exact (hf a w').trans hw
  | error e => exact hw

theorem keeps_ret (a : α) : Keeps (ret a : M K α) := fun _ => rfl

theorem keeps_attempt {m : M K α} (h : Keeps m) : Keeps (attempt m) := by
  intro w
  unfold attempt
  have hw := h w
  rcases hr : m w with ⟨r, w'⟩
  rw [hr] at hw
  cases r <;> exact hw

theorem keeps_scope {m : M K α} (moved : α → List Fd) (h : Keeps m) : Keeps (scope moved m) := by
  intro w
  unfold scope
  have hw := h { w with owned := [] }
  rcases hr : m { w with owned := [] } with ⟨r, w'⟩
  rw [hr] at hw
  cases r with
  | ok a => exact (closeAll_k _ _).trans hw
  | error e => exact (closeAll_k _ _).trans hw

theorem keeps_sys (s : Sys) : Keeps (sys os s : M K Unit) := fun _ => rfl

theorem keeps_openFd (s : Sys) (i : Info) : Keeps (openFd os s i : M K Fd) := by
  intro w
  unfold openFd
  cases os.fault s w.n with
  | some e => rfl
  | none => dsimp only; split <;> rfl

theorem keeps_openPair (s : Sys) (i : Info) : Keeps (openPair os s i : M K (Fd × Fd)) := by
  intro w
  unfold openPair
  cases os.fault s w.n with
  | some e => rfl
  | none => dsimp only; split <;> rfl

theorem keeps_getfd (fd : Fd) : Keeps (getfd os fd : M K Bool) := keeps_bind (keeps_sys os _) fun _ _ => rfl
theorem keeps_getfl (fd : Fd) : Keeps (getfl os fd : M K Bool) := keeps_bind (keeps_sys os _) fun _ _ => rfl
theorem keeps_setfd (fd : Fd) (b : Bool) : Keeps (setfd os fd b : M K Unit) := keeps_bind (keeps_sys os _) fun _ _ => rfl
theorem keeps_setfl (fd : Fd) (b : Bool) : Keeps (setfl os fd b : M K Unit) := keeps_bind (keeps_sys os _) fun _ _ => rfl

theorem keeps_fallbackPipe : Keeps (fallbackPipe os : M K (Fd × Fd)) := by
  refine keeps_scope _ (keeps_bind (keeps_openPair os _ _) ?_)
  rintro ⟨r, x⟩
  exact keeps_bind (keeps_getfd os _) fun _ => keeps_bind (keeps_setfd os _ _) fun _ =>
    keeps_bind (keeps_getfd os _) fun _ => keeps_bind (keeps_setfd os _ _) fun _ => keeps_ret _

theorem keeps_attemptIf {m : M K α} (on : Bool) (h : Keeps m) : Keeps (attemptIf on m) := by
  cases on
  · exact keeps_ret _
  · exact keeps_attempt h

theorem keeps_newPipe (b : Bool) : Keeps (newPipe os b : M K (Fd × Fd)) := by
  refine keeps_scope _ (keeps_bind (keeps_attemptIf b (keeps_openPair os _ _)) fun a => keeps_bind ?_ ?_)
  · cases a
    · exact keeps_fallbackPipe os
    · exact keeps_ret _
  · rintro ⟨r, x⟩
    exact keeps_bind (keeps_getfl os _) fun _ => keeps_bind (keeps_setfl os _ _) fun _ => keeps_ret _

/-- The code changes the kernel object and makes system calls; descriptors are left alone. -/
def Pure (m : M K α) : Prop := ∀ w, (m w).2.tbl = w.tbl ∧ (m w).2.bad = w.bad ∧ (m w).2.owned = w.owned

theorem pure_bind {m : M K α} {f : α → M K β} (h : Pure m) (hf : ∀ a, Pure (f a)) : Pure (m >>= f) := by
  intro w
  show (andThen m f w).2.tbl = _ ∧ (andThen m f w).2.bad = _ ∧ (andThen m f w).2.owned = _
  unfold andThen
  have hw := h w
  rcases hr : m w with ⟨r, w'⟩
  rw [hr] at hw
  cases r with
  | ok a =>
    have := hf a w'
    exact ⟨this.1.trans hw.1, this.2.1.trans hw.2.1, this.2.2.trans hw.2.2⟩
  | error e => exact hw

theorem pure_attempt {m : M K α} (h : Pure m) : Pure (attempt m) := by
  intro w
  unfold attempt
  have hw := h w
  rcases hr : m w with ⟨r, w'⟩
  rw [hr] at hw
  cases r <;> exact hw

theorem pure_ret (a : α) : Pure (ret a : M K α) := fun _ => ⟨rfl, rfl, rfl⟩

/-- `Drop` closes exactly these descriptors, each once. -/
def Closes (fds : List Fd) (m : M K Unit) : Prop :=
  ∀ w, fds.Nodup → (∀ fd ∈ fds, (w.tbl fd).isSome = true) →
    (∀ fd, (m w).2.tbl fd = if fd ∈ fds then none else w.tbl fd) ∧ (m w).2.bad = w.bad ∧ (m w).2.owned = w.owned

/-- The shape of `Poller::new`: build the value, then set it up, dropping it if that fails. -/
theorem new_outcome {P : Type} {w : W K} {fds : P → List Fd} {new : P → List (Fd × Info)}
    (hnew : ∀ p, (new p).map (·.1) = fds p) {build : M K P} {setup drop : P → M K Unit}
    (hb : Inner { w with owned := [] } (fun p l => l = new p) (build { w with owned := [] }))
    (hs : ∀ p, Pure (setup p)) (hd : ∀ p, Closes (fds p) (drop p)) :
    Outcome w new (scope fds (do let p ← build; orDrop (fds p) (drop p) (setup p); ret p) w) := by
  have hf : ∀ (l : List Fd), (l.filter fun fd => decide (fd ∉ l)) = [] := by
    intro l; rw [List.filter_eq_nil_iff]; simp
  show Outcome w new (scope fds (andThen build fun p => andThen (orDrop (fds p) (drop p) (setup p)) fun _ => ret p) w)
  unfold Outcome scope andThen
  unfold Inner at hb
  rcases hr : build { w with owned := [] } with ⟨r, w1⟩
  rw [hr] at hb
  cases r with
  | error e =>
    obtain ⟨l, h⟩ := hb
    have h' := h.closeAll rfl
    exact ⟨by simp, by simp, by simp, h'.other, h'.bad, by simp⟩
  | ok p =>
    obtain ⟨l, h, rfl⟩ := hb
    dsimp only at h ⊢
    have hown : w1.owned = fds p := by have := h.owned; rw [hnew] at this; simpa using this
    have hfil : (w1.owned.filter fun fd => decide (fd ∉ fds p)) = [] := by rw [hown]; exact hf _
    unfold orDrop
    rw [hfil]
    have hsp := hs p { w1 with owned := [] }
    rcases hr2 : setup p { w1 with owned := [] } with ⟨r2, w2⟩
    rw [hr2] at hsp
    obtain ⟨ht, hbad, ho⟩ := hsp
    cases r2 with
    | ok u =>
      dsimp only at ht hbad ho ⊢
      unfold ret
      dsimp only
      have : w2.owned.filter (fun fd => decide (fd ∉ fds p)) = [] := by rw [ho]; rfl
      rw [this]
      refine ⟨h.nodup, h.fresh, ?_, ?_, hbad.trans h.bad, by rw [hnew]⟩
      · intro q hq; show w2.tbl q.1 = _; rw [ht]; exact h.info q hq
      · intro fd hfd; show w2.tbl fd = _; rw [ht]; exact h.other fd hfd
    | error e =>
      dsimp only at ht hbad ho ⊢
      have hd' := hd p w2 (hnew p ▸ h.nodup) (by
        intro fd hfd
        rw [← hnew] at hfd
        obtain ⟨q, hq, rfl⟩ := List.mem_map.1 hfd
        rw [ht]
        show (w1.tbl q.1).isSome = true
        rw [h.info q hq]; rfl)
      obtain ⟨hd1, hd2, hd3⟩ := hd'
      rw [hd3, ho]
      refine ⟨by simp, by simp, by simp, ?_, hd2.trans (hbad.trans h.bad), by simp⟩
      intro fd _
      show (drop p w2).2.tbl fd = _
      rw [hd1, ht]
      by_cases hm : fd ∈ fds p
      · rw [if_pos hm]
        rw [← hnew] at hm
        obtain ⟨q, hq, rfl⟩ := List.mem_map.1 hm
        exact (h.fresh q hq).symm
      · rw [if_neg hm]; exact h.other fd (hnew p ▸ hm)

/-- … and the kernel object of a poller that was made is what the set-up made of the initial one. -/
theorem new_kernel {P : Type} {w w' : W K} {fds : P → List Fd} {build : M K P} {setup drop : P → M K Unit} {p : P}
    (hk : Keeps build)
    (h : scope fds (do let p ← build; orDrop (fds p) (drop p) (setup p); ret p) w = (.ok p, w')) :
    (∃ w0, (build w0).1 = .ok p) ∧ ∃ w1, w1.k = w.k ∧ (setup p w1).1 = .ok () ∧ (setup p w1).2.k = w'.k := by
  change scope fds (andThen build fun p => andThen (orDrop (fds p) (drop p) (setup p)) fun _ => ret p) w = _ at h
  unfold scope andThen at h
  have hkw := hk { w with owned := [] }
  rcases hr : build { w with owned := [] } with ⟨r, w1⟩
  rw [hr] at h hkw
  cases r with
  | error e => cases h
  | ok q =>
    dsimp only at h hkw
    unfold orDrop at h
    rcases hr2 : setup q { w1 with owned := w1.owned.filter fun fd => decide (fd ∉ fds q) } with ⟨r2, w2⟩
    rw [hr2] at h
    cases r2 with
    | error e => cases h
    | ok u =>
      unfold ret at h
      dsimp only at h
      cases h
      refine ⟨⟨_, by rw [hr]⟩, { w1 with owned := w1.owned.filter fun fd => decide (fd ∉ fds p) }, hkw, by rw [hr2], ?_⟩
      rw [hr2]
      exact (closeAll_k _ _).symm

/-! ### epoll -/

/-- The flags the descriptors of the notifier have. -/
def Notifier.infos : Notifier → List (Fd × Info)
  | .eventFd fd => [(fd, ⟨true, true⟩)]
  | .pipe r w => [(r, ⟨true, true⟩), (w, ⟨true, false⟩)]

theorem notifierNew_outcome (b : Bool) (w : W K) : Outcome w Notifier.infos (notifierNew os b w) := by
  unfold notifierNew
  refine scope_outcome (fun a => by cases a <;> rfl) ?_
  refine inner_bind (inner_attemptIf (Adds.refl _) _ (openFd_outcome os _ _ _)) ?_
  rintro a l w1 h1 rfl
  cases a with
  | some fd => exact inner_ret h1 rfl
  | none =>
    refine inner_bind (inner_of h1 (newPipe_outcome os true w1)) ?_
    rintro ⟨r, x⟩ l w2 h2 rfl
    exact inner_ret h2 rfl

theorem keeps_notifierNew (b : Bool) : Keeps (notifierNew os b : M K Notifier) := by
  refine keeps_scope _ (keeps_bind (keeps_attemptIf _ (keeps_openFd os _ _)) fun a => ?_)
  cases a
  · exact keeps_bind (keeps_newPipe os _) fun ⟨r, x⟩ => keeps_ret _
  · exact keeps_ret _

def EpollPoller.infos (p : EpollPoller) : List (Fd × Info) :=
  [(p.epollFd, ⟨true, false⟩)] ++ p.notifier.infos ++ (match p.timerFd with | some t => [(t, ⟨true, true⟩)] | none => [])

theorem epollBuild_inner (b redox : Bool) (w : W EpollM.Kern) :
    Inner { w with owned := [] } (fun p l => l = p.infos) (epollBuild os b redox { w with owned := [] }) := by
  unfold epollBuild
  refine inner_bind (inner_of (Adds.refl _) (openFd_outcome os _ _ _)) ?_
  rintro ep l w1 h1 rfl
  refine inner_bind (inner_of h1 (notifierNew_outcome os b w1)) ?_
  rintro n l w2 h2 rfl
  refine inner_bind (inner_attemptIf h2 _ (openFd_outcome os _ _ _)) ?_
  rintro t l w3 h3 rfl
  exact inner_ret h3 (by cases t <;> rfl)

theorem keeps_epollBuild (b redox : Bool) : Keeps (epollBuild os b redox) :=
  keeps_bind (keeps_openFd os _ _) fun _ => keeps_bind (keeps_notifierNew os _) fun _ =>
    keeps_bind (keeps_attemptIf _ (keeps_openFd os _ _)) fun _ => keeps_ret _

theorem epollAdd_pure (p : EpollPoller) (fd : Fd) (ev mode) : Pure (epollAdd os p fd ev mode) := by
  intro w; unfold epollAdd; split <;> exact ⟨rfl, rfl, rfl⟩
theorem epollDelete_pure (fd : Fd) : Pure (epollDelete os fd) := by
  intro w; unfold epollDelete; split <;> exact ⟨rfl, rfl, rfl⟩

theorem epollSetup_pure (p : EpollPoller) : Pure (epollSetup os p) := by
  refine pure_bind ?_ fun _ => epollAdd_pure os _ _ _ _
  cases p.timerFd
  · exact pure_ret _
  · exact epollAdd_pure os _ _ _ _

theorem infos_fds (p : EpollPoller) : p.infos.map (·.1) = p.fds := by
  rcases p with ⟨ep, n, _ | t⟩ <;> cases n <;> rfl

theorem closes_closeAll (fds : List Fd) : Closes fds (fun w => (.ok (), closeAll w fds) : M K Unit) :=
  fun w hn ho => ⟨closeAll_tbl w fds, closeAll_bad w fds hn ho, closeAll_owned w fds⟩

/-- Code that leaves descriptors alone and does not fail, then a drop. -/
theorem closes_after {m : M K α} {d : M K Unit} {fds} (hm : Pure m) (hok : ∀ w, ∃ a, (m w).1 = .ok a) (hd : Closes fds d) :
    Closes fds (m >>= fun _ => d) := by
  intro w hn ho
  show (∀ fd, (andThen m (fun _ => d) w).2.tbl fd = _) ∧ (andThen m (fun _ => d) w).2.bad = _ ∧
    (andThen m (fun _ => d) w).2.owned = _
  unfold andThen
  have hw := hm w
  obtain ⟨a, ha⟩ := hok w
  rcases hr : m w with ⟨r, w'⟩
  rw [hr] at hw ha
  subst ha
  dsimp only at hw ⊢
  obtain ⟨h1, h2, h3⟩ := hd w' hn (by rw [hw.1]; exact ho)
  exact ⟨fun fd => by rw [h1, hw.1], h2.trans hw.2.1, h3.trans hw.2.2⟩

theorem attempt_ok (m : M K α) (w : W K) : ∃ a, (attempt m w).1 = .ok a := by
  unfold attempt
  rcases m w with ⟨r, w'⟩
  cases r <;> exact ⟨_, rfl⟩

/-- Two drops, one after the other. -/
theorem closes_append {d1 d2 : M K Unit} {l1 l2} (h1 : Closes l1 d1) (hok : ∀ w, (d1 w).1 = .ok ()) (h2 : Closes l2 d2) :
    Closes (l1 ++ l2) (d1 >>= fun _ => d2) := by
  intro w hn ho
  show (∀ fd, (andThen d1 (fun _ => d2) w).2.tbl fd = _) ∧ (andThen d1 (fun _ => d2) w).2.bad = _ ∧
    (andThen d1 (fun _ => d2) w).2.owned = _
  unfold andThen
  rw [List.nodup_append] at hn
  obtain ⟨ha, hb, hc⟩ := h1 w hn.1 fun fd hfd => ho fd (by simp [hfd])
  have hk := hok w
  rcases hr : d1 w with ⟨r, w'⟩
  rw [hr] at ha hb hc hk
  dsimp only at hk ha hb hc
  subst hk
  dsimp only
  obtain ⟨ha', hb', hc'⟩ := h2 w' hn.2.1 (by
    intro fd hfd
    have : fd ∉ l1 := fun hm => hn.2.2 fd hm fd hfd rfl
    rw [ha, if_neg this]
    exact ho fd (by simp [hfd]))
  refine ⟨fun fd => ?_, hb'.trans hb, hc'.trans hc⟩
  rw [ha', ha]
  by_cases hm1 : fd ∈ l1 <;> by_cases hm2 : fd ∈ l2 <;> simp [hm1, hm2]

/-- The same descriptors in another order. -/
theorem closes_perm {d : M K Unit} {l1 l2 : List Fd} (hp : l1.Perm l2) (h : Closes l1 d) : Closes l2 d := by
  intro w hn ho
  obtain ⟨h1, h2⟩ := h w (hp.nodup_iff.2 hn) fun fd hfd => ho fd (hp.mem_iff.1 hfd)
  exact ⟨fun fd => by simp only [h1, hp.mem_iff], h2⟩

theorem epollDrop_closes (p : EpollPoller) : Closes p.fds (epollDrop os p) := by
  have h2 : Closes ([p.epollFd] ++ p.notifier.fds)
      (attempt (epollDelete os p.notifier.asFd) >>= fun _ w => (.ok (), closeAll w ([p.epollFd] ++ p.notifier.fds))) :=
    closes_after (pure_attempt (epollDelete_pure os _)) (attempt_ok _) (closes_closeAll _)
  have h1 : Closes p.timerFd.toList (epollDropTimer os p.timerFd) := by
    cases p.timerFd with
    | none => exact fun w _ _ => ⟨fun fd => rfl, rfl, rfl⟩
    | some t => exact closes_after (pure_attempt (epollDelete_pure os _)) (attempt_ok _) (closes_closeAll [t])
  have hok : ∀ w, (epollDropTimer os p.timerFd w).1 = .ok () := by
    intro w
    cases p.timerFd with
    | none => rfl
    | some t =>
      show (andThen (attempt (epollDelete os t)) _ w).1 = _
      unfold andThen
      obtain ⟨a, ha⟩ := attempt_ok (epollDelete os t) w
      rcases hr : attempt (epollDelete os t) w with ⟨r, w'⟩
      rw [hr] at ha
      cases ha
      rfl
  exact closes_perm List.perm_append_comm (closes_append h1 hok h2)

theorem epollNew_outcome (b redox : Bool) (w : W EpollM.Kern) :
    Outcome w EpollPoller.infos (epollNew os b redox w) :=
  new_outcome infos_fds (epollBuild_inner os b redox w) (epollSetup_pure os) (epollDrop_closes os)

/-! ### kqueue -/

def KqNotify.infos : KqNotify → List (Fd × Info)
  | .user => []
  | .pair r w => [(r, ⟨true, true⟩), (w, ⟨true, true⟩)]

def KqPoller.infos (p : KqPoller) : List (Fd × Info) := [(p.kqueueFd, ⟨true, false⟩)] ++ p.notify.infos

theorem kq_infos_fds (p : KqPoller) : p.infos.map (·.1) = p.fds := by
  rcases p with ⟨kq, _ | _⟩ <;> rfl

theorem kqNotifyNew_outcome (user : Bool) (w : W K) : Outcome w KqNotify.infos (kqNotifyNew os user w) := by
  cases user with
  | true => exact Adds.refl w
  | false =>
    refine scope_outcome (m := do
      let (r, w) ← openPair os .socketpair ⟨true, false⟩
      setfl os r true
      setfl os w true
      ret (KqNotify.pair r w)) (fun a => by cases a <;> rfl) ?_
    refine inner_bind (inner_of (Adds.refl _) (openPair_outcome os _ _ _)) ?_
    rintro ⟨r, x⟩ l w1 h1 rfl
    refine inner_bind (inner_setfl os (l1 := []) h1 _) ?_
    rintro _ l w2 h2 rfl
    refine inner_bind (inner_setfl os (l1 := [(r, _)]) (l2 := []) h2 _) ?_
    rintro _ l w3 h3 rfl
    exact inner_ret h3 rfl

theorem kqBuild_inner (user : Bool) (w : W K) :
    Inner { w with owned := [] } (fun p l => l = p.infos) (kqBuild os user { w with owned := [] }) := by
  unfold kqBuild
  refine inner_bind (inner_of (Adds.refl _) (openFd_outcome os _ _ _)) ?_
  rintro kq l w1 h1 rfl
  refine inner_bind (inner_setfd os (l1 := []) (l2 := []) h1 _) ?_
  rintro _ l w2 h2 rfl
  refine inner_bind (inner_of h2 (kqNotifyNew_outcome os user w2)) ?_
  rintro n l w3 h3 rfl
  exact inner_ret h3 rfl

theorem keeps_kqNotifyNew (user : Bool) : Keeps (kqNotifyNew os user : M K KqNotify) := by
  cases user
  · exact keeps_scope _ (keeps_bind (keeps_openPair os _ _) fun ⟨r, x⟩ => keeps_bind (keeps_setfl os _ _) fun _ =>
      keeps_bind (keeps_setfl os _ _) fun _ => keeps_ret _)
  · exact keeps_ret _

theorem keeps_kqBuild (user : Bool) : Keeps (kqBuild os user : M K KqPoller) :=
  keeps_bind (keeps_openFd os _ _) fun _ => keeps_bind (keeps_setfd os _ _) fun _ =>
    keeps_bind (keeps_kqNotifyNew os _) fun _ => keeps_ret _

theorem bind_ok {m : M K α} {f : α → M K β} {w : W K} {b : β} (h : ((m >>= f) w).1 = .ok b) :
    ∃ a, (m w).1 = .ok a ∧ (f a (m w).2).1 = .ok b := by
  change (andThen m f w).1 = _ at h
  unfold andThen at h
  rcases hr : m w with ⟨r, w'⟩
  rw [hr] at h
  cases r with
  | ok a => exact ⟨a, rfl, h⟩
  | error e => cases h

theorem scope_ok {m : M K α} {moved : α → List Fd} {w : W K} {a : α} (h : (scope moved m w).1 = .ok a) :
    (m { w with owned := [] }).1 = .ok a := by
  unfold scope at h
  rcases hr : m { w with owned := [] } with ⟨r, w'⟩
  rw [hr] at h
  cases r with
  | ok b => cases h; rfl
  | error e => cases h

/-- The notifier is of the kind the platform has. -/
theorem kqBuild_kind (user : Bool) (w : W K) (p : KqPoller) (h : (kqBuild os user w).1 = .ok p) :
    (user = true ∧ p.notify = .user) ∨ (user = false ∧ ∃ r x, p.notify = .pair r x) := by
  obtain ⟨kq, _, h⟩ := bind_ok h
  obtain ⟨_, _, h⟩ := bind_ok h
  obtain ⟨n, hn, h⟩ := bind_ok h
  cases h
  cases user with
  | true => cases hn; exact .inl ⟨rfl, rfl⟩
  | false =>
    obtain ⟨⟨r, x⟩, _, hn⟩ := bind_ok (scope_ok hn)
    obtain ⟨_, _, hn⟩ := bind_ok hn
    obtain ⟨_, _, hn⟩ := bind_ok hn
    cases hn
    exact .inr ⟨rfl, r, x, rfl⟩

theorem kqSubmit_pure (c : KqM.Cfg) (chg) : Pure (kqSubmit os c chg) := by
  intro w
  unfold kqSubmit
  cases os.fault .kevent w.n with
  | some e => exact ⟨rfl, rfl, rfl⟩
  | none =>
    dsimp only
    have key : ∀ (chg : List Kqueue.KEvent) (x : W KqState × List Kqueue.KEvent),
        let r := (chg.foldl (fun (x : W KqState × List Kqueue.KEvent) ev =>
          ({ x.1 with n := x.1.n + 1, k := { x.1.k with k := (KqM.register c (os.errno x.1.n) x.1.k.k ev).2 } },
            x.2 ++ [KqM.receipt ev (KqM.register c (os.errno x.1.n) x.1.k.k ev).1])) x).1
        r.tbl = x.1.tbl ∧ r.bad = x.1.bad ∧ r.owned = x.1.owned := by
      intro chg
      induction chg with
      | nil => exact fun x => ⟨rfl, rfl, rfl⟩
      | cons ev chg ih => exact fun x => ih _
    exact key chg _

theorem kqAdd_pure (c : KqM.Cfg) (fd : Fd) : Pure (kqAdd os c fd) := by
  intro w
  unfold kqAdd
  split
  · exact ⟨rfl, rfl, rfl⟩
  · exact kqSubmit_pure os c _ _

theorem kqDelete_pure (c : KqM.Cfg) (fd : Fd) : Pure (kqDelete os c fd) := by
  refine pure_bind ?_ fun _ => pure_bind (kqSubmit_pure os c _) fun _ => ?_
  · intro w; dsimp only; split <;> exact ⟨rfl, rfl, rfl⟩
  · exact fun w => ⟨rfl, rfl, rfl⟩

theorem kqRegister_pure (c : KqM.Cfg) (n : KqNotify) : Pure (kqRegister os c n) := by
  cases n
  · exact kqSubmit_pure os c _
  · exact kqAdd_pure os c _

theorem kqDeregister_pure (c : KqM.Cfg) (n : KqNotify) : Pure (kqDeregister os c n) := by
  cases n
  · exact kqSubmit_pure os c _
  · exact kqDelete_pure os c _

theorem kqDrop_closes (c : KqM.Cfg) (p : KqPoller) : Closes p.fds (kqDrop os c p) :=
  closes_after (pure_attempt (kqDeregister_pure os c _)) (attempt_ok _) (closes_closeAll _)

theorem kqNew_outcome (c : KqM.Cfg) (w : W KqState) : Outcome w KqPoller.infos (kqNew os c w) :=
  new_outcome kq_infos_fds (kqBuild_inner os c.user w) (fun p => kqRegister_pure os (p.cfg c) p.notify)
    (fun p => kqDrop_closes os (p.cfg c) p)

/-! ### event ports and poll -/

theorem portNew_outcome (w : W K) : Outcome w (fun fd => [(fd, ⟨true, false⟩)]) (portNew os w) := by
  unfold portNew
  refine scope_outcome (fun a => rfl) ?_
  refine inner_bind (inner_of (Adds.refl _) (openFd_outcome os _ _ _)) ?_
  rintro fd l w1 h1 rfl
  refine inner_bind (inner_getfd os h1 fd) ?_
  rintro f l w2 h2 rfl
  refine inner_bind (inner_setfd os (l1 := []) (l2 := []) h2 _) ?_
  rintro _ l w3 h3 rfl
  exact inner_ret h3 (by simp)

theorem pollNotify_pipe_outcome (b : Bool) (w : W K) :
    Outcome w (fun n => [(n.readFd, ⟨true, true⟩), (n.writeFd, ⟨true, false⟩)]) (pollNotifyNew os (.pipe b) w) := by
  refine scope_outcome (m := do
    let (r, w) ← newPipe os b
    ret (⟨r, w, RDNORM⟩ : PollB.NotifyFds)) (fun a => rfl) ?_
  refine inner_bind (inner_of (Adds.refl _) (newPipe_outcome os _ _)) ?_
  rintro ⟨r, x⟩ l w1 h1 rfl
  exact inner_ret h1 rfl

theorem pollNotify_eventfd_outcome (w : W K) :
    Outcome w (fun n => [(n.readFd, ⟨false, true⟩)]) (pollNotifyNew os .eventfd w) := by
  refine scope_outcome (m := do
    let fd ← openFd os .eventfd ⟨false, true⟩
    ret (⟨fd, fd, PollFlags.IN⟩ : PollB.NotifyFds)) (fun a => rfl) ?_
  refine inner_bind (inner_of (Adds.refl _) (openFd_outcome os _ _ _)) ?_
  rintro fd l w1 h1 rfl
  exact inner_ret h1 rfl

/-! ### IOCP -/

theorem inner_asUnsupported {w0 w : W K} {Q : α → List (Fd × Info) → Prop} {m : M K α} (h : Inner w0 Q (m w)) :
    Inner w0 Q (asUnsupported m w) := by
  unfold asUnsupported
  rcases hr : m w with ⟨r, w'⟩
  rw [hr] at h
  cases r <;> exact h

theorem afdProbe_outcome (w : W K) : Outcome w (fun _ => []) (afdProbe os w) := by
  show Outcome w _ (scope _ (andThen (openFd os .afd ⟨true, false⟩) fun _ => ret ()) w)
  unfold scope andThen
  have h := openFd_outcome (K := K) os .afd ⟨true, false⟩ { w with owned := [] }
  rcases hr : openFd os .afd ⟨true, false⟩ { w with owned := [] } with ⟨r, w'⟩
  rw [hr] at h
  cases r with
  | ok a =>
    have h' : Adds { w with owned := [] } w' [(a, ⟨true, false⟩)] := h
    have h'' := h'.closeAll rfl
    have hf : (w'.owned.filter fun fd => decide (fd ∉ ([] : List Fd))) = w'.owned := by simp
    unfold ret Outcome
    dsimp only
    rw [hf]
    exact ⟨by simp, by simp, by simp, h''.other, h''.bad, by simp⟩
  | error e =>
    have h' : Adds { w with owned := [] } w' [] := h
    have h'' := h'.closeAll rfl
    exact ⟨by simp, by simp, by simp, h''.other, h''.bad, by simp⟩

theorem iocpNew_outcome (w : W K) : Outcome w (fun fd => [(fd, ⟨true, false⟩)]) (iocpNew os w) := by
  unfold iocpNew
  refine scope_outcome (fun a => rfl) ?_
  refine inner_bind (inner_asUnsupported (inner_sys os (Adds.refl _) _)) ?_
  rintro _ l w1 h1 rfl
  refine inner_bind (inner_asUnsupported (inner_of h1 (afdProbe_outcome os w1))) ?_
  rintro _ l w2 h2 rfl
  exact inner_of h2 (openFd_outcome os _ _ _)

end Polling.Life
