import Verif.Proof.EpollInv

/-! Every reachable state of the epoll machine satisfies the invariants. -/

namespace Polling.EpollM
open Epoll Spec

/-- Kernel tables and history agree. -/
structure KInv (c : Cfg) (k : Kern) (tr : List (Obs EventExtra)) : Prop where
  l : L c k
  r : R c k.items (current tr)

/-- Observations that do not change registrations. -/
theorem KInv.obs {c k} {tr : List (Obs EventExtra)} (h : KInv c k tr) (o : Obs EventExtra)
    (ho : current (o :: tr) = current tr) : KInv c k (o :: tr) := ⟨h.l, by rw [ho]; exact h.r⟩

/-- Fewer ready conditions keep the invariant. -/
theorem KInv.shrink {c : Cfg} {k k' : Kern} {tr : List (Obs EventExtra)} (h : KInv c k tr)
    (hi : k'.items = k.items) (hr : k'.rdl = k.rdl)
    (hrd : ∀ fd f, ready c k' fd &&& f ≠ 0#32 → ready c k fd &&& f ≠ 0#32) : KInv c k' tr := by
  refine ⟨⟨by rw [hr]; exact h.l.nodup, by rw [hr, hi]; exact h.l.sub, ?_⟩, by rw [hi]; exact h.r⟩
  intro fd it hit het hne
  rw [hr]
  rw [hi] at hit
  refine h.l.linked fd it hit het ?_
  rw [BitVec.and_assoc] at hne ⊢
  exact hrd fd _ hne

theorem setItem_items (k : Kern) (fd : Fd) (it : Option Item) :
    (setItem k fd it).items = fun x => if x = fd then it else k.items x := rfl

theorem add_kinv {c : Cfg} {k k' : Kern} {tr : List (Obs EventExtra)} {fault fd ev mode res} (h : KInv c k tr)
    (hf : c.internal fd = false) (hb : buildable ev = true) (hk : ev.key ≠ NOTIFY_KEY)
    (heq : EpollM.add c fault k fd ev mode = (res, k')) :
    (res = .ok ∧ k.items fd = none ∧ KInv c k' (.reg fd ev mode :: tr)) ∨ ((∃ e, res = .err e) ∧ k' = k) := by
  rcases ctlAdd_cases heq with ⟨h1, h2, rfl⟩ | h2
  · refine .inl ⟨h1, h2, setlink_L h.l _ _, ?_⟩
    rw [link_items, setItem_items]
    exact R_reg h.r hf hb hk
  · exact .inr h2

theorem modify_kinv {c : Cfg} {k k' : Kern} {tr : List (Obs EventExtra)} {fault fd ev mode res} (h : KInv c k tr)
    (hf : c.internal fd = false) (hb : buildable ev = true) (hk : ev.key ≠ NOTIFY_KEY)
    (heq : EpollM.modify c fault k fd ev mode = (res, k')) :
    (res = .ok ∧ (k.items fd).isSome = true ∧ KInv c k' (.reg fd ev mode :: tr)) ∨ ((∃ e, res = .err e) ∧ k' = k) := by
  rcases ctlMod_cases heq with ⟨h1, h2, rfl⟩ | h2
  · refine .inl ⟨h1, h2, setlink_L h.l _ _, ?_⟩
    rw [link_items, setItem_items]
    exact R_reg h.r hf hb hk
  · exact .inr h2

theorem delete_kinv {c : Cfg} {k k' : Kern} {tr : List (Obs EventExtra)} {fault fd res} (h : KInv c k tr)
    (hf : c.internal fd = false) (heq : EpollM.delete fault k fd = (res, k')) :
    (res = .ok ∧ (k.items fd).isSome = true ∧ KInv c k' (.unreg fd :: tr)) ∨ ((∃ e, res = .err e) ∧ k' = k) := by
  rcases ctlDel_cases heq with ⟨h1, h2, rfl⟩ | h2
  · exact .inl ⟨h1, h2, del_L h.l _, R_unreg h.r hf⟩
  · exact .inr h2

theorem internal_kinv {c : Cfg} {k k' : Kern} {tr : List (Obs EventExtra)} {fault fd res} (h : KInv c k tr)
    (hf : c.internal fd = true)
    (heq : EpollM.modify c fault k fd (Event.onlyReadable NOTIFY_KEY) .oneshot = (res, k')) :
    (res = .ok ∧ KInv c k' tr ∧ k'.items fd = some ⟨ARMED, NK⟩ ∧ (∀ x, x ≠ fd → k'.items x = k.items x) ∧
      k' = { k with items := k'.items, rdl := k'.rdl }) ∨
    ((∃ e, res = .err e) ∧ k' = k) := by
  rcases ctlMod_cases heq with ⟨h1, h2, rfl⟩ | h2
  · refine .inl ⟨h1, ⟨setlink_L h.l _ _, ?_⟩, ?_, ?_, ?_⟩
    · rw [link_items, setItem_items]
      exact R_internal h.r hf
    · rw [link_items, setItem_items]; simp only [if_true]; rfl
    · intro x hx; rw [link_items, setItem_items]; simp [hx]
    · rw [link_eq]; rfl
  · exact .inr h2

theorem modify_ok_of_some {c : Cfg} {k : Kern} {fd ev mode} (h : (k.items fd).isSome = true) :
    (EpollM.modify c none k fd ev mode).1 = .ok := by
  unfold EpollM.modify ctlMod
  obtain ⟨it, hit⟩ := Option.isSome_iff_exists.1 h
  simp [hit]

/-- Gaining conditions, if the file wakes its waiters for them. -/
theorem wake_kinv {c : Cfg} {k k0 : Kern} {tr : List (Obs EventExtra)} {fd : Fd} {key : Flags} (h : KInv c k0 tr)
    (hi : k.items = k0.items) (hr : k.rdl = k0.rdl) (hx : ∀ x, x ≠ fd → ready c k x = ready c k0 x)
    (hfd : ∀ f, ready c k fd &&& f ≠ 0#32 → ready c k0 fd &&& f ≠ 0#32 ∨ key &&& f ≠ 0#32) :
    KInv c (link k fd key) tr := by
  refine ⟨link_L (by rw [hr]; exact h.l.nodup) (by rw [hr, hi]; exact h.l.sub) ?_, by rw [link_items, hi]; exact h.r⟩
  intro x it hit het hne
  rw [hi] at hit
  by_cases hxf : x = fd
  · subst hxf
    rw [BitVec.and_assoc] at hne
    rcases hfd _ hne with h1 | h1
    · left; rw [hr]; exact h.l.linked x it hit het (by rw [BitVec.and_assoc]; exact h1)
    · right; exact ⟨rfl, by rw [BitVec.and_assoc]; exact h1⟩
  · left; rw [hr]; rw [hx x hxf] at hne; exact h.l.linked x it hit het hne

theorem init_kinv (c : Cfg) (hok : c.Ok) (user : Fd → Flags) : KInv c (init c user).k [] := by
  have hcur : ∀ fd, current ([] : List (Obs EventExtra)) fd = none := fun _ => rfl
  -- the interest list
  have hitems : (init c user).k.items = fun x => if x = c.notifFd then some ⟨ARMED, NK⟩ else
      if c.hasTimer = true ∧ x = c.timerFd then some ⟨UNARMED, NK⟩ else none := by
    unfold init
    cases ht : c.hasTimer with
    | false =>
      simp only [EpollM.add, ctlAdd, Bool.false_eq_true, if_false, link_items, setItem_items]
      funext x; simp [ARMED, NK]; rfl
    | true =>
      have hne : c.notifFd ≠ c.timerFd := fun h => hok ht h.symm
      simp only [EpollM.add, ctlAdd, if_true, link_items, setItem_items, hne, if_false]
      funext x; simp [ARMED, UNARMED, NK]; rfl
  have hcount : (init c user).k.count = 0 ∧ (init c user).k.ticks = false := by
    unfold init
    cases ht : c.hasTimer with
    | false =>
      simp only [EpollM.add, ctlAdd, Bool.false_eq_true, if_false]
      rw [link_eq]; simp [setItem]
    | true =>
      have hne : c.notifFd ≠ c.timerFd := fun h => hok ht h.symm
      simp only [EpollM.add, ctlAdd, if_true, link_items, setItem_items, hne, if_false]
      rw [link_eq]; simp only [setItem]
      rw [link_eq]; simp
  have hL : L c (init c user).k := by
    have h0 : L c ⟨fun _ => none, [], user, 0, 0, none, false⟩ := ⟨by simp, by simp, by simp⟩
    unfold init
    cases ht : c.hasTimer with
    | false =>
      simp only [EpollM.add, ctlAdd, Bool.false_eq_true, if_false]
      exact setlink_L h0 _ _
    | true =>
      have hne : c.notifFd ≠ c.timerFd := fun h => hok ht h.symm
      simp only [EpollM.add, ctlAdd, if_true, link_items, setItem_items, hne, if_false]
      exact setlink_L (setlink_L h0 _ _) _ _
  refine ⟨hL, ?_, by simp [hcur], ?_, ?_⟩
  · intro fd hf
    rw [hitems, hcur]
    have h1 : fd ≠ c.notifFd := by rintro rfl; rw [internal_notif] at hf; cases hf
    have h2 : ¬ (c.hasTimer = true ∧ fd = c.timerFd) := by
      rintro ⟨ht, rfl⟩; rw [internal_timer c ht] at hf; cases hf
    simp [h1, h2]
  · rw [hitems]; simp
  · intro ht
    rw [hitems]
    have hne : c.timerFd ≠ c.notifFd := hok ht
    simp [hne, ht]

theorem waitFail_k (s : S) (dl cap e) : (waitFail s dl cap e).1.k = s.k := by
  unfold waitFail; split <;> rfl

theorem waitFail_cur (s : S) (dl cap e) (tr : List (Obs EventExtra)) :
    current ((waitFail s dl cap e).2 :: tr) = current tr := by
  unfold waitFail; split <;> rfl

theorem waitFail_kinv {c : Cfg} {k} {tr : List (Obs EventExtra)} (h : KInv c k tr) {s dl cap e s' o}
    (hk : s.k = k) (heq : waitFail s dl cap e = (s', o)) : KInv c s'.k (o :: tr) := by
  have h1 := waitFail_k s dl cap e
  have h2 := waitFail_cur s dl cap e tr
  rw [heq] at h1 h2
  simp only at h1 h2
  rw [h1, hk]
  exact h.obs _ h2

theorem settime_kinv {c : Cfg} {k : Kern} {tr : List (Obs EventExtra)} (h : KInv c k tr) (v : Int × Int) :
    KInv c (EpollM.settime k v) tr := by
  refine h.shrink (k' := EpollM.settime k v) rfl rfl ?_
  intro fd f
  unfold ready EpollM.settime
  simp only
  split
  · exact id
  · split
    · simp
    · exact id

theorem count_kinv {c : Cfg} {k : Kern} {tr : List (Obs EventExtra)} (h : KInv c k tr) {n : Nat} (hn : n ≤ k.count) :
    KInv c { k with count := n } tr := by
  refine h.shrink rfl rfl ?_
  intro fd f
  simp only [ready]
  split
  · split
    · rw [if_pos (by omega)]; exact id
    · simp
  · exact id

theorem step_kinv {c : Cfg} {s : S} {tr : List (Obs EventExtra)} {a : Act} {s' : S} {o : Obs EventExtra}
    (h : KInv c s.k tr) (hs : step c s a = some (s', o)) : KInv c s'.k (o :: tr) := by
  cases a with
  | add fd ev mode fault =>
    simp only [step] at hs
    split at hs
    · cases hs
    · next hint =>
      split at hs
      · cases hs
      · next hb =>
        split at hs
        · cases hs; exact h.obs _ rfl
        · next hk =>
          rcases hm : EpollM.add c fault s.k fd ev mode with ⟨r, k⟩
          rw [hm] at hs
          rcases add_kinv h (by simpa using hint) (by simpa using hb) hk hm with ⟨rfl, _, hh⟩ | ⟨⟨e, rfl⟩, rfl⟩
          · cases hs; exact hh
          · cases hs; exact h.obs _ rfl
  | modify fd ev mode fault =>
    simp only [step] at hs
    split at hs
    · cases hs
    · next hint =>
      split at hs
      · cases hs
      · next hb =>
        split at hs
        · cases hs; exact h.obs _ rfl
        · next hk =>
          rcases hm : EpollM.modify c fault s.k fd ev mode with ⟨r, k⟩
          rw [hm] at hs
          rcases modify_kinv h (by simpa using hint) (by simpa using hb) hk hm with ⟨rfl, _, hh⟩ | ⟨⟨e, rfl⟩, rfl⟩
          · cases hs; exact hh
          · cases hs; exact h.obs _ rfl
  | delete fd fault =>
    simp only [step] at hs
    split at hs
    · cases hs
    · next hint =>
      rcases hm : EpollM.delete fault s.k fd with ⟨r, k⟩
      rw [hm] at hs
      rcases delete_kinv h (by simpa using hint) hm with ⟨rfl, _, hh⟩ | ⟨⟨e, rfl⟩, rfl⟩
      · cases hs; exact hh
      · cases hs; exact h.obs _ rfl
  | notifyCas =>
    simp only [step] at hs
    split at hs
    · cases hs; exact h.obs _ rfl
    · split at hs
      · cases hs; exact h.obs _ rfl
      · cases hs
  | notifyWrite =>
    simp only [step] at hs
    split at hs
    · cases hs
      refine KInv.obs (tr := tr) ?_ _ rfl
      refine wake_kinv h rfl rfl ?_ ?_
      · intro x hx; simp [ready, hx]
      · intro f; simp only [ready, if_true]; simp; exact .inr
    · cases hs
  | waitBegin timeout cap =>
    simp only [step] at hs
    split at hs
    · split at hs
      · cases hs
      · cases hs; exact h.obs _ rfl
    · cases hs
  | waitBusy =>
    simp only [step] at hs
    split at hs
    · cases hs
    · cases hs; exact h.obs _ rfl
  | compute =>
    simp only [step] at hs
    split at hs
    · cases hs; exact h.obs _ rfl
    · cases hs
  | settime fault =>
    simp only [step] at hs
    split at hs
    · split at hs
      · split at hs
        · exact waitFail_kinv h rfl (Option.some.inj hs)
        · cases hs
          exact (settime_kinv h _).obs _ rfl
      · cases hs; exact h.obs _ rfl
    · cases hs
  | armTimer fault =>
    simp only [step] at hs
    split at hs
    · next dl cap timeout hph =>
      split at hs
      · next ht =>
        rcases hm : EpollM.modify c fault s.k c.timerFd (Event.onlyReadable NOTIFY_KEY) .oneshot with ⟨r, k⟩
        rw [hm] at hs
        rcases internal_kinv h (internal_timer c ht) hm with ⟨rfl, hh, _⟩ | ⟨⟨e, rfl⟩, rfl⟩
        · cases hs; exact hh.obs _ rfl
        · exact waitFail_kinv h rfl (Option.some.inj hs)
      · cases hs; exact h.obs _ rfl
    · cases hs
  | epollReturn =>
    simp only [step] at hs
    split at hs
    · next dl cap timeout t0 hph =>
      split at hs
      · cases hs
        exact ⟨harvest_L h.l _, harvest_R h.l h.r _⟩
      · cases hs
    · cases hs
  | epollFail e =>
    simp only [step] at hs
    split at hs
    · exact waitFail_kinv h rfl (Option.some.inj hs)
    · cases hs
  | clearRead =>
    simp only [step] at hs
    split at hs
    · split at hs
      · injection hs with hs; injection hs with h1 h2; subst h1 h2
        exact (count_kinv h (Nat.sub_le _ _)).obs _ rfl
      · injection hs with hs; injection hs with h1 h2; subst h1 h2
        exact (count_kinv h (Nat.zero_le _)).obs _ rfl
    · cases hs
  | rearm fault =>
    simp only [step] at hs
    split at hs
    · next dl cap evs hph =>
      rcases hm : EpollM.modify c fault s.k c.notifFd (Event.onlyReadable NOTIFY_KEY) .oneshot with ⟨r, k⟩
      rw [hm] at hs
      rcases internal_kinv h (internal_notif c) hm with ⟨rfl, hh, _⟩ | ⟨⟨e, rfl⟩, rfl⟩
      · cases hs; exact hh.obs _ rfl
      · exact waitFail_kinv h rfl (Option.some.inj hs)
    · cases hs
  | finish =>
    simp only [step] at hs
    split at hs
    · cases hs; exact h.obs _ rfl
    · cases hs
  | setReady fd flags key =>
    simp only [step] at hs
    split at hs
    · cases hs
    · next hint =>
      split at hs
      · cases hs
      · next hnew =>
        cases hs
        refine KInv.obs (tr := tr) ?_ _ rfl
        have hi : c.internal fd = false := by simpa using hint
        have h1 : fd ≠ c.notifFd := by rintro rfl; rw [internal_notif] at hi; cases hi
        have h2 : ¬ (c.hasTimer = true ∧ fd = c.timerFd) := by
          rintro ⟨ht, rfl⟩; rw [internal_timer c ht] at hi; cases hi
        refine wake_kinv h rfl rfl ?_ ?_
        · intro x hx; simp [ready, hx]
        · intro f hf
          have hn : flags &&& ~~~(s.k.user fd) &&& ~~~key = 0#32 := by simpa using hnew
          simp only [ready, h1, h2, if_false, if_true] at hf ⊢
          obtain ⟨i, hi, hb⟩ := (bv_ne_zero_iff _).1 hf
          simp only [BitVec.getLsbD_and, Bool.and_eq_true] at hb
          have hni := congrArg (fun z => z.getLsbD i) hn
          simp only [BitVec.getLsbD_and, BitVec.getLsbD_not, hi, hb.1, BitVec.getLsbD_zero, decide_true, Bool.true_and] at hni
          by_cases hu : (s.k.user fd).getLsbD i = true
          · left; exact (bv_ne_zero_iff _).2 ⟨i, hi, by simp [BitVec.getLsbD_and, hu, hb.2]⟩
          · right
            have hkk : key.getLsbD i = true := by
              cases hkey : key.getLsbD i with
              | true => rfl
              | false => simp [hkey] at hni; exact absurd hni hu
            exact (bv_ne_zero_iff _).2 ⟨i, hi, by simp [BitVec.getLsbD_and, hkk, hb.2]⟩
  | tick dt =>
    simp only [step] at hs
    split at hs
    · cases hs
      exact (h.shrink (k' := { s.k with time := s.k.time + dt }) rfl rfl (fun _ _ => id)).obs _ rfl
    · split at hs
      · cases hs
        refine KInv.obs (tr := tr) ?_ _ rfl
        simp only
        by_cases ht : c.hasTimer = true
        · rw [if_pos ht]
          refine wake_kinv h rfl rfl ?_ ?_
          · intro x hx; simp [ready, hx]
          · intro f hf
            simp only [ready] at hf ⊢
            split at hf
            · next hc => simp only [hc, if_true]; exact .inl hf
            · simp [ht] at hf; exact .inr hf
        · rw [if_neg ht]
          refine h.shrink rfl rfl ?_
          intro fd f; simp [ready, ht]
      · cases hs
        exact (h.shrink (k' := { s.k with time := s.k.time + dt }) rfl rfl (fun _ _ => id)).obs _ rfl

theorem reach_kinv {c : Cfg} (hok : c.Ok) {s tr} (h : Reach c s tr) : KInv c s.k tr := by
  induction h with
  | init user => exact init_kinv c hok user
  | step _ hs ih => exact step_kinv ih hs

end Polling.EpollM
