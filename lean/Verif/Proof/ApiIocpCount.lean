import Verif.Proof.ApiIocp

/-! On Windows, readable events come at most once per request, whatever overlaps. -/

namespace Polling.Api
open IocpM Iocp IocpSpec

def total : Nat → (Nat → Nat) → Nat
  | 0, _ => 0
  | n + 1, f => total n f + f n

theorem total_congr {n : Nat} {f g : Nat → Nat} (h : ∀ i, i < n → f i = g i) : total n f = total n g := by
  induction n with
  | zero => rfl
  | succ n ih => simp only [total]; rw [ih (fun i hi => h i (by omega)), h n (by omega)]

/-- The functions differ at one place. -/
theorem total_one {n j : Nat} {f g : Nat → Nat} (h : ∀ i, i ≠ j → f i = g i) (hj : j < n) : total n f + g j = total n g + f j := by
  induction n with
  | zero => omega
  | succ n ih =>
    simp only [total]
    by_cases e : j = n
    · subst e
      rw [total_congr (fun i hi => h i (by omega))]
      omega
    · have := ih (by omega)
      rw [h n (by omega)]
      omega

theorem total_le {n j : Nat} {f g : Nat → Nat} (h : ∀ i, i ≠ j → f i = g i) : total n f ≤ total n g + f j := by
  by_cases hj : j < n
  · have := total_one h hj; omega
  · rw [total_congr (fun i hi => h i (by omega))]; omega

/-- Events with the key found by `wait`. -/
def delivered (k : Key) : List IObs → Nat
  | [] => 0
  | .deliver _ _ _ ev :: tr => (if ev.key = k then 1 else 0) + delivered k tr
  | _ :: tr => delivered k tr

/-- The registration will deliver an event with the key. -/
def arm (k : Key) : Option Reg → Nat
  | some q => if q.fired = false ∧ q.ev.key = k then 1 else 0
  | none => 0

def key? : IocpSpec.Call → Option Key
  | .add _ _ ev _ | .modify _ _ ev _ => some ev.key
  | .delete _ _ => none

/-- The call has not yet taken effect. -/
def pen (k : Key) : Pc → Nat
  | .prepare call | .table call | .set call _ => if key? call = some k then 1 else 0
  | _ => 0

theorem reach_threads {n : Nat} {P} {s : S} {tr : List IObs} (h : Reach n P s tr) : ∀ t, n ≤ t → s.pc t = .out := by
  induction h with
  | init => intro t _; rfl
  | @step s tr a s' o hr hp hs ih =>
    intro t ht
    have keep : ∀ u p, u < n → s'.pc = upd s.pc u p → s'.pc t = .out := by
      intro u p hu e
      rw [e, upd_other _ _ (by omega)]; exact ih t ht
    cases a with
    | call u call =>
      simp only [step] at hs
      split at hs
      · cases hs
      rename_i hu
      repeat' split at hs
      all_goals cases hs
      · exact ih t ht
      · exact ih t ht
      all_goals exact keep u _ (by omega) rfl
    | go u fault =>
      simp only [step] at hs
      split at hs
      · cases hs
      rename_i hu
      unfold goCall at hs
      split at hs
      · split at hs <;> (cases hs; exact keep u _ (by omega) rfl)
      · repeat' split at hs
        all_goals (cases hs; exact keep u _ (by omega) rfl)
      · split at hs
        · cases hs; exact keep u _ (by omega) rfl
        · cases hs
      · cases hs; exact keep u _ (by omega) rfl
      · split at hs <;> (cases hs; exact keep u _ (by omega) rfl)
      · cases hs; exact keep u _ (by omega) rfl
      · cases hs
    | notifyCas u =>
      simp only [step] at hs
      split at hs
      · cases hs
      repeat' split at hs
      all_goals cases hs
      · exact ih t ht
      · exact keep u _ (by omega) rfl
    | notifyPost u fault =>
      have hu : s.pc u = .notify → u < n := by
        intro h1
        by_cases h2 : u < n
        · exact h2
        · rw [ih u (by omega)] at h1; cases h1
      simp only [step] at hs
      split at hs
      · rename_i hnot
        have hu := hu hnot
        split at hs <;> (cases hs; exact keep u _ hu rfl)
      · cases hs
    | wait fault =>
      simp only [step, goWait, waitFail] at hs
      repeat' split at hs
      all_goals cases hs
      all_goals exact ih t ht
    | _ =>
      simp only [step] at hs
      repeat' split at hs
      all_goals cases hs
      all_goals exact ih t ht

/-- No packet of the user is ever received. -/
theorem no_received {n : Nat} {P} {s : S} {tr : List IObs} (h : Reach n P s tr) (hport : IPortable tr) (p : PId) (ev : Event EventExtra) (tr' : List IObs)
    (he : tr = .received p ev :: tr') : False := by
  subst he
  have h1 := (List.sublist_append_left _ _).trans (reach_posts h)
  have h2 : ∀ l : List IObs, (∀ p ev, .posted p ev ∉ l) → posts l = [] := by
    intro l
    induction l with
    | nil => intro _; rfl
    | cons x l ih =>
      intro hl
      have ih := ih (fun p ev hm => hl p ev (List.mem_cons_of_mem _ hm))
      cases x with
      | posted p ev => exact absurd List.mem_cons_self (hl p ev)
      | _ => exact ih
  rw [h2 _ hport.2] at h1
  simp [receipts] at h1

theorem iPortable_tail {o : IObs} {tr : List IObs} (hport : IPortable (o :: tr)) : IPortable tr :=
  ⟨fun t call hm => hport.1 t call (List.mem_cons_of_mem _ hm), fun p ev hm => hport.2 p ev (List.mem_cons_of_mem _ hm)⟩

/-- What was returned was found. -/
theorem returned_le {n : Nat} {P} {s : S} {tr : List IObs} (h : Reach n P s tr) (hport : IPortable tr) (k : Key) :
    returned k (ofIObs tr) ≤ delivered k tr ∧
    (s.phase ≠ .idle → returned k (ofIObs tr) + (found tr).countP (fun e => e.key == k) ≤ delivered k tr) := by
  induction h with
  | init => exact ⟨Nat.le_refl _, fun h => absurd rfl h⟩
  | @step s tr a s' o hr hp hs ih =>
    have ih := ih (iPortable_tail hport)
    have hr' : Reach n P s' (o :: tr) := .step hr hp hs
    have same : returned k (ofIObs (o :: tr)) = returned k (ofIObs tr) → delivered k (o :: tr) = delivered k tr → found (o :: tr) = found tr →
        (s'.phase ≠ .idle → s.phase ≠ .idle) → returned k (ofIObs (o :: tr)) ≤ delivered k (o :: tr) ∧
        (s'.phase ≠ .idle → returned k (ofIObs (o :: tr)) + (found (o :: tr)).countP (fun e => e.key == k) ≤ delivered k (o :: tr)) := by
      intro h1 h2 h3 h4
      rw [h1, h2, h3]
      exact ⟨ih.1, fun h => ih.2 (h4 h)⟩
    have call : s'.phase = s.phase → (∃ t call, o = .begin t call) ∨ (∃ t call r, o = .ret t call r) ∨
        (∃ t k fd p r, o = .deleted t k fd p r) ∨ UObs o ∨ (∃ t k fd p ev m, o = .inserted t k fd p ev m) ∨
        (∃ t k fd p ev m, o = .changed t k fd p ev m) ∨ (∃ t k fd p, o = .removed t k fd p) →
        returned k (ofIObs (o :: tr)) ≤ delivered k (o :: tr) ∧
        (s'.phase ≠ .idle → returned k (ofIObs (o :: tr)) + (found (o :: tr)).countP (fun e => e.key == k) ≤ delivered k (o :: tr)) := by
      intro hph ho
      refine same ?_ ?_ ?_ (by rw [hph]; exact id)
      · rcases ho with ⟨t, call, rfl⟩ | ⟨t, call, r, rfl⟩ | ⟨t, k, fd, p, r, rfl⟩ | ho | ⟨t, k, fd, p, ev, m, rfl⟩ | ⟨t, k, fd, p, ev, m, rfl⟩ | ⟨t, k, fd, p, rfl⟩
        · simp only [ofIObs]; split <;> rfl
        · simp only [ofIObs]; split <;> rfl
        · simp only [ofIObs]; split <;> rfl
        · cases o <;> first | rfl | exact absurd ho id
        · rfl
        · rfl
        · rfl
      · rcases ho with ⟨t, call, rfl⟩ | ⟨t, call, r, rfl⟩ | ⟨t, k, fd, p, r, rfl⟩ | ho | ⟨t, k, fd, p, ev, m, rfl⟩ | ⟨t, k, fd, p, ev, m, rfl⟩ | ⟨t, k, fd, p, rfl⟩ <;>
          first | rfl | (cases o <;> first | rfl | exact absurd ho id)
      · rcases ho with ⟨t, call, rfl⟩ | ⟨t, call, r, rfl⟩ | ⟨t, k, fd, p, r, rfl⟩ | ho | ⟨t, k, fd, p, ev, m, rfl⟩ | ⟨t, k, fd, p, ev, m, rfl⟩ | ⟨t, k, fd, p, rfl⟩ <;>
          first | rfl | (cases o <;> first | rfl | exact absurd ho id)
    cases step_cls hs with
    | other ho hpc hph hok herr =>
      have hph' : o ≠ .waitBegin → s'.phase ≠ .idle → s.phase ≠ .idle := by
        intro h1 h2
        rcases hph h2 with h | h
        · exact h
        · exact absurd h h1
      cases o with
      | received p ev => exact absurd (no_received hr' hport p ev tr rfl) id
      | waitBegin => exact ⟨ih.1, fun _ => ih.1⟩
      | waitAgain => exact ⟨ih.1, fun _ => ih.1⟩
      | waitErr e => exact ⟨ih.1, fun h => absurd (herr e rfl) h⟩
      | deliver b fd p ev =>
        simp only [ofIObs, delivered, found, List.countP_append, List.countP_cons, List.countP_nil, beq_iff_eq]
        refine ⟨by have := ih.1; omega, fun h => ?_⟩
        have := ih.2 (hph' nofun h)
        omega
      | waitOk m evs =>
        obtain ⟨hin, hout⟩ := hok m evs rfl
        refine ⟨?_, fun h => absurd hout h⟩
        obtain ⟨hf, _⟩ := waitOk_found hr hs
        have h1 := ih.2 hin
        simp only [ofIObs, returned, delivered]
        have h2 : (evs.map view).countP (fun e => e.readable && e.key == k) ≤ (found tr).countP (fun e => e.key == k) := by
          rw [hf, List.countP_map]
          refine Nat.le_trans (List.filter_sublist.countP_le) ?_
          refine List.countP_mono_left ?_
          intro e _ he
          simp only [Function.comp_apply, view, Bool.and_eq_true] at he
          exact he.2
        omega
      | begin => exact absurd ho id
      | ret => exact absurd ho id
      | inserted => exact absurd ho id
      | changed => exact absurd ho id
      | removed => exact absurd ho id
      | deleted => exact absurd ho id
      | _ => exact same rfl rfl rfl (hph' nofun)
    | refuse hp => exact call rfl (.inr (.inl ⟨_, _, _, rfl⟩))
    | begin p hp hpp hpc hph => exact call hph (.inl ⟨_, _, rfl⟩)
    | fail hp hpc hph => exact call hph (.inr (.inl ⟨_, _, _, rfl⟩))
    | ready hp hpc hph => exact call hph (.inr (.inr (.inr (.inl trivial))))
    | insert hp hpc ht hph => exact call hph (.inr (.inr (.inr (.inr (.inl ⟨_, _, _, _, _, _, rfl⟩)))))
    | found hp hpc ht hph => exact call hph (.inr (.inr (.inr (.inl trivial))))
    | gone hp hpc ht hph => exact call hph (.inr (.inl ⟨_, _, _, rfl⟩))
    | remove hp hpc ht hph => exact call hph (.inr (.inr (.inr (.inr (.inr (.inr ⟨_, _, _, _, rfl⟩))))))
    | change q hp hpc hq hph => exact call hph (.inr (.inr (.inr (.inr (.inr (.inl ⟨_, _, _, _, _, _, rfl⟩))))))
    | delete hp hpc hph => exact call hph (.inr (.inr (.inl ⟨_, _, _, _, _, rfl⟩)))
    | work hp hpc ho hph => exact call hph (.inr (.inr (.inr (.inl ho))))
    | worked hp hpc ho hu hph => exact call hph (.inr (.inr (.inr (.inl ho))))
    | ret hp hpc hph => exact call hph (.inr (.inl ⟨_, _, _, rfl⟩))

theorem reg_uobs {o : IObs} {tr : List IObs} (h : UObs o) : reg (o :: tr) = reg tr := by cases o <;> first | rfl | exact absurd h id
theorem delivered_uobs {o : IObs} {tr : List IObs} {k : Key} (h : UObs o) : delivered k (o :: tr) = delivered k tr := by
  cases o <;> first | rfl | exact absurd h id

theorem reg_none_tail {o : IObs} {tr : List IObs} {p : PId} (h : reg (o :: tr) p = none) : reg tr p = none := by
  cases o <;> simp only [reg] at h <;> first
    | exact h
    | (split at h <;> first | cases h | exact h | exact Option.map_eq_none_iff.mp h)

/-- Events found, events still to come, and calls still to take effect: at most as many as were requested. -/
theorem delivered_le {n : Nat} {P} {s : S} {tr : List IObs} (h : Reach n P s tr) (hport : IPortable tr) (hall : AllOneshot (ofIObs tr)) (k : Key)
    (N : Nat) (hN : ∀ p, N ≤ p → reg tr p = none) :
    (delivered k tr + total N (fun p => arm k (reg tr p)) + total n (fun t => pen k (s.pc t)) ≤ requested k (ofIObs tr)) ∧
    (∀ t call, (s.pc t).call? = some call → ∃ c, ofICall call = some c ∧ .begin t c ∈ ofIObs tr) ∧
    (∀ p q, reg tr p = some q → q.sock = true ∧ Spec.oneshot q.mode = true) := by
  induction h with
  | init =>
    refine ⟨?_, nofun, nofun⟩
    have : ∀ m (f : Nat → Nat), (∀ i, f i = 0) → total m f = 0 := by
      intro m f hf
      induction m with
      | zero => rfl
      | succ m ih => simp only [total, ih, hf]
    rw [this N (fun p => arm k (reg [] p)) (fun _ => rfl), this n (fun t => pen k (init.pc t)) (fun _ => rfl)]
    exact Nat.zero_le _
  | @step s tr a s' o hr hp hs ih =>
    have hall' := allOneshotI_tail hall
    obtain ⟨ih1, ih2, ih3⟩ := ih (iPortable_tail hport) hall' (fun p hp => reg_none_tail (hN p hp))
    have hr' : Reach n P s' (o :: tr) := .step hr hp hs
    have hti := reach_ti hr
    have hin : ∀ t, s.pc t ≠ .out → t < n := by
      intro t h1
      by_cases h2 : t < n
      · exact h2
      · exact absurd (reach_threads hr t (by omega)) h1
    have hmem : ∀ x, x ∈ ofIObs tr → x ∈ ofIObs (o :: tr) := by
      intro x hx
      rcases view_consI o tr with he | ⟨y, he⟩ <;> rw [he]
      · exact hx
      · exact List.mem_cons_of_mem _ hx
    have calls' : (∀ u call, (s'.pc u).call? = some call → (s.pc u).call? = some call) →
        ∀ u call, (s'.pc u).call? = some call → ∃ c, ofICall call = some c ∧ .begin u c ∈ ofIObs (o :: tr) := by
      intro hsub u call hu
      obtain ⟨c, h1, h2⟩ := ih2 u call (hsub u call hu)
      exact ⟨c, h1, hmem _ h2⟩
    -- the calls after a step of `t`
    have calls : ∀ t p, s'.pc = upd s.pc t p → p.call? = none ∨ p.call? = (s.pc t).call? →
        ∀ u call, (s'.pc u).call? = some call → ∃ c, ofICall call = some c ∧ .begin u c ∈ ofIObs (o :: tr) := by
      intro t p hpc hc
      refine calls' ?_
      intro u call hu
      rw [hpc] at hu
      by_cases e : u = t
      · subst e
        rw [upd_self] at hu
        rcases hc with hc | hc <;> rw [hc] at hu
        · cases hu
        · exact hu
      · rwa [upd_other _ _ e] at hu
    -- what the calls still have to do, after a step of `t`
    have pens : ∀ t p, s'.pc = upd s.pc t p → s.pc t ≠ .out →
        total n (fun u => pen k (s'.pc u)) + pen k (s.pc t) = total n (fun u => pen k (s.pc u)) + pen k p := by
      intro t p hpc hne
      have := total_one (n := n) (j := t) (f := fun u => pen k (s'.pc u)) (g := fun u => pen k (s.pc u))
        (fun u hu => by rw [hpc, upd_other _ _ hu]) (hin t hne)
      rw [hpc, upd_self] at this
      rw [hpc]
      exact this
    have hreq : requested k (ofIObs tr) ≤ requested k (ofIObs (o :: tr)) := by
      rcases view_consI o tr with he | ⟨y, he⟩ <;> rw [he]
      · exact Nat.le_refl _
      · have : ∀ y tr, requested k tr ≤ requested k (y :: tr) := by
          intro y tr
          cases y with
          | begin t c => cases c <;> simp only [requested] <;> omega
          | _ => exact Nat.le_refl _
        exact this _ _
    -- a step of a call that changes no registration
    have step : ∀ t p, s'.pc = upd s.pc t p → s.pc t ≠ .out → p.call? = none ∨ p.call? = (s.pc t).call? → pen k p ≤ pen k (s.pc t) →
        reg (o :: tr) = reg tr → delivered k (o :: tr) = delivered k tr →
        (delivered k (o :: tr) + total N (fun p => arm k (reg (o :: tr) p)) + total n (fun t => pen k (s'.pc t)) ≤ requested k (ofIObs (o :: tr))) ∧
        (∀ t call, (s'.pc t).call? = some call → ∃ c, ofICall call = some c ∧ .begin t c ∈ ofIObs (o :: tr)) ∧
        (∀ p q, reg (o :: tr) p = some q → q.sock = true ∧ Spec.oneshot q.mode = true) := by
      intro t p h1 h2 h3 h4 h5 h6
      have := pens t p h1 h2
      refine ⟨?_, calls t p h1 h3, by rw [h5]; exact ih3⟩
      rw [h5, h6]
      omega
    -- a step of a call that takes effect
    have effect : ∀ t p call x r0, s'.pc = upd s.pc t p → s.pc t ≠ .out → p.call? = none ∨ p.call? = (s.pc t).call? → pen k p = 0 →
        pen k (s.pc t) = (if key? call = some k then 1 else 0) → arm k r0 ≤ (if key? call = some k then 1 else 0) →
        (∀ y, reg (o :: tr) y = if y = x then r0 else reg tr y) → delivered k (o :: tr) = delivered k tr → (∀ q, r0 = some q → q.sock = true ∧ Spec.oneshot q.mode = true) →
        (delivered k (o :: tr) + total N (fun p => arm k (reg (o :: tr) p)) + total n (fun t => pen k (s'.pc t)) ≤ requested k (ofIObs (o :: tr))) ∧
        (∀ t call, (s'.pc t).call? = some call → ∃ c, ofICall call = some c ∧ .begin t c ∈ ofIObs (o :: tr)) ∧
        (∀ p q, reg (o :: tr) p = some q → q.sock = true ∧ Spec.oneshot q.mode = true) := by
      intro t p call x r0 h1 h2 h3 h4 h5 h6 h7 h8 h9
      have h10 := pens t p h1 h2
      refine ⟨?_, calls t p h1 h3, ?_⟩
      · have h11 := total_le (n := N) (j := x) (f := fun p => arm k (reg (o :: tr) p)) (g := fun p => arm k (reg tr p))
          (fun i hi => by rw [h7, if_neg hi])
        rw [h7 x, if_pos rfl] at h11
        rw [h8]
        omega
      · intro y q hy
        rw [h7] at hy
        split at hy
        · exact h9 q hy
        · exact ih3 y q hy
    have sockmode : ∀ t call c fd key b, (s.pc t).call? = some call → ofICall call = some c → c = .set fd key b → b = true := by
      intro t call c fd key b h1 h2 h3
      obtain ⟨c', h4, h5⟩ := ih2 t call h1
      rw [h2] at h4; cases h4
      rw [h3] at h5
      exact hall' t fd key b h5
    cases step_cls hs with
    | other ho hpc hph hok herr =>
      have hcl : ∀ u, pen k (s'.pc u) = pen k (s.pc u) := by
        intro u
        rcases hpc u with e | ⟨e1, e2⟩
        · rw [e]
        · have : ∀ p : Pc, p.call? = none → pen k p = 0 := by
            intro p hp; cases p <;> first | rfl | cases hp
          rw [this _ e1, this _ e2]
      have hcq : ∀ u call, (s'.pc u).call? = some call → (s.pc u).call? = some call := by
        intro u call hu
        rcases hpc u with e | ⟨e1, _⟩
        · rwa [e] at hu
        · rw [e1] at hu; cases hu
      have hpens : total n (fun u => pen k (s'.pc u)) = total n (fun u => pen k (s.pc u)) := total_congr (fun i _ => hcl i)
      by_cases hd : ∃ b fd p ev, o = .deliver b fd p ev
      · obtain ⟨b, fd, p, ev, rfl⟩ := hd
        obtain ⟨q, h1, h2, h3, h4⟩ := C03.iocp_right_key n P s' _ hr' [] b fd p ev tr rfl
        obtain ⟨hk, hmode⟩ := ih3 p q h1
        rw [hk] at h2
        subst h2
        obtain ⟨q', h5, h7⟩ := C15.iocp_oneshot n P s' _ hr' [] true fd p ev tr rfl rfl
        rw [h1] at h5; cases h5
        have hedge : edge q.mode = false := by
          have := hti.regs p
          rw [h1] at this
          cases hpk : s.c.pk p with
          | socket k => rw [hpk] at this; obtain ⟨q', e1, _, _, _, e2, _⟩ := this; cases e1; exact e2
          | waitable k => rw [hpk] at this; obtain ⟨q', e1, _, _, _, e2, _⟩ := this; cases e1; exact e2
          | _ => rw [hpk] at this; cases this
        have hm' : q.mode = .oneshot := by
          cases hmd : q.mode <;> rw [hmd] at hmode hedge <;> first | rfl | (cases hmode; done) | cases hedge
        have hf : q.fired = false := by
          cases hfi : q.fired with
          | false => rfl
          | true => exact absurd ⟨hm', hfi⟩ h7
        have hpN : p < N := by
          by_cases hlt : p < N
          · exact hlt
          · have := reg_none_tail (hN p (by omega))
            rw [h1] at this; cases this
        have hreg : ∀ y, reg (.deliver true fd p ev :: tr) y = if y = p then some { q with fired := true } else reg tr y := by
          intro y
          simp only [reg]
          split
          · rename_i e; rw [e, h1]; rfl
          · rfl
        refine ⟨?_, calls' hcq, ?_⟩
        · have h8 := total_one (n := N) (j := p) (f := fun p' => arm k (reg (.deliver true fd p ev :: tr) p')) (g := fun p => arm k (reg tr p))
            (fun i hi => by rw [hreg, if_neg hi]) hpN
          rw [hreg p, if_pos rfl, h1] at h8
          have h9 : arm k (some { q with fired := true }) = 0 := by simp [arm]
          have h10 : arm k (some q) = if ev.key = k then 1 else 0 := by simp [arm, hf, h4]
          rw [h9, h10] at h8
          have h11 : delivered k (.deliver true fd p ev :: tr) = (if ev.key = k then 1 else 0) + delivered k tr := rfl
          have h12 : requested k (ofIObs (.deliver true fd p ev :: tr)) = requested k (ofIObs tr) := rfl
          rw [h11, h12, hpens]
          omega
        · intro y q' hy
          rw [hreg] at hy
          split at hy
          · cases hy; exact ⟨hk, hmode⟩
          · exact ih3 y q' hy
      · have hreg : reg (o :: tr) = reg tr := by
          cases o <;> first | rfl | exact absurd ho id | exact absurd ⟨_, _, _, _, rfl⟩ hd
        have hdel : delivered k (o :: tr) = delivered k tr := by
          cases o <;> first | rfl | exact absurd ⟨_, _, _, _, rfl⟩ hd
        refine ⟨?_, calls' hcq, by rw [hreg]; exact ih3⟩
        rw [hreg, hdel, hpens]
        omega
    | @refuse _ t call r hp =>
      refine ⟨?_, calls' (fun _ _ h => h), ih3⟩
      exact Nat.le_trans ih1 hreq
    | @begin _ t call _ p hp hpp hpc hph =>
      have hc := hport.1 t call List.mem_cons_self
      cases hc0 : ofICall call with
      | none => exact absurd hc0 hc
      | some c =>
      have hpcall : p.call? = some call := by rcases hpp with ⟨rfl, _⟩ | rfl <;> rfl
      have hv : ofIObs (.begin t call :: tr) = .begin t c :: ofIObs tr := by simp only [ofIObs, hc0]
      refine ⟨?_, ?_, ih3⟩
      · have h1 := total_le (n := n) (j := t) (f := fun u => pen k (s'.pc u)) (g := fun u => pen k (s.pc u))
          (fun u hu => by rw [hpc, upd_other _ _ hu])
        have h2 : pen k (s'.pc t) = if key? call = some k then 1 else 0 := by
          rw [hpc, upd_self]; rcases hpp with ⟨rfl, _⟩ | rfl <;> rfl
        rw [h2] at h1
        have h3 : requested k (.begin t c :: ofIObs tr) = (if key? call = some k then 1 else 0) + requested k (ofIObs tr) := by
          cases call with
          | add b fd ev mode => cases b <;> cases hc0; simp [requested, key?]
          | modify b fd ev mode => cases b <;> cases hc0; simp [requested, key?]
          | delete b fd => cases b <;> cases hc0; simp [requested, key?]
        rw [hv, h3]
        have h4 : delivered k (.begin t call :: tr) = delivered k tr := rfl
        have h5 : reg (.begin t call :: tr) = reg tr := rfl
        rw [h4, h5]
        omega
      · intro u call' hu
        by_cases e : u = t
        · subst e
          rw [hpc, upd_self, hpcall] at hu; cases hu
          exact ⟨c, hc0, by rw [hv]; exact List.mem_cons_self⟩
        · rw [hpc, upd_other _ _ e] at hu
          obtain ⟨c', h1, h2⟩ := ih2 u call' hu
          exact ⟨c', h1, hmem _ h2⟩
    | @fail _ t call _ e hp hpc hph => exact step t _ hpc (by rcases hp with hp | ⟨hp, _⟩ <;> rw [hp] <;> nofun) (.inl rfl) (Nat.zero_le _) rfl rfl
    | ready hp hpc hph => exact step _ _ hpc (by rw [hp]; nofun) (.inr (by rw [hp]; rfl)) (by rw [hp]; exact Nat.le_refl _) rfl rfl
    | @insert _ t b fd ev mode p _ hp hpc ht hph =>
      have hcall : (s.pc t).call? = some (.add b fd ev mode) := by rw [hp]; rfl
      obtain ⟨c, h1, _⟩ := ih2 t _ hcall
      have hk : b = true := (ofICall_fd h1).2
      subst hk
      refine effect t _ (.add true fd ev mode) p _ hpc (by rw [hp]; nofun) (.inr (by rw [hp]; rfl)) rfl (by rw [hp]; rfl) ?_ (fun y => rfl) rfl ?_
      · simp only [arm, key?, Option.some.injEq, true_and]
        exact Nat.le_refl _
      · intro q hq; cases hq
        refine ⟨rfl, sockmode t _ c fd ev.key _ hcall h1 ?_⟩
        cases h1; rfl
    | @found _ t b fd ev mode p _ hp hpc ht hph => exact step _ _ hpc (by rw [hp]; nofun) (.inr (by rw [hp]; rfl)) (by rw [hp]; exact Nat.le_refl _) rfl rfl
    | gone hp hpc ht hph => exact step _ _ hpc (by rw [hp]; nofun) (.inl rfl) (Nat.zero_le _) rfl rfl
    | remove hp hpc ht hph => exact step _ _ hpc (by rw [hp]; nofun) (.inr (by rw [hp]; rfl)) (Nat.zero_le _) rfl rfl
    | @change _ t b fd ev mode p _ q hp hpc hq hph =>
      have hcall : (s.pc t).call? = some (.modify b fd ev mode) := by rw [hp]; rfl
      obtain ⟨c, h1, _⟩ := ih2 t _ hcall
      have hk : b = true := (ofICall_fd h1).2
      subst hk
      refine effect t q (.modify true fd ev mode) p ((reg tr p).map fun r => { r with ev, mode, fired := false }) hpc (by rw [hp]; nofun)
        (.inr (by rcases hq with rfl | rfl <;> rw [hp] <;> rfl)) (by rcases hq with rfl | rfl <;> rfl) (by rw [hp]; rfl) ?_ ?_ rfl ?_
      · cases reg tr p with
        | none => exact Nat.zero_le _
        | some r => simp [arm, key?]
      · intro y
        simp only [reg]
        split
        · rename_i e; rw [e]
        · rfl
      · intro q' hq'
        obtain ⟨q0, h5, rfl⟩ := Option.map_eq_some_iff.mp hq'
        refine ⟨(ih3 p q0 h5).1, sockmode t _ c fd ev.key _ hcall h1 ?_⟩
        cases h1; rfl
    | @delete _ t call p r _ hp hpc hph =>
      have harm : (fun y => arm k (reg (.deleted t (callSock call) (callFd call) p r :: tr) y)) = fun y => arm k (reg tr y) := by
        funext y
        simp only [reg]
        split
        · cases reg tr y <;> rfl
        · rfl
      have hp' := pens t .out hpc (by rw [hp]; nofun)
      refine ⟨?_, calls t .out hpc (.inl rfl), ?_⟩
      · rw [harm]
        have h1 : delivered k (.deleted t (callSock call) (callFd call) p r :: tr) = delivered k tr := rfl
        rw [h1]
        have : pen k .out = 0 := rfl
        omega
      · intro y q hy
        simp only [reg] at hy
        split at hy
        · obtain ⟨q0, h5, rfl⟩ := Option.map_eq_some_iff.mp hy
          exact ih3 y q0 h5
        · exact ih3 y q hy
    | work hp hpc ho hph => exact step _ _ hpc (by rw [hp]; nofun) (.inr (by rw [hp]; rfl)) (Nat.zero_le _) (reg_uobs ho) (delivered_uobs ho)
    | worked hw hpc ho hu hph => exact step _ _ hpc (by rw [hw]; nofun) (.inr (by rw [hw]; rfl)) (Nat.zero_le _) (reg_uobs ho) (delivered_uobs ho)
    | ret hp hpc hph => exact step _ _ hpc (by rw [hp]; nofun) (.inl rfl) (Nat.zero_le _) rfl rfl

theorem iocp_count {n : Nat} {P} {s : S} {tr : List IObs} (h : Reach n P s tr) (hport : IPortable tr) (hall : AllOneshot (ofIObs tr)) :
    AtMostOnce (ofIObs tr) := by
  intro k
  have h1 := (returned_le h hport k).1
  have h2 := (delivered_le h hport hall k s.c.next (fun p hp => by
    have h3 := (reach_ti h).regs p
    rw [(reach_ti h).low p hp] at h3
    exact h3)).1
  omega

end Polling.Api
