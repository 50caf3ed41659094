import Verif.Proof.IocpWtb
import Verif.Props.IocpDelivery

/-! C32: waitable handles of the IOCP backend. -/

namespace Polling.C32
open IocpM Iocp IocpSpec

theorem wtb_of_reg {n P s tr p q} (h : Reach n P s tr) (hr : reg tr p = some q) (hq : q.sock = false) : kind (s.c.pk p) = .wtb := by
  have := ident_reg (reach_ti h) hr
  rw [hq] at this
  cases hp : s.c.pk p <;> rw [hp] at this <;> first | rfl | cases this

/-- A waitable handle delivers at most one event for each signal of the handle (each callback of the wait the OS dispatches), in
every interleaving of signals, callbacks, registration calls and `wait`. -/
theorem once_per_signal (n : Nat) (acts : List Act) (s : S) (tr : List IObs) (hrun : runActs n init acts = some (s, tr))
    (p : PId) (q : Reg) (hr : reg tr p = some q) (hq : q.sock = false) : deliveries p tr ≤ acts.count (.fire p) := by
  have h0 : Reach n Any init [] := .init
  have h1 := run_reach h0 (fun _ _ _ => trivial) hrun
  rw [List.append_nil] at h1
  have hk := wtb_of_reg h1 hr hq
  have hnew : init.c.next ≤ p := by
    show 1 ≤ p
    rcases Nat.eq_zero_or_pos p with rfl | h
    · have := (reach_ti h1).wake
      rw [show NOTIFIER = 0 from rfl] at this
      rw [this] at hk; cases hk
    · exact h
  have := run_wtb h0 acts s tr hrun p hk (.inr hnew)
  rw [List.append_nil, pend_new h0 hnew] at this
  have h2 : deliveries p [] = 0 := rfl
  omega

/-- No signal is lost: if the OS refuses no operation, the events delivered, together with those on their way to `wait`, are
exactly as many as the signals.  (Partial: refused operations do lose them, `C31`.) -/
theorem no_signal_lost_partial (n : Nat) (acts : List Act) (s : S) (tr : List IObs) (hrun : runActs n init acts = some (s, tr))
    (hok : ∀ a ∈ acts, ∀ e p, a ≠ .wait (some e) ∧ a ≠ .callbackPost p (some e))
    (p : PId) (q : Reg) (hr : reg tr p = some q) (hq : q.sock = false) :
    deliveries p tr + (s.cb.count p + s.cbPost.count p + (s.phase.batch ++ s.c.port).count p) = acts.count (.fire p) := by
  have main : ∀ (acts : List Act) {s tr}, Reach n NoFail s tr → ∀ s' out, runActs n s acts = some (s', out) →
      (∀ a ∈ acts, ∀ e p, a ≠ .wait (some e) ∧ a ≠ .callbackPost p (some e)) →
      kind (s'.c.pk p) = .wtb → (kind (s.c.pk p) = .wtb ∨ s.c.next ≤ p) →
      pend p s' + deliveries p (out ++ tr) = pend p s + deliveries p tr + acts.count (.fire p) := by
    intro acts
    induction acts with
    | nil => intro s tr _ s' out h; cases h; intro _ _ _; simp
    | cons a acts ih =>
      intro s tr h s' out hrun hok hk' hk
      simp only [runActs] at hrun
      cases hs : step n s a with
      | none => rw [hs] at hrun; cases hrun
      | some r =>
        obtain ⟨s1, o⟩ := r
        rw [hs, Option.bind_some] at hrun
        cases hq : runActs n s1 acts with
        | none => rw [hq] at hrun; cases hrun
        | some q =>
          rw [hq] at hrun; cases hrun
          have hnf : NoFail s a := by
            have ha := hok a (List.mem_cons_self ..)
            cases a with
            | wait f => cases f with
              | some e => exact absurd rfl (ha e 0).1
              | none => trivial
            | _ => trivial
          have h1 := h.step hnf hs
          have ih' := ih h1 q.1 q.2 hq (fun a ha => hok a (List.mem_cons_of_mem _ ha)) hk'
          rw [List.append_assoc]
          show pend p q.1 + deliveries p (q.2 ++ o :: tr) = _
          rw [List.count_cons]
          have h3 : (if (a == Act.fire p) = true then 1 else 0) = isFire p a := by unfold isFire; simp
          rw [h3]
          rcases hk with hk | hk
          · have := ih' (.inl (reach_wtb_stays h hs hk))
            rcases wtb_step h hk hs with h2 | ⟨_, _, _, hx⟩
            · omega
            · exfalso
              rcases hx with ⟨w, e, l, hph⟩ | ⟨e, rfl⟩
              · exact noFail (fun _ _ h => h) h _ _ _ hph
              · exact absurd rfl (hok _ (List.mem_cons_self ..) e p).2
          · obtain ⟨h4, h5, h6⟩ := new_step h hk hs
            have h7 : isFire p a = 0 := if_neg h6
            have := pend_new h hk
            have hc : kind (s1.c.pk p) = .wtb ∨ s1.c.next ≤ p := by
              by_cases e1 : s1.c.next ≤ p
              · exact .inr e1
              · by_cases e2 : kind (s1.c.pk p) = .wtb
                · exact .inl e2
                · exact absurd hk' (notWtb_run (reach_any h1) acts q.1 q.2 hq p (Nat.lt_of_not_le e1) e2)
            have := ih' hc
            omega
  have h0 : Reach n Any init [] := .init
  have h1 := run_reach h0 (fun _ _ _ => trivial) hrun
  rw [List.append_nil] at h1
  have hk := wtb_of_reg h1 hr hq
  have hnew : init.c.next ≤ p := by
    show 1 ≤ p
    rcases Nat.eq_zero_or_pos p with rfl | h
    · have := (reach_ti h1).wake
      rw [show NOTIFIER = 0 from rfl] at this
      rw [this] at hk; cases hk
    · exact h
  have := main acts .init s tr hrun hok hk (.inr hnew)
  rw [List.append_nil, pend_new h0 hnew] at this
  have h2 : deliveries p [] = 0 := rfl
  have h3 : pend p s = s.cb.count p + s.cbPost.count p + (s.phase.batch ++ s.c.port).count p := rfl
  omega

/-- The event delivered is exactly the one registered or set by the last modification: the code does not look at which of the
directions is ready.  (After the event in one-shot mode, see `C15.iocp_waitable_oneshot_partial`.) -/
theorem delivers_interest (n : Nat) (P) (s : S) (tr : List IObs) (h : Reach n P s tr) :
    EveryDelivery (fun r sock fd ev => sock = false → ∃ q, r = some q ∧ q.sock = false ∧ q.fd = fd ∧
      (armed q = true → ev = q.ev)) tr := by
  intro later sock fd p ev earlier he hk
  subst hk
  obtain ⟨s0, a, s1, hr, _, hs⟩ := reach_split h later _ earlier he
  obtain ⟨q, h1, h2, h3, h4, h5⟩ := delivered hr hs
  refine ⟨q, h1, h2, h3, ?_⟩
  intro hm
  rw [h5 rfl]
  unfold interestOf
  unfold armed at hm
  cases hf : q.fired <;> cases hmode : q.mode <;> simp_all

/-- Removal: if the events of all signals of the handle up to then were delivered before `remove_waitable` returned, there is
none afterwards.  (Partial: otherwise there may be, `event_after_removal`, and even new signals may be reported,
`removed_wait_comes_back`.) -/
theorem removed_quiet_partial (n : Nat) (acts : List Act) (s : S) (tr : List IObs) (t : Tid) (fd : Fd) (p : PId) (r : Res)
    (hrun : runActs n init acts = some (s, .deleted t false fd p r :: tr))
    (hall : acts.count (.fire p) = deliveries p tr)
    (acts' : List Act) (s' : S) (out : List IObs) (hrun' : runActs n s acts' = some (s', out)) : deliveries p out = 0 := by
  have h0 : Reach n Any init [] := .init
  have h1 := run_reach h0 (fun _ _ _ => trivial) hrun
  rw [List.append_nil] at h1
  have hreg : ∃ q, reg tr p = some q ∧ q.sock = false ∧ q.fd = fd := by
    obtain ⟨s0, a, s1, hr, _, hs⟩ := reach_split h1 [] _ tr rfl
    exact (change_own hr hs).2 _ _ _ _ _ rfl
  obtain ⟨q, hq1, hq2, _⟩ := hreg
  have hq' : reg (.deleted t false fd p r :: tr) p = some { q with ended := true } := by
    show (if p = p then (reg tr p).map _ else _) = _
    rw [if_pos rfl, hq1]; rfl
  have hk := wtb_of_reg h1 hq' hq2
  have hnew : init.c.next ≤ p := by
    show 1 ≤ p
    rcases Nat.eq_zero_or_pos p with rfl | h
    · have := (reach_ti h1).wake
      rw [show NOTIFIER = 0 from rfl] at this
      rw [this] at hk; cases hk
    · exact h
  have hle := run_wtb h0 acts s _ hrun p hk (.inr hnew)
  have h2 : deliveries p [] = 0 := rfl
  rw [List.append_nil, pend_new h0 hnew, deliveries_other (by nofun)] at hle
  have hgone : Gone p s := by
    refine ⟨?_, by omega⟩
    cases h1 with
    | @step s0 _ a _ _ hr _ hs =>
      have hk0 := wtb_of_reg hr hq1 hq2
      have he := reach_eff hr hs
      generalize ho : IObs.deleted t false fd p r = o at he
      generalize hc : s.c = c at he ⊢
      cases he with
      | del =>
        cases ho
        unfold beginDelete
        cases hw : s0.c.pk p <;> rw [hw] at hk0 <;> try cases hk0
        dsimp only
        rw [setPk_self]
        exact ⟨rfl, rfl⟩
      | quiet _ _ _ hq => subst ho; exact absurd hq id
      | update hq => subst ho; exact absurd hq id
      | feedQuiet _ hq => subst ho; exact absurd hq id
      | drop hq => subst ho; exact absurd hq id
      | feed _ hq => rw [hq] at ho; split at ho <;> cases ho
      | _ => cases ho
  have main : ∀ (acts : List Act) {s tr}, Reach n Any s tr → Gone p s → ∀ s' out, runActs n s acts = some (s', out) →
      deliveries p out = 0 := by
    intro acts
    induction acts with
    | nil => intro s tr _ _ s' out h; cases h; rfl
    | cons a acts ih =>
      intro s tr h hg s' out hrun
      simp only [runActs] at hrun
      cases hs : step n s a with
      | none => rw [hs] at hrun; cases hrun
      | some r =>
        obtain ⟨s1, o⟩ := r
        rw [hs, Option.bind_some] at hrun
        cases hq : runActs n s1 acts with
        | none => rw [hq] at hrun; cases hrun
        | some q =>
          rw [hq] at hrun; cases hrun
          obtain ⟨g1, g2⟩ := gone_step h hg hs
          have := ih (h.step (P := Any) trivial hs) g1 q.1 q.2 hq
          have h4 : deliveries p (q.2 ++ [o]) = deliveries p q.2 + deliveries p [o] := List.countP_append
          have h5 : deliveries p (o :: tr) = deliveries p [o] + deliveries p tr := by
            rw [show o :: tr = [o] ++ tr from rfl]; exact List.countP_append
          show deliveries p (q.2 ++ [o]) = 0
          omega
  exact main acts' h1 hgone s' out hrun'

/-- The deliveries and deletions of a trace. -/
def delivs (tr : List IObs) : List IObs := tr.filter fun o => match o with | .deliver .. | .deleted .. | .changed .. => true | _ => false

/-- A signal of the handle: the callback is dispatched, runs, and posts. -/
def signal (p : PId) : List Act := [.fire p, .callback p, .callbackPost p none]

/-- A handle in level mode signals twice: one event each; it is removed, and there are no more. -/
example : ((exTrace (addActs 0 false 9 (Event.onlyReadable 5) .level ++ blockActs 1 4 ++ signal 1 ++ takeActs ++ blockActs 1 4 ++ signal 1 ++
      takeActs ++ delActs 1 false 9 ++ blockActs 1 4)).map delivs) =
    some [.deleted 1 false 9 1 .ok, .deliver false 9 1 (Event.onlyReadable 5), .deliver false 9 1 (Event.onlyReadable 5)] := by
  decide +kernel

/-- An event with neither direction: a one-shot handle signals and its callback posts the completion; before `wait` processes it,
`modify_waitable` registers the wait again and the handle signals once more.  The first completion delivers the event of the new
interest and disarms; the second one delivers an empty event. -/
theorem waitable_spurious_event : ((exTrace (addActs 0 false 9 (Event.onlyReadable 5) .oneshot ++ blockActs 1 4 ++ signal 1 ++
      [.call 0 (.modify false 9 (Event.onlyReadable 6) .oneshot)] ++ List.replicate 5 (.go 0 none) ++ signal 1 ++
      [.get] ++ List.replicate 7 (.wait none) ++ [.decide false, .wait none])).map delivs) =
    some [.deliver false 9 1 (Event.none 6), .deliver false 9 1 (Event.onlyReadable 6), .changed 0 false 9 1 (Event.onlyReadable 6) .oneshot] := by
  decide +kernel

/-- The completion is in the port when `remove_waitable` returns; `wait` delivers the event all the same. -/
theorem event_after_removal : ((exTrace (addActs 0 false 9 (Event.onlyReadable 5) .oneshot ++ blockActs 1 4 ++ signal 1 ++
      delActs 1 false 9 ++ takeActs)).map delivs) =
    some [.deliver false 9 1 (Event.onlyReadable 5), .deleted 1 false 9 1 .ok] := by
  decide +kernel

/-- The callback was dispatched when `remove_waitable` ran, and resets the state to idle.  In level mode the wait is then
registered again: signals after the removal are reported - here two of them - though the handle is no longer registered. -/
theorem removed_wait_comes_back : ((exTrace (addActs 0 false 9 (Event.onlyReadable 5) .level ++ blockActs 1 4 ++ [.fire 1] ++
      delActs 1 false 9 ++ [.callback 1, .callbackPost 1 none] ++ takeActs ++ blockActs 1 4 ++ signal 1 ++ takeActs ++
      blockActs 1 4 ++ signal 1 ++ takeActs)).map delivs) =
    some [.deliver false 9 1 (Event.onlyReadable 5), .deliver false 9 1 (Event.onlyReadable 5), .deliver false 9 1 (Event.onlyReadable 5),
      .deleted 1 false 9 1 .ok] := by
  decide +kernel

end Polling.C32
