import Verif.Proof.PollProgress

/-!
C33: on the poll backend registration calls and waiting never dead-lock, and a waiting thread hands over the descriptor
table in a bounded number of its own steps.  Writes to the wake-up channel are assumed to work (they do not block: C35).
-/

namespace Polling.C33
open PollP PollB PollFlags PollSpec

/-- `a` is the next step of the call thread `t` is in: it starts nothing new, needs no spurious wake-up of the condition
variable and no event of a registered descriptor, and is not a failure. -/
def GoesOn (n : NotifyFds) : Act → Prop
  | .notifyCas | .callBegin _ | .waitBegin _ | .waitBusy | .waitSpurious | .waitPollFail _ => False
  | .notifyWrite ok | .callWrite ok => ok = true
  | .waitPoll os => ∀ fd fl, fd ≠ n.readFd → os fd fl = 0#16
  | _ => True

theorem goesOn_nextAct {n : NotifyFds} {s : S} {p : Pc} {a : Act} (h : nextAct n s p = some a) : GoesOn n a := by
  cases p <;> simp only [nextAct] at h <;> first | (cases h; done) | (cases h; first | trivial | rfl | skip)
  intro fd fl hfd
  simp [quietOs, hfd]

/-- In every reachable state in which some call is in progress, some call can go on - except if the only call in
progress is a `wait` without timeout in `poll()`, with an empty wake-up channel and no notification pending. -/
theorem poll_no_deadlock {c s tr} (hr : Reach c WritesWork s tr) (hex : ∃ t, s.pc t ≠ .out) :
    (∃ t a s' o, GoesOn c.n a ∧ step c s t a = some (s', o)) ∨
    (∃ t, s.pc t = .wPoll false ∧ (∀ u, u ≠ t → s.pc u = .out) ∧ s.chan = 0 ∧ s.notified = false) := by
  have hI := reach_I hr
  have hJ := reach_J hr
  have hL := reach_L hr
  have hlt : ∀ t, s.pc t ≠ .out → t < c.threads := by
    intro t h
    by_cases ht : t < c.threads
    · exact ht
    · exact absurd (hI.range t (by omega)) h
  -- a thread that needs nothing
  have go : ∀ t, s.pc t ≠ .out → (∀ b, s.pc t ≠ .wSleep b) →
      ((∃ op b, s.pc t = .mLock op b) ∨ (∃ b, s.pc t = .wLock b) ∨ (∃ b, s.pc t = .wRelock b) → s.mtx = none) →
      (∀ b, s.pc t = .wPoll b → b = true ∨ 0 < s.chan) → ∃ t a s' o, GoesOn c.n a ∧ step c s t a = some (s', o) := by
    intro t h1 h2 h3 h4
    have : ∃ a, nextAct c.n s (s.pc t) = some a := by
      revert h1 h2; cases s.pc t <;> simp [nextAct]
    obtain ⟨a, ha⟩ := this
    obtain ⟨s', o, hs⟩ := can_step hr (hlt t h1) ha h3 h4
    exact ⟨t, a, s', o, goesOn_nextAct ha, hs⟩
  cases hm : s.mtx with
  | some t =>
    have hh := (hI.mtx t).2 hm
    have hno : s.pc t ≠ .out := fun e => by rw [e] at hh; cases hh
    by_cases hb : ∃ b, s.pc t = .wPoll b ∧ ¬ (b = true ∨ 0 < s.chan)
    · obtain ⟨b, hb1, hb2⟩ := hb
      have hbf : b = false := by cases b <;> simp_all
      subst hbf
      have hc : s.chan = 0 := by simp at hb2; exact hb2
      by_cases hother : ∃ u, u ≠ t ∧ s.pc u ≠ .out
      · obtain ⟨u, hut, hu⟩ := hother
        left
        have huh : holds (s.pc u) = false := by
          cases h : holds (s.pc u) with
          | false => rfl
          | true => exact absurd (holder_unique hI h hh) hut
        have huw : inWait (s.pc u) = false := by
          cases h : inWait (s.pc u) with
          | false => rfl
          | true => exact absurd (waiter_unique hI h (by rw [hb1]; rfl)) hut
        refine go u hu ?_ ?_ ?_
        · intro b e; rw [e] at huw; cases huw
        · rintro (⟨op, b, e⟩ | ⟨b, e⟩ | ⟨b, e⟩)
          · have := hL.reg t false hb1 u op b e; omega
          · rw [e] at huw; cases huw
          · rw [e] at huw; cases huw
        · intro b e; rw [e] at huw; cases huw
      · have hall : ∀ u, u ≠ t → s.pc u = .out := fun u hu => Classical.byContradiction fun h => hother ⟨u, hu, h⟩
        refine .inr ⟨t, hb1, hall, hc, ?_⟩
        cases hn : s.notified with
        | false => rfl
        | true =>
          rcases hL.note t false (.inr hb1) hn with h | ⟨u, hu⟩
          · omega
          · by_cases e : u = t
            · subst e; rw [hb1] at hu; cases hu
            · rw [hall u e] at hu; cases hu
    · left
      refine go t hno ?_ ?_ ?_
      · intro b e; rw [e] at hh; cases hh
      · rintro (⟨op, b, e⟩ | ⟨b, e⟩ | ⟨b, e⟩) <;> (rw [e] at hh; cases hh)
      · intro b e; exact Classical.byContradiction fun h => hb ⟨b, e, h⟩
  | none =>
    left
    have hfree : ∀ t, holds (s.pc t) = false := by
      intro t
      cases h : holds (s.pc t) with
      | false => rfl
      | true => have := (hI.mtx t).1 h; rw [hm] at this; cases this
    obtain ⟨t, ht⟩ := hex
    by_cases hsl : ∃ b, s.pc t = .wSleep b
    · obtain ⟨b, hb⟩ := hsl
      rcases hJ.sleep t b hb with h | ⟨u, r, hu⟩
      · rw [hI.ops] at h
        obtain ⟨u, hu1, hu2⟩ := cnt_pos.1 h
        have hf := hfree u
        refine go u ?_ ?_ (fun _ => hm) ?_
        · intro e; rw [e] at hu2; cases hu2
        · intro b e; rw [e] at hu2; cases hu2
        · intro b e; rw [e] at hu2; cases hu2
      · have := hfree u; rw [hu] at this; cases this
    · refine go t ht (fun b e => hsl ⟨b, e⟩) (fun _ => hm) ?_
      intro b e; have := hfree t; rw [e] at this; cases this

/-- The states passed through by a run all have thread `t` holding the table. -/
def KeepsTable (c : Cfg) (s : S) (t : Nat) (acts : List (Nat × Act)) : Prop :=
  ∀ k s' obs, runActs c s (acts.take k) = some (s', obs) → s'.mtx = some t

/-- Once a registration call waits for the table, a `wait` that holds the table takes at most `2 n + 7` further steps
before it releases it, whatever the other threads do and whatever the OS reports. -/
theorem poll_handover {c s tr t u op sent} (hr : Reach c WritesWork s tr) (hw : inWait (s.pc t) = true)
    (hu : s.pc u = .mLock op sent) (acts : List (Nat × Act)) (hP : ∀ a ∈ acts, WritesWork a.2)
    (hrun : (runActs c s acts).isSome = true) (hk : KeepsTable c s t acts) :
    (acts.filter fun a => a.1 == t).length ≤ 2 * c.threads + 7 := by
  suffices h : (acts.filter fun a => a.1 == t).length ≤ R c t s from Nat.le_trans h (R_bound hr)
  induction acts generalizing s tr with
  | nil => simp
  | cons ta acts ih =>
    obtain ⟨v, a⟩ := ta
    have hI := reach_I hr
    have hm : s.mtx = some t := hk 0 s [] rfl
    obtain ⟨⟨s2, obs2⟩, hrun⟩ := Option.isSome_iff_exists.1 hrun
    simp only [runActs, Option.bind_eq_some_iff, Option.map_eq_some_iff] at hrun
    obtain ⟨⟨s1, o⟩, h1, ⟨s2', obs2'⟩, h2, _⟩ := hrun
    have hn := step_next h1
    have hr1 : Reach c WritesWork s1 (o :: tr) := .step hr (hP _ List.mem_cons_self) h1
    have hk1 : KeepsTable c s1 t acts := by
      intro k s' obs hrun'
      refine hk (k + 1) s' (obs ++ [o]) ?_
      rw [List.take_succ_cons]
      simp only [runActs, h1, Option.bind_some, hrun', Option.map_some]
    have hm1 : s1.mtx = some t := hk1 0 s1 [] rfl
    have hth := (hI.mtx t).2 hm
    have hth1 := ((reach_I hr1).mtx t).2 hm1
    have hut : u ≠ t := by intro e; subst e; rw [hu] at hth; cases hth
    -- the registration call keeps waiting
    have hu1 : s1.pc u = .mLock op sent := by
      by_cases e : u = v
      · subst e
        have hn2 := hn.2
        cases hn2 <;> simp_all
      · rcases next_other hn.2 e with h | ⟨b, h, _⟩
        · rw [h]; exact hu
        · rw [hu] at h; cases h
    -- the waiting thread is still in its wait
    have hw1 : inWait (s1.pc t) = true := by
      by_cases e : t = v
      · subst e
        have hn2 := hn.2
        cases hn2 <;> simp_all [upd_self, inWait, holds]
      · rcases next_other hn.2 e with h | ⟨b, h, _⟩
        · rw [h]; exact hw
        · rw [h] at hth; cases hth
    have hih := ih hr1 hw1 hu1 (fun a ha => hP a (List.mem_cons_of_mem _ ha)) (by rw [h2]; rfl) hk1
    rw [List.filter_cons]
    by_cases e : v = t
    · subst e
      have := R_self hn.1 hn.2 hI (reach_L hr) hm hw hm1 hu
      simp only [beq_self_eq_true, if_true, List.length_cons]
      omega
    · have := R_other hn.1 hn.2 hI e hm hw
      have hb : (v == t) = false := by simp [e]
      simp only [hb]
      simp only [Bool.false_eq_true, if_false]
      omega

/-- During all that time the waiting thread can take its next step. -/
theorem poll_handover_not_stuck {c s tr t u op sent} (hr : Reach c WritesWork s tr) (hm : s.mtx = some t)
    (hu : s.pc u = .mLock op sent) : ∃ a s' o, GoesOn c.n a ∧ step c s t a = some (s', o) := by
  have hI := reach_I hr
  obtain ⟨a, s', o, ha, hs⟩ := holder_steps hr ((hI.mtx t).2 hm) fun b hb => .inr ((reach_L hr).reg t b hb u op sent hu)
  exact ⟨a, s', o, goesOn_nextAct ha, hs⟩

/-- A registration call that announced itself while a `wait` without timeout was blocked in `poll()`. -/
example : ∃ s tr, Reach ⟨⟨3, 4, IN⟩, .pipe, 2⟩ WritesWork s tr ∧ inWait (s.pc 0) = true ∧ s.mtx = some 0 ∧
    s.pc 1 = .mLock (.delete 9) true := by
  let c : Cfg := ⟨⟨3, 4, IN⟩, .pipe, 2⟩
  let acts : List (Nat × Act) := [(0, .waitBegin false), (0, .waitLock), (0, .waitSwap), (0, .waitLoad),
    (1, .callBegin (.delete 9)), (1, .callWrite true)]
  have h1 : ((runActs c (init c) acts).map fun r => inWait (r.1.pc 0) && decide (r.1.mtx = some 0) && match r.1.pc 1 with
      | .mLock op b => decide (op = .delete 9) && b | _ => false) = some true := by decide +kernel
  obtain ⟨⟨s, tr⟩, h2, h3⟩ := Option.map_eq_some_iff.1 h1
  simp only [Bool.and_eq_true, decide_eq_true_eq] at h3
  refine ⟨s, tr, ?_, h3.1.1, h3.1.2, ?_⟩
  · have := reach_run (P := WritesWork) .init acts s tr (by
      intro a ha; simp only [acts, List.mem_cons, List.not_mem_nil, or_false] at ha
      rcases ha with rfl | rfl | rfl | rfl | rfl | rfl <;> trivial) h2
    simpa using this
  · have := h3.2
    revert this; cases s.pc 1 <;> simp

end Polling.C33
