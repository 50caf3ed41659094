import Verif.Props.C69

/-! C70: registration calls do not wait for a `wait` in progress. -/

namespace Polling.C70
open Spec

section Kqueue
open KqM KqSpec

/-- The call returned. -/
def kqReturned (t : Tid) (call : Call) (o : KObs) : Prop := ∃ r, o = .ret t call r

/-- The call a thread is in. -/
def kqCall : Pc → Option Call
  | .insert call | .has call | .submit (.call call) _ _ | .remove call | .ending call => some call
  | _ => none

/-- How many steps the call has left, at most. -/
def kqLeft : Pc → Nat
  | .insert _ => 7
  | .has _ => 6
  | .submit (.call call) todo _ => todo.length + (if isDelete call then 3 else 1)
  | .remove _ => 2
  | .ending _ => 1
  | _ => 0

theorem changes_length (call : Call) : (changes call).length ≤ 2 := by
  cases call <;> simp [changes, fdChanges]

theorem kq_own {c s s' t a o call} (hn : Next c s t a s' o) (hl : kqCall (s.pc t) = some call) :
    kqReturned t call o ∨ (kqCall (s'.pc t) = some call ∧ kqLeft (s'.pc t) + (if C69.kqOwn t (t, a) then 1 else 0) ≤ kqLeft (s.pc t)) := by
  have no : ∀ {p}, s.pc t = p → kqCall p = none → False := by intro p h1 h2; rw [h1, h2] at hl; cases hl
  have same : ∀ {p call'}, s.pc t = p → kqCall p = some call' → call' = call := by
    intro p call' h1 h2; rw [h1, h2] at hl; exact Option.some.inj hl
  have one : (if C69.kqOwn t (t, a) = true then 1 else 0) ≤ 1 := by split <;> omega
  cases hn with
  | reject hp | panic0 hp | wMissing hp | wHas hp | kevRetry hp | kevErr hp | casSeen hp | casUser hp | casPair hp
  | waitBusy hp | waitBegin hp | kevent hp | read hp | readEnd hp | finish hp | writeFail hp | write hp => exact (no hp rfl).elim
  | begin hp => exact (no hp rfl).elim
  | dup hp => cases same hp rfl; exact .inl ⟨_, rfl⟩
  | panic hp => cases same hp rfl; exact .inl ⟨_, rfl⟩
  | ended hp => cases same hp rfl; exact .inl ⟨_, rfl⟩
  | missing hp => rcases hp with hp | hp <;> (cases same hp rfl; exact .inl ⟨_, rfl⟩)
  | inserted hp =>
    cases same hp rfl
    right; dsimp only; rw [upd_self, hp]; refine ⟨rfl, ?_⟩; simp only [kqLeft]; omega
  | has hp =>
    cases same hp rfl
    right; dsimp only; rw [upd_self, hp]; refine ⟨rfl, ?_⟩
    have := changes_length call
    simp only [kqLeft]; split <;> omega
  | removed hp =>
    cases same hp rfl
    right; dsimp only; rw [upd_self, hp]; refine ⟨rfl, ?_⟩; simp only [kqLeft]; omega
  | @change fault w ev todo done errno k hp =>
    cases w with
    | notify | rearm => exact (no hp rfl).elim
    | call call' =>
      cases same hp rfl
      right; dsimp only; rw [upd_self, hp]; refine ⟨rfl, ?_⟩; simp only [kqLeft, List.length_cons]; omega
  | finCall hf => obtain ⟨_, _, hp⟩ := hf.pc; cases same hp rfl; exact .inl ⟨_, rfl⟩
  | finDelete hf hd =>
    obtain ⟨_, _, hp⟩ := hf.pc; cases same hp rfl
    right; dsimp only; rw [upd_self, hp]; refine ⟨rfl, ?_⟩
    simp only [kqLeft, hd, if_true]; omega
  | finNotify hf => obtain ⟨_, _, hp⟩ := hf.pc; exact (no hp rfl).elim
  | finRearm hf => obtain ⟨_, _, hp⟩ := hf.pc; exact (no hp rfl).elim
  | rearmRetry hf => obtain ⟨_, _, hp⟩ := hf.pc; exact (no hp rfl).elim
  | rearmErr hf => obtain ⟨_, _, hp⟩ := hf.pc; exact (no hp rfl).elim
  | raise => exact .inr ⟨hl, Nat.le_refl _⟩
  | fall => exact .inr ⟨hl, Nat.le_refl _⟩

theorem kqLeft_pos {p call} (h : kqCall p = some call) : kqLeft p > 0 := by
  cases p with
  | submit w todo done => cases w <;> simp [kqCall, kqLeft] at * ; split <;> omega
  | _ => first | (simp [kqLeft]; done) | cases h

/-- The kqueue poller, in every state: a registration call (also of the extension) needs at most seven steps after the first. -/
theorem kqueue_calls_never_wait (c : Cfg) (s : S) (t : Tid) (call : Call) (ht : t < c.threads) (hout : s.pc t = .out)
    (hacc : accessible c call = true) :
    WaitFree (fun s x => step c s x.1 x.2) (t, .call call) (C69.kqOwn t) C69.kqFine (kqReturned t call) 7 s := by
  have htn : ¬ t ≥ c.threads := by omega
  refine waitFree_of (fun s => kqCall (s.pc t) = some call) (fun s => kqLeft (s.pc t)) ?_ ?_ ?_ ?_
  · unfold step; rw [if_neg htn]; simp only [hout, hacc]
    cases call <;> simp only [Bool.not_true, Bool.false_eq_true, if_false] <;> split <;> rfl
  · intro s1 o h
    have hn := (step_next h).2
    dsimp only at hn
    generalize ha : Act.call call = a at hn
    cases hn with
    | reject => cases ha; exact .inl ⟨_, rfl⟩
    | panic0 => cases ha; exact .inl ⟨_, rfl⟩
    | begin =>
      cases ha; right; dsimp only; rw [upd_self]
      cases call <;> refine ⟨rfl, ?_⟩ <;> simp [first, kqLeft, changes, isDelete]
    | finCall hf => obtain ⟨_, _, hp⟩ := hf.pc; rw [hout] at hp; cases hp
    | finDelete hf => obtain ⟨_, _, hp⟩ := hf.pc; rw [hout] at hp; cases hp
    | finNotify hf => obtain ⟨_, _, hp⟩ := hf.pc; rw [hout] at hp; cases hp
    | finRearm hf => obtain ⟨_, _, hp⟩ := hf.pc; rw [hout] at hp; cases hp
    | rearmRetry hf => obtain ⟨_, _, hp⟩ := hf.pc; rw [hout] at hp; cases hp
    | rearmErr hf => obtain ⟨_, _, hp⟩ := hf.pc; rw [hout] at hp; cases hp
    | _ => cases ha
  · intro s a s' o hi h
    obtain ⟨u, a⟩ := a
    have hn := (step_next h).2
    dsimp only at hn
    by_cases e : u = t
    · subst e; exact kq_own hn hi
    · right
      have hb : C69.kqOwn t (u, a) = false := by
        have : (u == t) = false := by simpa using e
        cases a <;> first | rfl | exact this
      rw [C69.kq_other hn (fun h => e h.symm), hb]
      exact ⟨hi, Nat.le_refl _⟩
  · intro s hi
    refine ⟨kqLeft_pos hi, ?_⟩
    cases hp : s.pc t with
    | insert call' =>
      refine ⟨(t, .src), by simp [C69.kqOwn], rfl, ?_⟩
      unfold step; rw [if_neg htn]; simp only [hp]; split <;> rfl
    | has call' =>
      refine ⟨(t, .src), by simp [C69.kqOwn], rfl, ?_⟩
      unfold step; rw [if_neg htn]; simp only [hp]; repeat' split
      all_goals rfl
    | remove call' =>
      refine ⟨(t, .src), by simp [C69.kqOwn], rfl, ?_⟩
      unfold step; rw [if_neg htn]; simp only [hp]; split <;> rfl
    | ending call' =>
      refine ⟨(t, .eval), by simp [C69.kqOwn], rfl, ?_⟩
      unfold step; rw [if_neg htn]; simp only [hp]; rfl
    | submit w todo done =>
      cases todo with
      | nil =>
        refine ⟨(t, .eval), by simp [C69.kqOwn], rfl, ?_⟩
        unfold step; rw [if_neg htn]; simp only [hp]; rfl
      | cons ev todo =>
        refine ⟨(t, .change none), by simp [C69.kqOwn], rfl, ?_⟩
        unfold step; rw [if_neg htn]; simp only [hp]; rfl
    | _ => rw [hp] at hi; cases hi

/-- A thread is in `kevent()`, another one in the middle of `add`, with the first of two filters changed; a third one deletes another source. -/
example : (runLog (fun s x => step C04.userCfg s x.1 x.2) (init C04.userCfg fun _ => none)
      [(1, .call (.add 8 (Event.onlyReadable 2) .oneshot)), (1, .src), (1, .src), (1, .change none), (1, .change none), (1, .eval), (0, .wait false 4),
       (1, .call (.add 7 (Event.onlyReadable 1) .oneshot)), (1, .src), (1, .src), (1, .change none), (2, .call (.delete 8)), (2, .src), (2, .change none),
       (2, .change none), (2, .eval), (2, .src), (2, .eval)] []).map (fun r => (r.2.map Prod.snd).head?) =
    some (some (.ret 2 (.delete 8) (.res .ok))) := by decide +kernel

end Kqueue

section Iocp
open IocpM IocpSpec

/-- The call returned. -/
def iocpReturned (t : Tid) (call : Call) (o : IObs) : Prop := (∃ r, o = .ret t call r) ∨ ∃ p r, o = .deleted t (callSock call) (callFd call) p r

/-- The call a thread is in. -/
def iocpCall : Pc → Option Call
  | .prepare call | .table call | .set call _ | .del call _ | .upd call _ | .ret call _ => some call
  | _ => none

/-- How many steps `update_packet` has left, at most, if it does not find the queue full (once more). -/
def updLeft : UPc → Nat
  | .load _ => 3
  | .run _ | .push _ => 2
  | .pop _ n => 2 * n + 4
  | .drain _ n _ => 2 * n + 5

/-- How many steps a call has left, at most. -/
def iocpLeft : Pc → Nat
  | .prepare _ => 6
  | .table _ => 5
  | .set _ _ => 4
  | .del _ _ => 1
  | .upd _ u => updLeft u
  | .ret _ _ => 1
  | _ => 0

/-- A thread changes a packet that is in the table as a call of its kind; the other calls have no such step. -/
def setOk : Pc → Bool
  | .set (.modify _ _ _ _) _ => true
  | .set _ _ => false
  | _ => true

/-- The step is one in which thread `t` finds the queue of updates full. -/
def findsFull (t : Tid) (s : S) : Act → Bool
  | .go u _ => u == t && match s.pc t with
    | .upd _ (.push _) => decide (s.c.pending.length ≥ CAPACITY)
    | _ => false
  | _ => false

/-- How often thread `t` finds the queue of updates full. -/
def fulls (n : Nat) (t : Tid) : S → List Act → Nat
  | _, [] => 0
  | s, a :: as => (if findsFull t s a then 1 else 0) + match step n s a with | some r => fulls n t r.1 as | none => 0

theorem iocp_other {n s a s' o t} (h : step n s a = some (s', o)) (ho : C69.iocpOwn t a = false) : s'.pc t = s.pc t := by
  have ne : ∀ {u : Tid}, (u == t) = false → t ≠ u := by intro u h e; subst e; simp at h
  have up : ∀ {u : Tid} {p}, (u == t) = false → upd s.pc u p t = s.pc t := by
    intro u p h; unfold upd; rw [if_neg (ne h)]
  cases a with
  | call u call =>
    simp only [step] at h
    repeat' split at h
    all_goals cases h
    all_goals first | rfl | exact up ho
  | go u fault =>
    simp only [step] at h
    split at h
    · cases h
    · obtain ⟨_, _, _, _, p, h1, _⟩ := goCall_notify h
      rw [h1]; exact up ho
  | notifyCas u =>
    simp only [step] at h
    repeat' split at h
    all_goals cases h
    all_goals first | rfl | exact up ho
  | notifyPost u fault =>
    simp only [step] at h
    repeat' split at h
    all_goals cases h
    all_goals exact up ho
  | wait fault => rw [C69.goWait_pc h]
  | _ =>
    simp only [step] at h
    repeat' split at h
    all_goals cases h
    all_goals rfl

/-- How many steps a call has left after a step of `update_packet`, at most. -/
def outLeft : UOut → Nat
  | .more u => updLeft u
  | .done _ => 1

/-- What it costs to find the queue full. -/
def fullCost (c : Core) : UPc → Nat
  | .push _ => if c.pending.length ≥ CAPACITY then 2 * CAPACITY + 3 else 0
  | _ => 0

theorem ustep_left {fault c u} : outLeft (ustep fault c u).2.1 + 1 ≤ updLeft u + fullCost c u := by
  cases u with
  | load p =>
    show updLeft (if _ then _ else _) + 1 ≤ _
    split <;> exact Nat.le_refl _
  | run p => exact Nat.le_refl _
  | push p =>
    simp only [ustep, fullCost]
    by_cases h : c.pending.length < CAPACITY
    · rw [if_pos h]; simp only [outLeft, updLeft]; omega
    · rw [if_neg h, if_pos (by omega)]; simp only [outLeft, updLeft]; omega
  | pop p n =>
    cases n with
    | zero => simp only [ustep, outLeft, updLeft]; omega
    | succ n =>
      cases hq : c.pending with
      | nil => simp only [ustep, hq, outLeft, updLeft]; omega
      | cons q rest => simp only [ustep, hq, outLeft, updLeft]; omega
  | drain p n q =>
    simp only [ustep]
    rcases (update fault c q).1 with _ | e <;> simp only [outLeft, updLeft] <;> omega

theorem iocp_own {n s s' t a o call} (h : step n s a = some (s', o)) (ho : C69.iocpOwn t a = true) (hc : iocpCall (s.pc t) = some call)
    (hs : setOk (s.pc t) = true) :
    iocpReturned t call o ∨ (iocpCall (s'.pc t) = some call ∧ setOk (s'.pc t) = true ∧
      iocpLeft (s'.pc t) + 1 ≤ iocpLeft (s.pc t) + (if findsFull t s a then 2 * CAPACITY + 3 else 0)) := by
  have self : ∀ p, upd s.pc t p t = p := by intro p; simp [upd]
  have no : s.pc t = .out → False := by intro h; rw [h] at hc; cases hc
  cases a with
  | call u call' =>
    have e : u = t := by simpa [C69.iocpOwn] using ho
    subst e
    simp only [step] at h
    repeat' split at h
    all_goals first | cases h | exact (no (by assumption)).elim
  | notifyCas u =>
    have e : u = t := by simpa [C69.iocpOwn] using ho
    subst e
    simp only [step] at h
    repeat' split at h
    all_goals first | cases h | exact (no (by assumption)).elim
  | notifyPost u fault =>
    have e : u = t := by simpa [C69.iocpOwn] using ho
    subst e
    simp only [step] at h
    split at h
    · next hp => rw [hp] at hc; cases hc
    · cases h
  | go u fault =>
    have e : u = t := by simpa [C69.iocpOwn] using ho
    subst e
    simp only [step] at h
    split at h
    · cases h
    · unfold goCall at h
      cases hp : s.pc u with
      | out => exact (no hp).elim
      | notify => rw [hp] at hc; cases hc
      | prepare call' =>
        rw [hp] at h hc; cases hc
        dsimp only at h
        split at h <;> cases h
        · exact .inl (.inl ⟨_, rfl⟩)
        · right; dsimp only; rw [self]; exact ⟨rfl, rfl, by simp only [iocpLeft]; omega⟩
      | table call' =>
        rw [hp] at h hc; cases hc
        dsimp only at h
        repeat' split at h
        all_goals cases h
        all_goals first
          | exact .inl (.inl ⟨_, rfl⟩)
          | (right; dsimp only; rw [self]; exact ⟨rfl, rfl, by simp only [iocpLeft, updLeft]; omega⟩)
      | set call' p =>
        rw [hp] at h hc; cases hc
        dsimp only at h
        split at h
        · cases h
          right; dsimp only; rw [self]
          split
          · exact ⟨rfl, rfl, by simp only [iocpLeft, updLeft]; omega⟩
          · exact ⟨rfl, rfl, by simp only [iocpLeft]; omega⟩
        · cases h
      | del call' p =>
        rw [hp] at h hc; cases hc
        cases h
        exact .inl (.inr ⟨_, _, rfl⟩)
      | ret call' r =>
        rw [hp] at h hc; cases hc
        cases h
        exact .inl (.inl ⟨_, rfl⟩)
      | upd call' w =>
        rw [hp] at h hc; cases hc
        have hl := ustep_left (fault := fault) (c := s.c) (u := w)
        have hf : fullCost s.c w = (if findsFull u s (.go u fault) then 2 * CAPACITY + 3 else 0) := by
          simp only [findsFull, hp, beq_self_eq_true, Bool.true_and]
          cases w <;> simp [fullCost]
        rw [hf] at hl
        dsimp only at h
        rcases hu : ustep fault s.c w with ⟨c, out, o'⟩
        rw [hu] at h hl
        cases out with
        | more u' => cases h; right; dsimp only; rw [self]; exact ⟨rfl, rfl, hl⟩
        | done r => cases h; right; dsimp only; rw [self]; exact ⟨rfl, rfl, hl⟩
  | _ => cases ho

theorem iocpLeft_pos {p call} (h : iocpCall p = some call) : iocpLeft p > 0 := by
  cases p with
  | upd _ u => cases u <;> simp [iocpLeft, updLeft]
  | _ => first | (simp [iocpLeft]; done) | cases h

theorem iocp_enabled {n s t call} (ht : t < n) (hc : iocpCall (s.pc t) = some call) (hs : setOk (s.pc t) = true) :
    (step n s (.go t none)).isSome = true := by
  have htn : ¬ t ≥ n := by omega
  simp only [step, if_neg htn]
  unfold goCall
  cases hp : s.pc t with
  | out | notify => rw [hp] at hc; cases hc
  | prepare call' => rfl
  | table call' => dsimp only; cases call' <;> dsimp only <;> split <;> rfl
  | set call' p => rw [hp] at hs; cases call' <;> first | rfl | cases hs
  | del call' p => rfl
  | upd call' u => dsimp only; split <;> rfl
  | ret call' r => rfl

/-- The IOCP poller, in every state: along every continuation, a registration call has returned, or it can make its next step, which does not
fail.  And it has made at most six steps after the first, and 2051 more for every time that it found the queue of updates full.
Missing: a bound for how often that happens, if other threads fill the queue again each time. -/
theorem iocp_calls_never_wait_partial (n : Nat) (s : S) (t : Tid) (call : Call) (ht : t < n) (hout : s.pc t = .out) (hb : callBuildable call = true)
    (acts : List Act) (s' : S) (l : List (Act × IObs)) :
    (step n s (.call t call)).isSome = true ∧
    (runLog (step n) s (.call t call :: acts) [] = some (s', l) →
      (∃ x ∈ l, iocpReturned t call x.2) ∨
      ((acts.filter (C69.iocpOwn t)).length < 6 + (2 * CAPACITY + 3) * fulls n t s (.call t call :: acts) ∧
        (step n s' (.go t none)).isSome = true)) := by
  have htn : ¬ t ≥ n := by omega
  have run : ∀ (acts : List Act) {s s' : S} {l l'}, iocpCall (s.pc t) = some call → setOk (s.pc t) = true →
      runLog (step n) s acts l = some (s', l') →
      (∃ x ∈ l', iocpReturned t call x.2) ∨ (iocpCall (s'.pc t) = some call ∧ setOk (s'.pc t) = true ∧
        iocpLeft (s'.pc t) + (acts.filter (C69.iocpOwn t)).length ≤ iocpLeft (s.pc t) + (2 * CAPACITY + 3) * fulls n t s acts) := by
    intro acts
    induction acts with
    | nil => intro s s' l l' hc hs h; cases h; exact .inr ⟨hc, hs, by simp⟩
    | cons a acts ih =>
      intro s s' l l' hc hs h
      simp only [runLog, Option.bind_eq_some_iff] at h
      obtain ⟨⟨s1, o⟩, ha, h⟩ := h
      have step1 : iocpReturned t call o ∨ (iocpCall (s1.pc t) = some call ∧ setOk (s1.pc t) = true ∧
          iocpLeft (s1.pc t) + (if C69.iocpOwn t a then 1 else 0) ≤ iocpLeft (s.pc t) + (if findsFull t s a then 2 * CAPACITY + 3 else 0)) := by
        cases ho : C69.iocpOwn t a with
        | true => simpa using iocp_own ha ho hc hs
        | false =>
          rw [iocp_other ha ho]
          exact .inr ⟨hc, hs, by simp⟩
      rcases step1 with hr | ⟨h1, h2, h3⟩
      · exact .inl ⟨_, runLog_mem h _ (List.mem_cons_self ..), hr⟩
      · rcases ih h1 h2 h with hr | ⟨h4, h5, h6⟩
        · exact .inl hr
        · refine .inr ⟨h4, h5, ?_⟩
          have e : fulls n t s (a :: acts) = (if findsFull t s a then 1 else 0) + fulls n t s1 acts := by
            simp only [fulls, ha]
          rw [e, Nat.mul_add, List.filter_cons]
          cases ho : C69.iocpOwn t a <;> cases hf : findsFull t s a <;> rw [ho, hf] at h3 <;>
            simp only [if_true, Bool.false_eq_true, if_false, List.length_cons] at h3 ⊢ <;> omega
  refine ⟨?_, ?_⟩
  · simp only [step, if_neg htn, hout, hb]
    simp only [Bool.not_true, Bool.false_eq_true, if_false]
    repeat' split
    all_goals rfl
  · intro h
    have e : fulls n t s (.call t call :: acts) = (if findsFull t s (.call t call) then 1 else 0) + match step n s (.call t call) with
        | some r => fulls n t r.1 acts | none => 0 := rfl
    simp only [runLog, Option.bind_eq_some_iff] at h
    obtain ⟨⟨s1, o⟩, ha, h⟩ := h
    rw [e, ha]
    have h1 : iocpReturned t call o ∨ (iocpCall (s1.pc t) = some call ∧ setOk (s1.pc t) = true ∧ iocpLeft (s1.pc t) ≤ 6) := by
      simp only [step, if_neg htn, hout, hb] at ha
      simp only [Bool.not_true, Bool.false_eq_true, if_false] at ha
      repeat' split at ha
      all_goals cases ha
      · exact .inl (.inl ⟨_, rfl⟩)
      · exact .inl (.inl ⟨_, rfl⟩)
      · right; simp [upd, iocpCall, setOk, iocpLeft]
      · right; simp [upd, iocpCall, setOk, iocpLeft]
    rcases h1 with hr | ⟨h1, h2, h3⟩
    · exact .inl ⟨_, runLog_mem h _ (List.mem_cons_self ..), hr⟩
    · rcases run acts h1 h2 h with hr | ⟨h4, h5, h6⟩
      · exact .inl hr
      · refine .inr ⟨?_, iocp_enabled ht h4 h5⟩
        have := iocpLeft_pos h4
        simp only [findsFull, Bool.false_eq_true, if_false, Nat.zero_add]
        omega

/-- A thread waits at the port; another one adds a socket: six steps after the first. -/
example : (runLog (step 3) init (blockActs 0 4 ++ addActs 0 true 7 (Event.onlyReadable 5) .oneshot) []).map
    (fun r => ((r.2.map Prod.snd).head?, fulls 3 0 init (blockActs 0 4 ++ addActs 0 true 7 (Event.onlyReadable 5) .oneshot))) =
    some (some (.ret 0 (.add true 7 (Event.onlyReadable 5) .oneshot) .ok), 0) := by decide +kernel

/-! Where the bound is missing: the other thread fills the queue again each time. -/

/-- Both threads change the registration of one handle, without interest. -/
def spin : Call := .modify false 7 (Event.none 5) .oneshot

/-- Two threads. -/
def pcs (p0 p1 : Pc) : Tid → Pc := fun t => if t = 0 then p0 else if t = 1 then p1 else .out

/-- The handle is registered, as packet 1, and the queue of updates holds it `m` times. -/
def spinCore (m : Nat) : Core :=
  { pk := fun p => if p = 1 then .waitable ⟨7, Event.none 5, .oneshot, .idle, false⟩ else if p = NOTIFIER then .wakeup else .free
    next := 2, table := fun k x => if k = false ∧ x = 7 then some 1 else none, pending := List.replicate m 1, polling := false, port := [] }

def spinS (m : Nat) (p0 p1 : Pc) : S := ⟨spinCore m, false, pcs p0 p1, .idle, [], []⟩

theorem pcs_upd0 (p0 p1 p : Pc) : upd (pcs p0 p1) 0 p = pcs p p1 := by
  funext t; unfold upd pcs; split <;> simp [*]

theorem pcs_upd1 (p0 p1 p : Pc) : upd (pcs p0 p1) 1 p = pcs p0 p := by
  funext t; unfold upd pcs; split <;> simp [*]

theorem spin_setPk (m : Nat) : setPk (spinCore m) 1 (.waitable ⟨7, Event.none 5, .oneshot, .idle, false⟩) = spinCore m := by
  unfold setPk spinCore
  simp only [Core.mk.injEq, and_true]
  funext y; split <;> simp [*]

theorem spin_update (m : Nat) : update none (spinCore m) 1 = (.ok, spinCore m, none) := by
  have : update none (spinCore m) 1 = (.ok, setPk (spinCore m) 1 (.waitable ⟨7, Event.none 5, .oneshot, .idle, false⟩), none) := rfl
  rw [this, spin_setPk]

theorem spin_setEvents (m : Nat) : setEvents (spinCore m) 1 (Event.none 5) .oneshot = (true, spinCore m) := by
  have : setEvents (spinCore m) 1 (Event.none 5) .oneshot =
    (true, setPk (spinCore m) 1 (.waitable ⟨7, Event.none 5, .oneshot, .idle, false⟩)) := rfl
  rw [this, spin_setPk]

/-- Steps in which the call of thread 0 does not return. -/
inductive Go : S → List Act → S → Prop
  | nil {s} : Go s [] s
  | cons {s a s1 o as s'} : step 2 s a = some (s1, o) → ¬ iocpReturned 0 spin o → Go s1 as s' → Go s (a :: as) s'

theorem Go.append {s as s1 bs s'} (h1 : Go s as s1) (h2 : Go s1 bs s') : Go s (as ++ bs) s' := by
  induction h1 with
  | nil => exact h2
  | cons h ho _ ih => exact .cons h ho (ih h2)

theorem Go.run {s as s'} (h : Go s as s') : ∀ l, (∀ x ∈ l, ¬ iocpReturned 0 spin x.2) →
    ∃ l', runLog (step 2) s as l = some (s', l') ∧ ∀ x ∈ l', ¬ iocpReturned 0 spin x.2 := by
  induction h with
  | nil => intro l hl; exact ⟨l, rfl, hl⟩
  | @cons s a s1 o as s' h ho _ ih =>
    intro l hl
    obtain ⟨l', h1, h2⟩ := ih ((a, o) :: l) (by
      intro x hx
      rcases List.mem_cons.1 hx with rfl | hx
      · exact ho
      · exact hl x hx)
    exact ⟨l', by simp only [runLog, h, Option.bind_some]; exact h1, h2⟩

theorem Go.reach {s as s'} (h : Go s as s') : ∀ {tr}, Reach 2 Any s tr → ∃ tr', Reach 2 Any s' tr' := by
  induction h with
  | nil => intro tr h; exact ⟨_, h⟩
  | cons h _ _ ih => intro tr hr; exact ih (.step hr trivial h)

theorem not_ret {o} (h : ∀ r, o ≠ .ret 0 spin r) (h2 : ∀ k fd p r, o ≠ .deleted 0 k fd p r) : ¬ iocpReturned 0 spin o := by
  rintro (⟨r, e⟩ | ⟨p, r, e⟩)
  · exact h _ e
  · exact h2 _ _ _ _ e

theorem go_eq {s t fault} (h : t < 2) : step 2 s (.go t fault) = goCall s t fault := by
  simp only [step]; rw [if_neg (by omega)]

/-- From the call to the test whether the queue is full. -/
theorem go_modify0 (m : Nat) : Go (spinS m .out .out) [.call 0 spin, .go 0 none, .go 0 none, .go 0 none] (spinS m (.upd spin (.push 1)) .out) := by
  refine .cons (s1 := spinS m (.table spin) .out) (o := .begin 0 spin) ?_ (not_ret nofun nofun) (.cons (s1 := spinS m (.set spin 1) .out) (o := .tau) ?_
    (not_ret nofun nofun) (.cons (s1 := spinS m (.upd spin (.load 1)) .out) (o := .changed 0 false 7 1 (Event.none 5) .oneshot) ?_ (not_ret nofun nofun)
    (.cons (s1 := spinS m (.upd spin (.push 1)) .out) (o := .tau) ?_ (not_ret nofun nofun) .nil)))
  · rw [show spinS m (.table spin) .out = { spinS m .out .out with pc := upd (pcs .out .out) 0 (.table spin) } by rw [pcs_upd0]; rfl]; rfl
  · rw [show spinS m (.set spin 1) .out = { spinS m (.table spin) .out with pc := upd (pcs (.table spin) .out) 0 (.set spin 1) } by rw [pcs_upd0]; rfl]; rfl
  · rw [show spinS m (.upd spin (.load 1)) .out = { spinS m (.set spin 1) .out with
      c := (setEvents (spinCore m) 1 (Event.none 5) .oneshot).2, pc := upd (pcs (.set spin 1) .out) 0 (.upd spin (.load 1)) } by
      rw [pcs_upd0, spin_setEvents]; rfl]
    rfl
  · rw [show spinS m (.upd spin (.push 1)) .out = { spinS m (.upd spin (.load 1)) .out with
      pc := upd (pcs (.upd spin (.load 1)) .out) 0 (.upd spin (.push 1)) } by rw [pcs_upd0]; rfl]
    rfl

/-- Thread 1 puts the packet into the queue once more. -/
theorem go_fill1 (m : Nat) (p0 : Pc) (hm : m < CAPACITY) :
    Go (spinS m p0 .out) [.call 1 spin, .go 1 none, .go 1 none, .go 1 none, .go 1 none, .go 1 none] (spinS (m + 1) p0 .out) := by
  refine .cons (s1 := spinS m p0 (.table spin)) (o := .begin 1 spin) ?_ (not_ret nofun nofun) (.cons (s1 := spinS m p0 (.set spin 1)) (o := .tau) ?_
    (not_ret nofun nofun) (.cons (s1 := spinS m p0 (.upd spin (.load 1))) (o := .changed 1 false 7 1 (Event.none 5) .oneshot) ?_ (not_ret nofun nofun)
    (.cons (s1 := spinS m p0 (.upd spin (.push 1))) (o := .tau) ?_ (not_ret nofun nofun)
    (.cons (s1 := spinS (m + 1) p0 (.ret spin .ok)) (o := .queued 1) ?_ (not_ret nofun nofun)
    (.cons (s1 := spinS (m + 1) p0 .out) (o := .ret 1 spin .ok) ?_ (not_ret nofun nofun) .nil)))))
  · rw [show spinS m p0 (.table spin) = { spinS m p0 .out with pc := upd (pcs p0 .out) 1 (.table spin) } by rw [pcs_upd1]; rfl]; rfl
  · rw [show spinS m p0 (.set spin 1) = { spinS m p0 (.table spin) with pc := upd (pcs p0 (.table spin)) 1 (.set spin 1) } by rw [pcs_upd1]; rfl]; rfl
  · rw [show spinS m p0 (.upd spin (.load 1)) = { spinS m p0 (.set spin 1) with
      c := (setEvents (spinCore m) 1 (Event.none 5) .oneshot).2, pc := upd (pcs p0 (.set spin 1)) 1 (.upd spin (.load 1)) } by
      rw [pcs_upd1, spin_setEvents]; rfl]
    rfl
  · rw [show spinS m p0 (.upd spin (.push 1)) = { spinS m p0 (.upd spin (.load 1)) with
      pc := upd (pcs p0 (.upd spin (.load 1))) 1 (.upd spin (.push 1)) } by rw [pcs_upd1]; rfl]
    rfl
  · have e : ustep none (spinCore m) (.push 1) = (spinCore (m + 1), .done .ok, .queued 1) := by
      simp only [ustep]
      rw [if_pos (by simpa [spinCore] using hm)]
      simp [spinCore, List.replicate_succ']
    rw [go_eq (by decide)]
    have e1 : (spinS m p0 (.upd spin (.push 1))).pc 1 = .upd spin (.push 1) := rfl
    have e2 : (spinS m p0 (.upd spin (.push 1))).c = spinCore m := rfl
    unfold goCall
    simp only [e1, e2, e]
    show some ({ spinS m p0 (.upd spin (.push 1)) with c := spinCore (m + 1), pc := upd (pcs p0 (.upd spin (.push 1))) 1 (.ret spin .ok) }, _) = _
    rw [pcs_upd1]; rfl
  · rw [show spinS (m + 1) p0 .out = { spinS (m + 1) p0 (.ret spin .ok) with pc := upd (pcs p0 (.ret spin .ok)) 1 .out } by rw [pcs_upd1]; rfl]; rfl

/-- Thread 1 fills the queue. -/
theorem go_fill (p0 : Pc) : ∀ (d m : Nat), m + d = CAPACITY → ∃ as, as.filter (C69.iocpOwn 0) = [] ∧ Go (spinS m p0 .out) as (spinS CAPACITY p0 .out) := by
  intro d
  induction d with
  | zero => intro m h; have h : m = CAPACITY := by omega
            rw [h]; exact ⟨[], rfl, .nil⟩
  | succ d ih =>
    intro m h
    obtain ⟨as, h1, h2⟩ := ih (m + 1) (by omega)
    refine ⟨_, ?_, (go_fill1 m p0 (by omega)).append h2⟩
    rw [List.filter_append, h1]; rfl

/-- Thread 0 finds the queue full. -/
theorem go_full (m n : Nat) (hm : ¬ m < CAPACITY) (hn : n = CAPACITY) :
    Go (spinS m (.upd spin (.push 1)) .out) [.go 0 none] (spinS m (.upd spin (.pop 1 n)) .out) := by
  refine .cons (o := .tau) ?_ (not_ret nofun nofun) .nil
  have e : ustep none (spinCore m) (.push 1) = (spinCore m, .more (.pop 1 n), .tau) := by
    simp only [ustep]
    rw [if_neg (by simpa [spinCore] using hm), hn]
  rw [go_eq (by decide)]
  have e1 : (spinS m (.upd spin (.push 1)) .out).pc 0 = .upd spin (.push 1) := rfl
  have e2 : (spinS m (.upd spin (.push 1)) .out).c = spinCore m := rfl
  unfold goCall
  simp only [e1, e2, e]
  show some ({ spinS m (.upd spin (.push 1)) .out with pc := upd (pcs (.upd spin (.push 1)) .out) 0 (.upd spin (.pop 1 n)) }, _) = _
  rw [pcs_upd0]; rfl

/-- Thread 0 empties the queue, and finds that nobody is polling. -/
theorem go_drain : ∀ n : Nat, ∃ as, (as.filter (C69.iocpOwn 0)).length ≥ n ∧
    Go (spinS n (.upd spin (.pop 1 n)) .out) as (spinS 0 (.upd spin (.push 1)) .out) := by
  intro n
  induction n with
  | zero =>
    refine ⟨[.go 0 none, .go 0 none], Nat.zero_le _, .cons (s1 := spinS 0 (.upd spin (.load 1)) .out) (o := .tau) ?_ (not_ret nofun nofun)
      (.cons (o := .tau) ?_ (not_ret nofun nofun) .nil)⟩
    · rw [show spinS 0 (.upd spin (.load 1)) .out = { spinS 0 (.upd spin (.pop 1 0)) .out with
        pc := upd (pcs (.upd spin (.pop 1 0)) .out) 0 (.upd spin (.load 1)) } by rw [pcs_upd0]; rfl]
      rfl
    · rw [show spinS 0 (.upd spin (.push 1)) .out = { spinS 0 (.upd spin (.load 1)) .out with
        pc := upd (pcs (.upd spin (.load 1)) .out) 0 (.upd spin (.push 1)) } by rw [pcs_upd0]; rfl]
      rfl
  | succ n ih =>
    obtain ⟨as, h1, h2⟩ := ih
    refine ⟨.go 0 none :: .go 0 none :: as, ?_, .cons (s1 := spinS n (.upd spin (.drain 1 n 1)) .out) (o := .popped 1) ?_ (not_ret nofun nofun)
      (.cons (o := .tau) ?_ (not_ret nofun nofun) h2)⟩
    · simp only [List.filter_cons, C69.iocpOwn, beq_self_eq_true, if_true, List.length_cons]; omega
    · rw [show spinS n (.upd spin (.drain 1 n 1)) .out = { spinS (n + 1) (.upd spin (.pop 1 (n + 1))) .out with
        c := spinCore n, pc := upd (pcs (.upd spin (.pop 1 (n + 1))) .out) 0 (.upd spin (.drain 1 n 1)) } by rw [pcs_upd0]; rfl]
      rfl
    · rw [go_eq (by decide)]
      have e1 : (spinS n (.upd spin (.drain 1 n 1)) .out).pc 0 = .upd spin (.drain 1 n 1) := rfl
      have e2 : (spinS n (.upd spin (.drain 1 n 1)) .out).c = spinCore n := rfl
      unfold goCall
      simp only [e1, e2, ustep, spin_update]
      show some ({ spinS n (.upd spin (.drain 1 n 1)) .out with
        c := spinCore n, pc := upd (pcs (.upd spin (.drain 1 n 1)) .out) 0 (.upd spin (.pop 1 n)) }, _) = _
      rw [pcs_upd0]; rfl

/-- One round. -/
theorem go_round : ∃ as, (as.filter (C69.iocpOwn 0)).length > 0 ∧
    Go (spinS CAPACITY (.upd spin (.push 1)) .out) as (spinS CAPACITY (.upd spin (.push 1)) .out) := by
  obtain ⟨as, _, h2⟩ := go_drain CAPACITY
  obtain ⟨bs, _, h4⟩ := go_fill (.upd spin (.push 1)) CAPACITY 0 (Nat.zero_add _)
  refine ⟨_, ?_, ((go_full CAPACITY CAPACITY (Nat.lt_irrefl _) rfl).append h2).append h4⟩
  simp only [List.filter_append, List.length_append]
  exact Nat.lt_of_lt_of_le Nat.one_pos (Nat.le_trans (Nat.le_add_right 1 _) (Nat.le_add_right _ _))

theorem go_rounds : ∀ k : Nat, ∃ as, (as.filter (C69.iocpOwn 0)).length ≥ k ∧
    Go (spinS CAPACITY (.upd spin (.push 1)) .out) as (spinS CAPACITY (.upd spin (.push 1)) .out) := by
  intro k
  induction k with
  | zero => exact ⟨[], Nat.zero_le _, .nil⟩
  | succ k ih =>
    obtain ⟨as, h1, h2⟩ := ih
    obtain ⟨bs, h3, h4⟩ := go_round
    refine ⟨_, ?_, h2.append h4⟩
    rw [List.filter_append, List.length_append]; omega

/-- Nothing is registered yet. -/
def emptyS (p0 : Pc) : S := ⟨init.c, false, pcs p0 .out, .idle, [], []⟩

theorem init_empty : init = emptyS .out := by
  have : (fun _ => Pc.out) = pcs .out .out := by funext t; unfold pcs; repeat' split
                                                 all_goals rfl
  unfold emptyS; rw [← this]; rfl

theorem spin_reach : ∃ tr, Reach 2 Any (spinS CAPACITY .out .out) tr := by
  have h0 : Go (emptyS .out) [.call 0 (.add false 7 (Event.none 5) .oneshot), .go 0 none, .go 0 none, .go 0 none, .go 0 none] (spinS 1 .out .out) := by
    generalize hadd : Call.add false 7 (Event.none 5) .oneshot = add
    refine .cons (s1 := emptyS (.table add)) (o := .begin 0 add) ?_ (not_ret nofun nofun)
      (.cons (s1 := spinS 0 (.upd add (.load 1)) .out) (o := .inserted 0 false 7 1 (Event.none 5) .oneshot) ?_ (not_ret nofun nofun)
      (.cons (s1 := spinS 0 (.upd add (.push 1)) .out) (o := .tau) ?_ (not_ret nofun nofun)
      (.cons (s1 := spinS 1 (.ret add .ok) .out) (o := .queued 1) ?_ (not_ret nofun nofun)
      (.cons (s1 := spinS 1 .out .out) (o := .ret 0 add .ok) ?_ (not_ret (by subst hadd; nofun) nofun) .nil))))
    · subst hadd
      rw [show emptyS (.table (.add false 7 (Event.none 5) .oneshot)) = { emptyS .out with
        pc := upd (pcs .out .out) 0 (.table (.add false 7 (Event.none 5) .oneshot)) } by rw [pcs_upd0]; rfl]
      rfl
    · subst hadd
      rw [show spinS 0 (.upd (.add false 7 (Event.none 5) .oneshot) (.load 1)) .out = { emptyS .out with
        c := spinCore 0, pc := upd (pcs (.table (.add false 7 (Event.none 5) .oneshot)) .out) 0 (.upd (.add false 7 (Event.none 5) .oneshot) (.load 1)) } by
        rw [pcs_upd0]; rfl]
      rfl
    · rw [show spinS 0 (.upd add (.push 1)) .out = { spinS 0 (.upd add (.load 1)) .out with
        pc := upd (pcs (.upd add (.load 1)) .out) 0 (.upd add (.push 1)) } by rw [pcs_upd0]; rfl]
      rfl
    · rw [show spinS 1 (.ret add .ok) .out = { spinS 0 (.upd add (.push 1)) .out with
        c := spinCore 1, pc := upd (pcs (.upd add (.push 1)) .out) 0 (.ret add .ok) } by rw [pcs_upd0]; rfl]
      rfl
    · rw [show spinS 1 .out .out = { spinS 1 (.ret add .ok) .out with pc := upd (pcs (.ret add .ok) .out) 0 .out } by rw [pcs_upd0]; rfl]
      rfl
  have hi : Reach 2 Any (emptyS .out) [] := init_empty ▸ .init
  obtain ⟨as, _, h⟩ := go_fill .out 1023 1 rfl
  exact (h0.append h).reach hi

/-- Where it is missing, it is false: a thread changes the registration of a handle while another one does so again and again.  After every number of
steps, the first call may still be going round in iocp/mod.rs:507-524. -/
theorem iocp_call_may_starve : ∃ (s : S) (tr : List IObs), Reach 2 Any s tr ∧ s.pc 0 = .out ∧ ∀ k : Nat, ∃ acts s' l,
    runLog (step 2) s (.call 0 spin :: acts) [] = some (s', l) ∧ (acts.filter (C69.iocpOwn 0)).length ≥ k ∧ ∀ x ∈ l, ¬ iocpReturned 0 spin x.2 := by
  obtain ⟨tr, hr⟩ := spin_reach
  refine ⟨_, tr, hr, rfl, ?_⟩
  intro k
  obtain ⟨as, h1, h2⟩ := go_rounds k
  have h := (go_modify0 CAPACITY).append h2
  obtain ⟨l, h3, h4⟩ := h.run [] (by simp)
  refine ⟨.go 0 none :: .go 0 none :: .go 0 none :: as, _, l, h3, ?_, h4⟩
  simp only [List.filter_cons, C69.iocpOwn, beq_self_eq_true, if_true, List.length_cons]; omega

end Iocp

section Others

/-- The epoll poller, in every state: a registration call is one system call, which can be made, and then it returns. -/
theorem epoll_calls_never_wait (c : EpollM.Cfg) (s : EpollM.S) (fd : Fd) (ev : Event Epoll.EventExtra) (mode : PollMode) (fault : Option Err)
    (hfd : c.internal fd = false) (hb : EpollM.buildable ev = true) :
    (∃ s' o, EpollM.step c s (.add fd ev mode fault) = some (s', o) ∧ (o = .reg fd ev mode ∨ ∃ e, o = .failed e)) ∧
    (∃ s' o, EpollM.step c s (.modify fd ev mode fault) = some (s', o) ∧ (o = .reg fd ev mode ∨ ∃ e, o = .failed e)) ∧
    (∃ s' o, EpollM.step c s (.delete fd fault) = some (s', o) ∧ (o = .unreg fd ∨ ∃ e, o = .failed e)) := by
  refine ⟨?_, ?_, ?_⟩
  · simp only [EpollM.step, hfd, hb, Bool.false_eq_true, if_false, Bool.not_true]
    by_cases hk : ev.key = NOTIFY_KEY
    · rw [if_pos hk]; exact ⟨_, _, rfl, .inr ⟨_, rfl⟩⟩
    · rw [if_neg hk]
      rcases EpollM.add c fault s.k fd ev mode with ⟨_ | e, k⟩
      · exact ⟨_, _, rfl, .inl rfl⟩
      · exact ⟨_, _, rfl, .inr ⟨e, rfl⟩⟩
  · simp only [EpollM.step, hfd, hb, Bool.false_eq_true, if_false, Bool.not_true]
    by_cases hk : ev.key = NOTIFY_KEY
    · rw [if_pos hk]; exact ⟨_, _, rfl, .inr ⟨_, rfl⟩⟩
    · rw [if_neg hk]
      rcases EpollM.modify c fault s.k fd ev mode with ⟨_ | e, k⟩
      · exact ⟨_, _, rfl, .inl rfl⟩
      · exact ⟨_, _, rfl, .inr ⟨e, rfl⟩⟩
  · simp only [EpollM.step, hfd, Bool.false_eq_true, if_false]
    rcases EpollM.delete fault s.k fd with ⟨_ | e, k⟩
    · exact ⟨_, _, rfl, .inl rfl⟩
    · exact ⟨_, _, rfl, .inr ⟨e, rfl⟩⟩

/-- While a thread sleeps in `epoll_wait`. -/
example : (EpollM.runActs ⟨true, 3, 4, false, 2⟩ (EpollM.init ⟨true, 3, 4, false, 2⟩ (fun _ => 0#32))
    [.waitBegin none 5, .compute, .settime none, .armTimer none, .add 7 (Event.onlyReadable 5) .oneshot none, .delete 7 none]).map
    (fun r => r.2.take 2) = some [.unreg 7, .reg 7 (Event.onlyReadable 5) .oneshot] := by decide +kernel

/-- The event-port poller, in every state: likewise. -/
theorem port_calls_never_wait (threads : Nat) (s : PortM.S) (fd : Fd) (ev : Event Port.EventExtra) (mode : PollMode) (fault : Option Err)
    (hf : fault ≠ some .notFound) :
    (∃ s' o, PortM.step threads s (.add fd ev mode fault) = some (s', o) ∧ (o = .reg fd ev mode ∨ ∃ e, o = .failed e)) ∧
    (∃ s' o, PortM.step threads s (.modify fd ev mode fault) = some (s', o) ∧ (o = .reg fd ev mode ∨ ∃ e, o = .failed e)) ∧
    (∃ s' o, PortM.step threads s (.delete fd fault) = some (s', o) ∧ (o = .unreg fd ∨ ∃ e, o = .failed e)) := by
  refine ⟨?_, ?_, ?_⟩
  · simp only [PortM.step]
    by_cases hk : ev.key = NOTIFY_KEY
    · rw [if_pos hk]; exact ⟨_, _, rfl, .inr ⟨_, rfl⟩⟩
    · rw [if_neg hk]
      rcases PortM.add fault s.k fd ev mode with ⟨_ | e, k⟩
      · exact ⟨_, _, rfl, .inl rfl⟩
      · exact ⟨_, _, rfl, .inr ⟨e, rfl⟩⟩
  · simp only [PortM.step]
    by_cases hk : ev.key = NOTIFY_KEY
    · rw [if_pos hk]; exact ⟨_, _, rfl, .inr ⟨_, rfl⟩⟩
    · rw [if_neg hk]
      rcases PortM.modify fault s.k fd ev mode with ⟨_ | e, k⟩
      · exact ⟨_, _, rfl, .inl rfl⟩
      · exact ⟨_, _, rfl, .inr ⟨e, rfl⟩⟩
  · simp only [PortM.step, if_neg hf]
    rcases PortM.delete fault s.k fd with ⟨_ | e, k⟩
    · exact ⟨_, _, rfl, .inl rfl⟩
    · exact ⟨_, _, rfl, .inr ⟨e, rfl⟩⟩

/-- While a thread sleeps in `port_getn`. -/
example : (PortM.runActs 2 (PortM.init fun _ => 0#16) [.waitBegin none 5, .compute, .add 7 (Event.onlyReadable 5) .oneshot none, .delete 7 none]).map
    (fun r => r.2.take 2) = some [.unreg 7, .reg 7 (Event.onlyReadable 5) .oneshot] := by decide +kernel

/-- The `poll(2)` poller: not so.  A thread is in `poll()`, another one calls `add`; after the second step of that call no step of it is possible,
until the first thread has left `poll()` and released the table (`C33.poll_handover`). -/
theorem poll_call_waits : ∃ s tr, PollP.Reach C69.pollEx PollP.Any s tr ∧ s.pc 1 = .out ∧
    ∀ k, ¬ WaitFree (fun s x => PollP.step C69.pollEx s x.1 x.2) (1, .callBegin (.add 7 C34.exEv .oneshot)) (fun x => x.1 == 1) (fun _ => true)
      (fun o => ∃ r, o = .callEnd 1 r) k s := by
  have h1 : ((PollP.runActs C69.pollEx (PollP.init C69.pollEx) [(0, .waitBegin false), (0, .waitLock), (0, .waitSwap), (0, .waitLoad)]).map fun r =>
      (match r.1.pc 1 with | .out => true | _ => false) &&
      ((runLog (fun s x => PollP.step C69.pollEx s x.1 x.2) r.1 [(1, .callBegin (.add 7 C34.exEv .oneshot)), (1, .callWrite true)] []).map fun q =>
        q.1.mtx.isSome && (match q.1.pc 1 with | .mLock _ _ => true | _ => false) &&
          q.2.all fun x => match x.2 with | .callEnd _ _ => false | _ => true) == some true) = some true := by decide +kernel
  obtain ⟨⟨s, tr⟩, h2, h3⟩ := Option.map_eq_some_iff.1 h1
  simp only [Bool.and_eq_true, beq_iff_eq] at h3
  obtain ⟨h4, h5⟩ := h3
  obtain ⟨⟨s', l⟩, h6, h7⟩ := Option.map_eq_some_iff.1 h5
  simp only [Bool.and_eq_true] at h7
  obtain ⟨⟨hm, hp⟩, hl⟩ := h7
  refine ⟨s, tr, ?_, ?_, ?_⟩
  · have := PollP.reach_run (P := PollP.Any) .init _ s tr (fun _ _ => trivial) h2
    simpa using this
  · revert h4; cases s.pc 1 <;> simp
  · intro k hw
    rcases hw.2 _ _ _ h6 with ⟨x, hx, r, hr⟩ | ⟨_, ⟨u, a⟩, hu, _, ha⟩
    · have := List.all_eq_true.1 hl x hx
      rw [hr] at this; cases this
    · have hu : u = 1 := by simpa using hu
      subst hu
      dsimp only at ha
      cases hpc : s'.pc 1 with
      | mLock op sent =>
        unfold PollP.step at ha
        rw [if_pos (by decide)] at ha
        simp only [hpc] at ha
        cases a <;> first | (cases ha; done) | (simp only at ha; rw [if_neg (by intro h; rw [h] at hm; cases hm)] at ha; cases ha)
      | _ => rw [hpc] at hp; cases hp

end Others

end Polling.C70
