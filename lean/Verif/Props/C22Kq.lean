import Verif.Model.KqSubmit
import Verif.Proof.KqCalls
import Verif.Proof.KqRun
import Verif.Props.KqNotify

/-! C22 (kqueue): registration calls and notifications neither swallow events nor block. -/

namespace Polling.C22
open KqM Kqueue KqSpec

theorem apply_receipts (c : Cfg) (chg : List KEvent) : ∀ (faults : List (Option Nat)) (k : Kern) (out : List KEvent),
    (∀ ev ∈ chg, ev.flags.receipt = true) →
    keventApply c faults k chg chg.length out = .inr ((oneByOne c faults k chg out).2, 0, (oneByOne c faults k chg out).1) := by
  induction chg with
  | nil => intro faults k out _; rfl
  | cons ev chg ih =>
    intro faults k out h
    simp only [keventApply, oneByOne, List.length_cons]
    rw [if_pos (.inr (h ev (by simp)))]
    exact ih _ _ _ fun e he => h e (by simp [he])

/-- `submit_changes` with changes that ask for receipts never waits, never takes an event from the queue, and is what the
model does one change at a time; whatever the OS answers to the changes. -/
theorem kqueue_submit_is_one_by_one (c : Cfg) (stop : Bool) (faults : List (Option Nat)) (k : Kern) (chg : List KEvent)
    (h : ∀ ev ∈ chg, ev.flags.receipt = true) :
    submitChanges c stop faults k chg = some (submitResult (oneByOne c faults k chg []).1, (oneByOne c faults k chg []).2) := by
  unfold submitChanges kevent
  rw [apply_receipts c chg faults k [] h]
  simp

/-- All changes the crate submits ask for receipts. -/
theorem kqueue_receipts_requested (c : Cfg) (w : Work) : ∀ ev ∈ changesOf c w, ev.flags.receipt = true := by
  have chg : ∀ b m, (changeFlags b m).receipt = true := by intro b m; cases b <;> rfl
  intro ev hev
  cases w with
  | call call =>
    cases call <;> simp only [changesOf, changes, fdChanges, List.mem_cons, List.not_mem_nil, or_false] at hev
    all_goals first | (subst hev; exact chg _ _) | (rcases hev with rfl | rfl <;> exact chg _ _)
  | notify => simp only [changesOf, List.mem_singleton] at hev; subst hev; rfl
  | rearm => simp only [changesOf, fdChanges, List.mem_cons, List.not_mem_nil, or_false] at hev; rcases hev with rfl | rfl <;> exact chg _ _

/-- Without the receipts it would wait, or swallow an event: the first when nothing is ready, the second when something is. -/
example :
    (submitChanges C04.userCfg false [] ⟨fun _ => none, [], fun _ => none, 0⟩ [{ filter := .read 7, flags := { add := true }, udata := 5 }]).isNone = true ∧
    (submitChanges C04.userCfg false [] ⟨fun _ => none, [], fun _ => some false, 0⟩ [{ filter := .read 7, flags := { add := true, clear := true }, udata := 5 }]).map
      (fun r => r.2.queue) = some [] ∧
    (submitChanges C04.userCfg false [] ⟨fun _ => none, [], fun _ => some false, 0⟩ [{ filter := .read 7, flags := { add := true, clear := true, receipt := true }, udata := 5 }]).map
      (fun r => r.2.queue) = some [.read 7] := by decide +kernel

/-- In every run: no step of a registration call or of `notify` (nor any other except the `kevent` of a `wait`) takes an
active filter from the queue, unless it is one that it stops watching. -/
theorem kqueue_calls_keep_events (c : Cfg) (s s' : S) (t : Tid) (a : Act) (o : KObs) (hs : step c s t a = some (s', o)) (ha : a ≠ .kevent)
    (f : Filter) (hf : f ∈ s.k.queue) : f ∈ s'.k.queue ∨ o = .disarmed t f := by
  have hn := (step_next hs).2
  cases hn with
  | kevent => exact absurd rfl ha
  | @change fault w ev todo done errno k hp h0 hr =>
    have hreg := register_reg hr
    by_cases he : f = ev.filter
    · subst he
      cases hreg with
      | fault => exact .inl hf
      | add => left; show _ ∈ (activate _ _).queue; rw [activate_mem]; exact .inl hf
      | addIdle => exact .inl hf
      | missing => exact .inl hf
      | delete _ had => right; simp [changeObs, had]
      | nothing => exact .inl hf
    · exact .inl ((reg_other hreg he).2.2 hf)
  | write => left; show _ ∈ (activate _ _).queue; rw [activate_mem]; exact .inl hf
  | raise => left; show _ ∈ (activate _ _).queue; rw [activate_mem]; exact .inl hf
  | _ => exact .inl hf

/-- How many steps a registration call, or `notify`, still has to do. -/
def stepsLeft : Pc → Nat
  | .insert call => (changes call).length + 5
  | .has call => (changes call).length + 4
  | .submit _ todo _ => todo.length + 3
  | .remove _ => 2
  | .ending _ => 1
  | .nWrite => 1
  | _ => 0

/-- In a registration call or in `notify`. -/
def inCall : Pc → Bool
  | .insert _ | .has _ | .submit (.call _) _ _ | .submit .notify _ _ | .remove _ | .ending _ | .nWrite => true
  | _ => false

/-- A registration call and `notify` never wait for anything: in every reachable state, whatever the other threads are doing, the next
step of the call is possible; and each of its steps brings it closer to its end. -/
theorem kqueue_calls_never_block (c : Cfg) (P) (s : S) (tr : List KObs) (h : Reach c P s tr) (t : Tid) (hin : inCall (s.pc t) = true) :
    (∃ a s' o, noFault a = true ∧ step c s t a = some (s', o) ∧ stepsLeft (s'.pc t) < stepsLeft (s.pc t)) ∧
    (∀ a s' o, step c s t a = some (s', o) → (∀ f v, a ≠ .cond f v) → stepsLeft (s'.pc t) < stepsLeft (s.pc t)) ∧
    (∀ u a s' o, u ≠ t → step c s u a = some (s', o) → s'.pc t = s.pc t) := by
  have own : ∀ a s' o, step c s t a = some (s', o) → (∀ f v, a ≠ .cond f v) → stepsLeft (s'.pc t) < stepsLeft (s.pc t) := by
    intro a s' o hs hne
    have hn := (step_next hs).2
    cases hn with
    | reject hp => rw [hp] at hin; cases hin
    | panic0 hp => rw [hp] at hin; cases hin
    | begin hp => rw [hp] at hin; cases hin
    | dup hp => dsimp only; rw [upd_self, hp]; simp [stepsLeft]
    | inserted hp => dsimp only; rw [upd_self, hp]; simp [stepsLeft]
    | missing hp => dsimp only; rw [upd_self]; rcases hp with hp | hp <;> rw [hp] <;> simp [stepsLeft]
    | panic hp => dsimp only; rw [upd_self, hp]; simp [stepsLeft]
    | has hp => dsimp only; rw [upd_self, hp]; simp [stepsLeft]
    | removed hp => dsimp only; rw [upd_self, hp]; simp [stepsLeft]
    | ended hp => dsimp only; rw [upd_self, hp]; simp [stepsLeft]
    | wMissing hp => rw [hp] at hin; cases hin
    | wHas hp => rw [hp] at hin; cases hin
    | change hp => dsimp only; rw [upd_self, hp]; simp [stepsLeft]
    | finCall hf => obtain ⟨_, _, hp⟩ := hf.pc; dsimp only; rw [upd_self, hp]; simp [stepsLeft]
    | finDelete hf => obtain ⟨_, _, hp⟩ := hf.pc; dsimp only; rw [upd_self, hp]; simp [stepsLeft]
    | finNotify hf => obtain ⟨_, _, hp⟩ := hf.pc; dsimp only; rw [upd_self, hp]; simp [stepsLeft]
    | finRearm hf => obtain ⟨_, _, hp⟩ := hf.pc; rw [hp] at hin; cases hin
    | rearmRetry hf => obtain ⟨_, _, hp⟩ := hf.pc; rw [hp] at hin; cases hin
    | rearmErr hf => obtain ⟨_, _, hp⟩ := hf.pc; rw [hp] at hin; cases hin
    | writeFail hp => dsimp only; rw [upd_self, hp]; simp [stepsLeft]
    | write hp => dsimp only; rw [upd_self, hp]; simp [stepsLeft]
    | raise => exact absurd rfl (hne _ _)
    | fall => exact absurd rfl (hne _ _)
    | kevRetry hp => rw [hp] at hin; cases hin
    | kevErr hp => rw [hp] at hin; cases hin
    | casSeen hp => rw [hp] at hin; cases hin
    | casUser hp => rw [hp] at hin; cases hin
    | casPair hp => rw [hp] at hin; cases hin
    | waitBusy hp => rw [hp] at hin; cases hin
    | waitBegin hp => rw [hp] at hin; cases hin
    | kevent hp => rw [hp] at hin; cases hin
    | read hp => rw [hp] at hin; cases hin
    | readEnd hp => rw [hp] at hin; cases hin
    | finish hp => rw [hp] at hin; cases hin
  refine ⟨?_, own, ?_⟩
  · have ht : ¬ t ≥ c.threads := fun hge => by rw [reach_range h t hge] at hin; cases hin
    have ex : ∃ a, noFault a = true ∧ (∀ f v, a ≠ .cond f v) ∧ (step c s t a).isSome = true := by
      cases hp : s.pc t with
      | insert call =>
        refine ⟨.src, rfl, nofun, ?_⟩
        unfold step; rw [if_neg ht]; simp only [hp]; split <;> rfl
      | has call =>
        refine ⟨.src, rfl, nofun, ?_⟩
        unfold step; rw [if_neg ht]; simp only [hp]; split; rfl; split <;> rfl
      | remove call =>
        refine ⟨.src, rfl, nofun, ?_⟩
        unfold step; rw [if_neg ht]; simp only [hp]; split <;> rfl
      | ending call =>
        refine ⟨.eval, rfl, nofun, ?_⟩
        unfold step; rw [if_neg ht]; simp only [hp]; rfl
      | nWrite =>
        refine ⟨.write false, rfl, nofun, ?_⟩
        unfold step; rw [if_neg ht]; simp only [hp]; rfl
      | submit w todo done =>
        cases todo with
        | nil => refine ⟨.eval, rfl, nofun, ?_⟩; unfold step; rw [if_neg ht]; simp only [hp]; rfl
        | cons ev todo => refine ⟨.change none, rfl, nofun, ?_⟩; unfold step; rw [if_neg ht]; simp only [hp]; rfl
      | out => rw [hp] at hin; cases hin
      | wKev => rw [hp] at hin; cases hin
      | wClear => rw [hp] at hin; cases hin
      | wHas => rw [hp] at hin; cases hin
      | wFin => rw [hp] at hin; cases hin
    obtain ⟨a, h1, h2, h3⟩ := ex
    obtain ⟨⟨s', o⟩, h4⟩ := Option.isSome_iff_exists.1 h3
    exact ⟨a, s', o, h1, h4, own a s' o h4 h2⟩
  · intro u a s' o hut hs
    have hn := (step_next hs).2
    cases hn <;> first | rfl | (dsimp only; rw [upd_other _ (fun h => hut h.symm)])

/-- An event is pending for descriptor 8 while a thread adds and another deletes descriptor 7: it stays. -/
example : (runActs C04.userCfg (init C04.userCfg fun f => if f = .read 8 then some false else none)
    ((by_ 0 [.call (.add 8 (Event.onlyReadable 1) .level), .src, .src, .change none, .change none, .eval,
      .call (.add 7 (Event.onlyReadable 5) .level), .src, .src, .change none]) ++ by_ 1 [.call (.delete 7), .src, .change none] ++
      by_ 0 [.change none, .eval] ++ by_ 1 [.change none, .eval, .src, .eval])).map (fun r => (r.2.head?, r.1.k.queue)) =
    some (some (.ret 1 (.delete 7) (.res .ok)), [.read 8]) := by decide +kernel

end Polling.C22
