import Verif.Proof.IocpFProg
import Verif.Proof.IocpSync

/- Progress of the fine-grained machine: threads are blocked by the owner of a mutex only. -/

namespace Polling.IocpF
open Iocp IocpSpec IocpM

/-- Only `modify` sets events. -/
theorem reach_setCall {n P s tr} (h : Reach n P s tr) : ∀ t call p, s.pc t = .set call p → ∃ k fd ev mode, call = .modify k fd ev mode := by
  induction h with
  | init => nofun
  | @step s tr a s' o hr hp hs ih =>
    intro t call p hpc
    have hup : ∀ (u : Tid) (x : Pc), s'.pc = upd s.pc u x → (∀ call p, x = .set call p → ∃ k fd ev mode, call = .modify k fd ev mode) →
        ∃ k fd ev mode, call = .modify k fd ev mode := by
      intro u x e hx
      rw [e] at hpc
      by_cases ht : t = u
      · subst ht
        rw [upd_self] at hpc
        exact hx call p hpc
      · rw [upd_other _ _ ht] at hpc
        exact ih t call p hpc
    have same : s'.pc = s.pc → ∃ k fd ev mode, call = .modify k fd ev mode := by intro e; rw [e] at hpc; exact ih t call p hpc
    cases a with
    | call u c =>
      simp only [step] at hs
      repeat' split at hs
      all_goals cases hs
      all_goals first | exact same rfl | exact hup u _ rfl (fun _ _ e => by cases e <;> exact ⟨_, _, _, _, rfl⟩)
    | go u fault =>
      simp only [step, goCall] at hs
      split at hs
      · cases hs
      repeat' split at hs
      all_goals first
        | (cases hs; done)
        | (cases hs; exact hup u _ rfl (fun _ _ e => by cases e <;> exact ⟨_, _, _, _, rfl⟩))
        | (cases hs; exact hup u _ rfl (fun _ _ e => by cases e; exact ⟨_, _, _, _, rfl⟩))
        | (cases hs; exact hup u _ rfl (fun _ _ e => by split at e <;> cases e))
    | wait fault =>
      refine same ?_
      simp only [step, goWait, waitFail] at hs
      repeat' split at hs
      all_goals cases hs
      all_goals rfl
    | _ =>
      simp only [step] at hs
      repeat' split at hs
      all_goals first
        | (cases hs; done)
        | (cases hs; exact same rfl)
        | (cases hs; exact hup _ _ rfl (fun _ _ e => by cases e <;> exact ⟨_, _, _, _, rfl⟩))

/-- Whose step it is; `none`: the kernel, or the user. -/
def ownerOf (f : F) : FAct → Option Who
  | .plain (.go t _) | .plain (.notifyPost t _) => some (.thread t)
  | .plain (.wait _) | .plain .get | .plain (.decide _) | .take => some .waiter
  | .plain (.callbackPost p _) => some (.callback p)
  | .lock who _ => some who
  | .access p _ | .unlock p => (f.sec p).map (·.1)
  | _ => none

/-- `who` can go on, or it waits for a mutex whose owner can go on. -/
def Proceeds (n : Nat) (f : F) (who : Who) : Prop :=
  ∃ a, (fstep n f a).isSome = true ∧
    (ownerOf f a = some who ∨ ∃ k p other pos, site f.m who = some (k, p) ∧ f.sec p = some (other, pos) ∧ ownerOf f a = some other)

theorem owner_act {n f tr p who pos} (h : FReach n FAny f tr) (hs : f.sec p = some (who, pos)) :
    ∃ a, (fstep n f a).isSome = true ∧ ownerOf f a = some who := by
  rcases owner_steps h hs with ⟨out, _, h1⟩ | h1
  · exact ⟨_, h1, by show (f.sec p).map _ = _; rw [hs]; rfl⟩
  · exact ⟨_, h1 none, by show (f.sec p).map _ = _; rw [hs]; rfl⟩

theorem proceeds_lock {n f tr who k p} (h : FReach n FAny f tr) (hsite : site f.m who = some (k, p))
    (he : (entry k (f.m.c.pk p)).isSome = true) (htk : k = .feed → f.taken = some p) : Proceeds n f who := by
  cases hsec : f.sec p with
  | some wp =>
    obtain ⟨other, pos⟩ := wp
    obtain ⟨a, h1, h2⟩ := owner_act h hsec
    exact ⟨a, h1, .inr ⟨k, p, other, pos, hsite, hsec, h2⟩⟩
  | none =>
    refine ⟨.lock who p, ?_, .inl rfl⟩
    show (match site f.m who with | some (k, q) => _ | none => none : Option (F × Option IObs)).isSome = true
    rw [hsite]
    dsimp only
    rw [if_pos ⟨rfl, hsec, htk⟩, Option.isSome_map]
    exact he

theorem proceeds_plain {n f who a} (hp : plain f a = true) (hs : (step n f.m a).isSome = true) (ho : ownerOf f (.plain a) = some who) :
    Proceeds n f who := by
  refine ⟨.plain a, ?_, .inl ho⟩
  show (if plain f a = true then _ else none : Option (F × Option IObs)).isSome = true
  rw [if_pos hp, Option.isSome_map]
  exact hs

theorem go_isSome {m : S} {t} (hset : ∀ call p, m.pc t = .set call p → ∃ k fd ev mode, call = .modify k fd ev mode)
    (h1 : m.pc t ≠ .out) (h2 : m.pc t ≠ .notify) : (goCall m t none).isSome = true := by
  unfold goCall
  cases hpc : m.pc t with
  | out => exact absurd hpc h1
  | notify => exact absurd hpc h2
  | prepare call => rfl
  | table call =>
    dsimp only
    cases call with
    | add k fd ev mode => dsimp only; split <;> rfl
    | modify k fd ev mode => dsimp only; split <;> rfl
    | delete k fd => dsimp only; split <;> rfl
  | set call p => obtain ⟨k, fd, ev, mode, rfl⟩ := hset call p hpc; rfl
  | del call p => rfl
  | upd call u => dsimp only; split <;> rfl
  | ret call r => rfl

/-- A thread in a call is never blocked, except by the owner of a mutex, who is not blocked. -/
theorem thread_proceeds {n f tr t} (h : FReach n FAny f tr) (ht : t < n) (hpc : f.m.pc t ≠ .out) : Proceeds n f (.thread t) := by
  by_cases hn : f.m.pc t = .notify
  · refine proceeds_plain (a := .notifyPost t none) rfl ?_ rfl
    simp only [step, hn]; rfl
  cases hl : locks f.m (.thread t) with
  | false =>
    refine proceeds_plain (a := .go t none) (by show (!locks f.m (.thread t)) = true; rw [hl]; rfl) ?_ rfl
    simp only [step]
    rw [if_neg (by omega)]
    refine go_isSome ?_ hpc hn
    intro call p hs
    -- not in a section
    by_cases hm : ∃ k fd ev mode, call = .modify k fd ev mode
    · exact hm
    · have hr := (refine_any h).1
      refine reach_setCall hr t call p ?_
      show absPc t f.sec f.m.c.pk (f.m.pc t) = _
      rw [hs]
      refine absPc_free fun k q hk => ?_
      cases call with
      | modify k fd ev mode => exact absurd ⟨_, _, _, _, rfl⟩ hm
      | _ => cases hk
  | true =>
    unfold locks at hl
    cases hsite : site f.m (.thread t) with
    | none => rw [hsite] at hl; cases hl
    | some kp =>
      obtain ⟨k, p⟩ := kp
      rw [hsite] at hl
      exact proceeds_lock h hsite hl fun e => absurd e (thread_kind hsite).2

/-- `wait` is blocked in the system call only, if no completion is queued. -/
theorem waiter_proceeds {n f tr} (h : FReach n FAny f tr) (hph : f.m.phase ≠ .idle)
    (hport : ∀ w, f.m.phase = .port w → f.m.c.port ≠ [] ∨ w.timed = true) : Proceeds n f .waiter := by
  by_cases hun : untaken f = true
  · refine ⟨.take, ?_, .inl rfl⟩
    unfold untaken at hun
    simp only [fstep]
    split at hun
    · rename_i w p b hp
      rw [hp]
      rw [if_pos (Option.isNone_iff_eq_none.mp hun)]; rfl
    · cases hun
  have hun : untaken f = false := by cases hu : untaken f <;> first | rfl | exact absurd hu hun
  cases hl : locks f.m .waiter with
  | true =>
    unfold locks at hl
    cases hsite : site f.m .waiter with
    | none => rw [hsite] at hl; cases hl
    | some kp =>
      obtain ⟨k, p⟩ := kp
      rw [hsite] at hl
      refine proceeds_lock h hsite hl fun e => ?_
      rcases waiter_kind hsite with hk | ⟨_, w, b, hp⟩
      · rw [hk] at e; cases e
      · cases htk : f.taken with
        | none => unfold untaken at hun; rw [hp] at hun; dsimp only at hun; rw [htk] at hun; cases hun
        | some q =>
          obtain ⟨⟨w', b', hp'⟩, _⟩ := (refine_any h).2.tak q htk
          rw [hp] at hp'; cases hp'; rfl
  | false =>
    have hpl : plain f (.wait none) = true := by
      show (!locks f.m .waiter && !untaken f) = true
      rw [hl, hun]; rfl
    by_cases hw : (goWait f.m none).isSome = true
    · exact proceeds_plain hpl hw rfl
    · unfold goWait at hw
      cases hp : f.m.phase with
      | idle => exact absurd hp hph
      | port w =>
        refine proceeds_plain (a := .get) rfl ?_ rfl
        simp only [step, hp]
        rw [if_pos (hport w hp)]; rfl
      | stuck =>
        refine absurd ?_ (reach_not_stuck (refine_any h).1)
        show absPhase f.sec f.m.c.pk f.m.phase = _
        rw [hp]; rfl
      | feed w b =>
        cases b with
        | nil =>
          refine proceeds_plain (a := .decide true) rfl ?_ rfl
          simp only [step, hp]
          split <;> rfl
        | cons p b =>
          rw [hp] at hw
          dsimp only at hw
          split at hw <;> exact absurd rfl hw
      | drain w e b => rw [hp] at hw; cases b <;> exact absurd rfl hw
      | pop w => rw [hp] at hw; dsimp only at hw; split at hw <;> exact absurd rfl hw
      | upd w q => rw [hp] at hw; dsimp only at hw; split at hw <;> exact absurd rfl hw
      | feedUpd w b u ev => rw [hp] at hw; dsimp only at hw; split at hw <;> exact absurd rfl hw
      | _ => rw [hp] at hw; exact absurd rfl hw

/-- Callbacks are not blocked. -/
theorem callback_proceeds {n f tr p} (h : FReach n FAny f tr) (hw : ∃ w, f.m.c.pk p = .waitable w) (hp : p ∈ f.m.cb ∨ p ∈ f.m.cbPost) :
    Proceeds n f (.callback p) := by
  rcases hp with hp | hp
  · obtain ⟨w, hw⟩ := hw
    exact proceeds_lock h (k := .cb) (if_pos hp) (by rw [hw]; rfl) nofun
  · by_cases hl : leaving f p < f.m.cbPost.count p
    · refine proceeds_plain (a := .callbackPost p none) (decide_eq_true hl) ?_ rfl
      simp only [step]
      rw [if_pos hp]; rfl
    · have hc : 0 < f.m.cbPost.count p := List.count_pos_iff.mpr hp
      have : ∃ q pos, f.sec p = some (.callback q, pos) := by
        unfold leaving at hl
        split at hl
        · rename_i q hs; exact ⟨q, _, hs⟩
        · rename_i q _ hs; exact ⟨q, _, hs⟩
        · exact absurd hc hl
      obtain ⟨q, pos, hs⟩ := this
      have hq := ((refine_any h).2.sec p _ _ hs).2.1
      subst hq
      obtain ⟨a, h1, h2⟩ := owner_act h hs
      exact ⟨a, h1, .inl h2⟩

end Polling.IocpF
