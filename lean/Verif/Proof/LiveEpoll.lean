import Verif.Proof.LiveSeq
import Verif.Proof.EpollRun
import Verif.Props.C02
import Verif.Props.C03Epoll
import Verif.Props.PortCalls

/-! Traces of the epoll and event port machines are orderly. -/

namespace Polling.EpollM
open Epoll Spec Live

/-- `epoll_wait` has returned events, `wait` has not returned. -/
def after : Phase → Bool
  | .clearing _ _ _ | .cleared _ _ _ | .rearmed _ _ _ => true
  | _ => false

theorem waitFail_open {s dl cap e s' o} {tr : List (Spec.Obs EventExtra)} (h : after s.phase = openD tr) (h0 : after s.phase = false)
    (heq : waitFail s dl cap e = (s', o)) : after s'.phase = openD (o :: tr) := by
  unfold waitFail at heq
  split at heq <;> cases heq
  · exact (h0.symm.trans h :)
  · rfl

theorem step_open {c : Cfg} {s : S} {tr : List (Spec.Obs EventExtra)} {a : Act} {s' : S} {o : Spec.Obs EventExtra}
    (hk : KInv c s.k tr) (hw : RearmWorks a) (h : after s.phase = openD tr) (hs : step c s a = some (s', o)) :
    after s'.phase = openD (o :: tr) ∧ ((o = .waitBegin ∨ ∃ evs, o = .deliver evs) → openD tr = false) := by
  cases a with
  | rearm fault =>
    cases fault with
    | some e => exact hw.elim
    | none =>
      simp only [step] at hs
      split at hs
      · next dl cap evs hph =>
        rw [hph] at h
        have hm := modify_ok_of_some (c := c) (k := s.k) (fd := c.notifFd) (ev := Event.onlyReadable NOTIFY_KEY) (mode := .oneshot) (notif_some hk.r)
        split at hs
        · cases hs; exact ⟨h, by rintro (h | ⟨_, h⟩) <;> cases h⟩
        · next heq => rw [heq] at hm; cases hm
      · cases hs
  | epollReturn =>
    obtain ⟨evs, rfl⟩ : ∃ evs, o = .deliver evs := by
      simp only [step] at hs
      repeat' split at hs
      all_goals first | (cases hs; done) | (cases hs; exact ⟨_, rfl⟩)
    obtain ⟨_, dl, cap, to, t0, hph, _, rfl, rfl⟩ := deliver_inv hs
    rw [hph] at h
    exact ⟨rfl, fun _ => h.symm⟩
  | waitBegin timeout cap =>
    simp only [step] at hs
    split at hs
    · next hph =>
      rw [hph] at h
      split at hs
      · cases hs
      · cases hs; exact ⟨h, fun _ => h.symm⟩
    · cases hs
  | clearRead =>
    simp only [step] at hs
    split at hs
    · next hph =>
      split at hs <;> cases hs
      · exact ⟨h, by rintro (h | ⟨_, h⟩) <;> cases h⟩
      · rw [hph] at h; exact ⟨h, by rintro (h | ⟨_, h⟩) <;> cases h⟩
    · cases hs
  | finish =>
    simp only [step] at hs
    split at hs
    · cases hs; exact ⟨rfl, by rintro (h | ⟨_, h⟩) <;> cases h⟩
    · cases hs
  | compute =>
    simp only [step] at hs
    split at hs
    · next hph => cases hs; rw [hph] at h; exact ⟨h, by rintro (h | ⟨_, h⟩) <;> cases h⟩
    · cases hs
  | settime fault =>
    simp only [step] at hs
    split at hs
    · next hph =>
      have h0 : after s.phase = false := by rw [hph]; rfl
      have h1 := h0.symm.trans h
      repeat' split at hs
      · have := Option.some.inj hs
        refine ⟨waitFail_open h h0 this, fun _ => h1.symm⟩
      · cases hs; exact ⟨h1, fun _ => h1.symm⟩
      · cases hs; exact ⟨h1, fun _ => h1.symm⟩
    · cases hs
  | armTimer fault =>
    simp only [step] at hs
    split at hs
    · next hph =>
      have h0 : after s.phase = false := by rw [hph]; rfl
      have h1 := h0.symm.trans h
      split at hs
      · split at hs
        · cases hs; exact ⟨h1, fun _ => h1.symm⟩
        · have := Option.some.inj hs
          refine ⟨waitFail_open ?_ ?_ this, fun _ => h1.symm⟩
          · exact h
          · exact h0
      · cases hs; exact ⟨h1, fun _ => h1.symm⟩
    · cases hs
  | epollFail e =>
    simp only [step] at hs
    split at hs
    · next hph =>
      have h0 : after s.phase = false := by rw [hph]; rfl
      exact ⟨waitFail_open h h0 (Option.some.inj hs), fun _ => h.symm.trans h0⟩
    · cases hs
  | _ =>
    simp only [step] at hs
    repeat' split at hs
    all_goals first | (cases hs; done) | (cases hs; exact ⟨h, by rintro (h | ⟨_, h⟩) <;> cases h⟩)

theorem reach_open {c : Cfg} (hok : c.Ok) {s tr} (h : ReachP c RearmWorks s tr) : after s.phase = openD tr := by
  induction h with
  | init user => rfl
  | step hr hw hs ih => exact (step_open (reach_kinv hok hr.reach) hw ih hs).1

theorem reachP_split {c : Cfg} {P s tr} (h : ReachP c P s tr) : ∀ later o earlier, tr = later ++ o :: earlier →
    ∃ s0 a s1, ReachP c P s0 earlier ∧ P a ∧ step c s0 a = some (s1, o) := by
  induction h with
  | init => intro later o earlier he; simp at he
  | @step s tr a s' o' hr hp hs ih =>
    intro later o earlier he
    cases later with
    | nil =>
      simp only [List.nil_append, List.cons.injEq] at he
      obtain ⟨rfl, rfl⟩ := he
      exact ⟨s, a, s', hr, hp, hs⟩
    | cons x later =>
      simp only [List.cons_append, List.cons.injEq] at he
      exact ih later o earlier he.2

theorem reach_orderly {c : Cfg} (hok : c.Ok) {s tr} (h : ReachP c RearmWorks s tr) : Orderly tr := by
  refine ⟨C03.epoll_right_key c hok s tr h.reach, ?_, ?_⟩
  · intro later n evs earlier he
    obtain ⟨s0, a, s1, h0, hp, hs⟩ := reachP_split h _ _ _ he
    obtain ⟨ds, h1, h2, _⟩ := C02.epoll_shows_exactly_the_delivered c hok s1 earlier n evs (.step h0.reach hs)
    exact ⟨ds, h1, h2⟩
  · intro later o earlier he ho
    obtain ⟨s0, a, s1, h0, hp, hs⟩ := reachP_split h _ _ _ he
    exact (step_open (reach_kinv hok h0.reach) hp (reach_open hok h0) hs).2 ho

end Polling.EpollM

namespace Polling.PortM
open Port Spec Live

/-- `port_getn` has returned events, `wait` has not returned. -/
def after : Phase → Bool
  | .taken _ => true
  | _ => false

theorem step_open {n : Nat} {s : S} {tr : List (Spec.Obs EventExtra)} {a : Act} {s' : S} {o : Spec.Obs EventExtra}
    (h : after s.phase = openD tr) (hs : step n s a = some (s', o)) :
    after s'.phase = openD (o :: tr) ∧ ((o = .waitBegin ∨ ∃ evs, o = .deliver evs) → openD tr = false) := by
  cases a with
  | waitBegin timeout cap =>
    simp only [step] at hs
    split at hs
    · next hph =>
      rw [hph] at h
      split at hs
      · cases hs
      · cases hs; exact ⟨h, fun _ => h.symm⟩
    · cases hs
  | compute =>
    simp only [step] at hs
    split at hs
    · next hph => cases hs; rw [hph] at h; exact ⟨h, by rintro (h | ⟨_, h⟩) <;> cases h⟩
    · cases hs
  | getn =>
    simp only [step] at hs
    split at hs
    · next hph =>
      rw [hph] at h
      repeat' split at hs
      · cases hs; exact ⟨rfl, fun _ => h.symm⟩
      · cases hs; exact ⟨rfl, fun _ => h.symm⟩
      · cases hs
    · cases hs
  | getnFail e =>
    simp only [step] at hs
    split at hs
    · next hph =>
      rw [hph] at h
      split at hs
      · cases hs; exact ⟨h, by rintro (h | ⟨_, h⟩) <;> cases h⟩
      · cases hs; exact ⟨rfl, by rintro (h | ⟨_, h⟩) <;> cases h⟩
    · cases hs
  | finish =>
    simp only [step] at hs
    split at hs
    · cases hs; exact ⟨rfl, by rintro (h | ⟨_, h⟩) <;> cases h⟩
    · cases hs
  | _ =>
    simp only [step] at hs
    repeat' split at hs
    all_goals first | (cases hs; done) | (cases hs; exact ⟨h, by rintro (h | ⟨_, h⟩) <;> cases h⟩)

theorem reach_open {n : Nat} {P s tr} (h : Reach n P s tr) : after s.phase = openD tr := by
  induction h with
  | init user => rfl
  | step hr hw hs ih => exact (step_open ih hs).1

theorem reach_orderly {n : Nat} {P s tr} (h : Reach n P s tr) : Orderly tr := by
  refine ⟨C03.port_right_key n P s tr h, ?_, ?_⟩
  · intro later k evs earlier he
    obtain ⟨s0, a, s1, h0, hp, hs⟩ := reach_split h _ _ _ he
    obtain ⟨ds, h1, h2, _⟩ := C03.port_shows_exactly_the_taken n P s1 earlier k evs (.step h0 hp hs)
    exact ⟨ds, h1, h2⟩
  · intro later o earlier he ho
    obtain ⟨s0, a, s1, h0, hp, hs⟩ := reach_split h _ _ _ he
    exact (step_open (reach_open h0) hs).2 ho

end Polling.PortM
