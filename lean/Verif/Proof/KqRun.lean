import Verif.Proof.KqNotify
import Verif.Proof.KqDeliver
import Verif.Proof.KqCalls

/-! Runs of the kqueue machine without failures. -/

namespace Polling.KqM
open Kqueue KqSpec

/-- No failure of an OS call. -/
def noFault : Act → Bool
  | .change fault => fault == none
  | .kfail _ => false
  | .write fail => !fail
  | _ => true

theorem works_of {s : S} {t : Tid} {a : Act} (h : noFault a = true) : Works s t a := by
  unfold Works
  split <;> first | trivial | (simp [noFault] at h; done) | (simpa [noFault] using h)

theorem reach_runW {c s tr} (h : Reach c Works s tr) (acts : List (Tid × Act)) (ha : ∀ x ∈ acts, noFault x.2 = true) : ∀ s' obs,
    runActs c s acts = some (s', obs) → Reach c Works s' (obs ++ tr) := by
  induction acts generalizing s tr with
  | nil => intro s' obs hr; cases hr; exact h
  | cons ta acts ih =>
    intro s' obs hr
    obtain ⟨t, a⟩ := ta
    simp only [runActs, Option.bind_eq_some_iff, Option.map_eq_some_iff] at hr
    obtain ⟨⟨s1, o⟩, h1, ⟨s2, obs2⟩, h2, h3⟩ := hr
    injection h3 with h3 h4
    subst h3 h4
    have := ih (.step h (works_of (ha (t, a) (by simp))) h1) (fun x hx => ha x (by simp [hx])) s2 obs2 h2
    simpa using this

theorem reach_runP {c P s tr} (hP : ∀ s t a, noFault a = true → P s t a) (h : Reach c P s tr) (acts : List (Tid × Act))
    (ha : ∀ x ∈ acts, noFault x.2 = true) : ∀ s' obs, runActs c s acts = some (s', obs) → Reach c P s' (obs ++ tr) := by
  induction acts generalizing s tr with
  | nil => intro s' obs hr; cases hr; exact h
  | cons ta acts ih =>
    intro s' obs hr
    obtain ⟨t, a⟩ := ta
    simp only [runActs, Option.bind_eq_some_iff, Option.map_eq_some_iff] at hr
    obtain ⟨⟨s1, o⟩, h1, ⟨s2, obs2⟩, h2, h3⟩ := hr
    injection h3 with h3 h4
    subst h3 h4
    have := ih (.step h (hP _ _ _ (ha (t, a) (by simp))) h1) (fun x hx => ha x (by simp [hx])) s2 obs2 h2
    simpa using this

theorem honest_of (s : S) (t : Tid) (a : Act) (h : noFault a = true) : Honest s t a := by
  unfold Honest
  split
  · next fault _ =>
    have : fault = none := by simpa [noFault] using h
    subst this
    exact ⟨by simp, by simp⟩
  · trivial

theorem run_append {c s s1 s2 as bs o1 o2} (h1 : runActs c s as = some (s1, o1)) (h2 : runActs c s1 bs = some (s2, o2)) :
    runActs c s (as ++ bs) = some (s2, o2 ++ o1) := by
  induction as generalizing s o1 with
  | nil => cases h1; simpa using h2
  | cons ta as ih =>
    obtain ⟨t, a⟩ := ta
    simp only [runActs, Option.bind_eq_some_iff, Option.map_eq_some_iff, List.cons_append] at h1 ⊢
    obtain ⟨⟨s3, o⟩, h3, ⟨s4, o4⟩, h4, h5⟩ := h1
    injection h5 with h5 h6
    subst h5 h6
    exact ⟨(s3, o), h3, (s2, o2 ++ o4), ih h4, by simp⟩

theorem run_nil (c : Cfg) (s : S) : runActs c s [] = some (s, []) := rfl

theorem run_cons {c s s1 s2 t a as o os} (h1 : step c s t a = some (s1, o)) (h2 : runActs c s1 as = some (s2, os)) :
    runActs c s ((t, a) :: as) = some (s2, os ++ [o]) := by
  simp only [runActs, h1, Option.bind_some, h2, Option.map_some]

/-- `kevent` in a `wait` that is the only thing to happen: a signal wakes it. -/
theorem wakes {c s tr} (hok : c.Ok) (h : Reach c Works s tr) {t timed cap} (hpc : s.pc t = .wKev timed cap) (hs : signal c s.k) :
    ∃ f, c.internal f = true ∧ f ∈ s.k.queue ∧ hot c (ready c s.k) s.k.knotes f = true := by
  cases hu : c.user with
  | true =>
    obtain ⟨n, hn, -⟩ := reach_userKnote hu h
    unfold signal at hs
    rw [if_pos hu] at hs
    exact ⟨.user 0, userInternal hu, hs, by simp [hot, hn, ready, hu]⟩
  | false =>
    unfold signal at hs
    rw [if_neg (by simp [hu])] at hs
    have hrd : ready c s.k (.read c.notifFd) = some false := by simp [ready, hu, hs]
    rcases reach_armed hok hu h with ha | ⟨u, ha⟩
    · exact ⟨.read c.notifFd, readInternal hu,
        (reach_ki h).live _ _ ha rfl rfl (by rw [hrd]; rfl), by simp [hot, ha, hrd]⟩
    · exfalso
      have hl := reach_lib h
      have h1 : inWait (s.pc u) = true := by
        revert ha
        cases s.pc u <;> simp [preArm, inWait]
        next w todo done => cases w <;> simp
      have h2 : s.lib = some t := (hl t).2 (by rw [hpc]; rfl)
      have h3 := (hl u).2 h1
      rw [h2] at h3
      injection h3 with h3
      subst h3
      rw [hpc] at ha; cases ha

/-- Steps of one thread. -/
def by_ (t : Tid) (acts : List Act) : List (Tid × Act) := acts.map fun a => (t, a)

/-- The end of a `wait` on a pair of sockets. -/
theorem pair_ends {c s tr} (hok : c.Ok) (hu : c.user = false) (h : Reach c Works s tr) {t timed cap evs}
    (hpc : s.pc t = .wClear timed cap evs) : ∃ m s' obs,
    runActs c s (by_ t (List.replicate m (.read false) ++ [.src, .change none, .change none, .eval, .finish])) =
      some (s', .waitOk t (visible evs).length (visible evs) :: obs) ∧
    s'.pc = upd s.pc t .out ∧ s'.notified = false ∧ s'.lib = none ∧ s'.k.chan = 0 ∧ s'.k.cond = s.k.cond ∧
    s'.k.queue = s.k.queue ∧ (∀ f, c.internal f = false → s'.k.knotes f = s.k.knotes f) ∧
    ∀ o ∈ obs, ∀ tr f, c.internal f = false → watch c.keepMode (o :: tr) f = watch c.keepMode tr f := by
  have htn : t < c.threads := by
    by_cases ht : t < c.threads
    · exact ht
    · rw [reach_range h t (by omega)] at hpc; cases hpc
  have hge : ¬ t ≥ c.threads := by omega
  -- the reads
  have reads : ∀ n (s : S), s.k.chan ≤ n → s.pc t = .wClear timed cap evs →
      ∃ m s1 obs, runActs c s ((List.replicate m (Act.read false)).map fun a => (t, a)) = some (s1, obs) ∧
        s1 = { s with k := { s.k with chan := 0 }, pc := upd s.pc t (.wHas timed cap evs) } ∧ ∀ o ∈ obs, o = .tau := by
    intro n
    induction n using Nat.strongRecOn with
    | ind n ih =>
      intro s hc hpc
      by_cases hp : s.k.chan > 0
      · have hs : step c s t (.read false) = some ({ s with k := { s.k with chan := s.k.chan - 64 } }, .tau) := by
          unfold step; rw [if_neg hge]; simp only [hpc]; rw [if_pos ⟨hp, trivial⟩]
        obtain ⟨m, s1, obs, hr, he, hob⟩ := ih (n - 1) (by omega) { s with k := { s.k with chan := s.k.chan - 64 } }
          (by simp only; omega) hpc
        refine ⟨m + 1, s1, obs ++ [.tau], ?_, he, ?_⟩
        · rw [List.replicate_succ, List.map_cons]; exact run_cons hs hr
        · intro o ho; rcases List.mem_append.1 ho with h | h
          · exact hob o h
          · simpa using h
      · have h0 : s.k.chan = 0 := by omega
        have hs : step c s t (.read false) = some ({ s with pc := upd s.pc t (.wHas timed cap evs) }, .tau) := by
          unfold step; rw [if_neg hge]; simp only [hpc]; rw [if_neg (fun hh => hp hh.1)]
        have e : s.k = { s.k with chan := 0 } := by rw [← h0]
        exact ⟨1, { s with pc := upd s.pc t (.wHas timed cap evs) }, [.tau], by simp only [List.replicate_one, List.map_cons, List.map_nil]; exact run_cons hs (s2 := { s with pc := upd s.pc t (.wHas timed cap evs) }) (os := []) rfl,
          by rw [← e], by simp⟩
  obtain ⟨m, s1, obs, hr, he, hob⟩ := reads _ s (Nat.le_refl _) hpc
  have h1 := reach_runW h _ (by
    intro x hx
    rw [List.mem_map] at hx
    obtain ⟨a, ha, rfl⟩ := hx
    rw [List.eq_of_mem_replicate ha]; rfl) _ _ hr
  have hp1 : s1.pc t = .wHas timed cap evs := by rw [he]; exact upd_self _ _ _
  have hk1 := reach_pairKnote hok hu h1
  have hc1 : s1.k.chan = 0 := by rw [he]
  have hsrc := (reach_srcs h1).own hu
  -- re-registration
  let r : KEvent := { filter := .read c.notifFd, flags := changeFlags true .oneshot, udata := keyToU64 NOTIFY_KEY }
  let w : KEvent := { filter := .write c.notifFd, flags := changeFlags false .oneshot, udata := keyToU64 NOTIFY_KEY }
  have hs2 : step c s1 t .src = some ({ s1 with pc := upd s1.pc t (.submit (.rearm timed cap evs) [r, w] []) }, .tau) := by
    unfold step; rw [if_neg hge]; simp only [hp1, hsrc]; rfl
  let k3 := setKnote s1.k (.read c.notifFd) (some pairKnote)
  have hreg1 : register c none s1.k r = (0, k3) := by
    have hadd : added c (s1.k.knotes (.read c.notifFd)) r = pairKnote := added_pair hok hk1.1 rfl rfl rfl
    have : fires c k3 r = false := by
      show (ready c k3 (.read c.notifFd)).isSome = false
      simp [ready, hu, k3, setKnote, hc1]
    show (0, if fires c (setKnote s1.k (.read c.notifFd) (some (added c (s1.k.knotes (.read c.notifFd)) r))) r = true then _ else _) = _
    rw [hadd]
    simp only [k3] at this
    rw [this]
    simp [k3, r]
  have hs3 : step c { s1 with pc := upd s1.pc t (.submit (.rearm timed cap evs) [r, w] []) } t (.change none) =
      some ({ s1 with k := k3, pc := upd s1.pc t (.submit (.rearm timed cap evs) [w] [receipt r 0]) }, changeObs t r 0) := by
    unfold step; rw [if_neg hge]; simp only [upd_self, hreg1]
    simp only [reduceCtorEq, if_false, List.nil_append, Option.some.injEq, Prod.mk.injEq, and_true, S.mk.injEq, true_and]
    funext u; unfold upd; split <;> rfl
  have hreg2 : register c none k3 w = (ENOENT, k3) := by
    have hw : k3.knotes (.write c.notifFd) = none := by simp [k3, setKnote, hk1.2]
    simp only [register, w, changeFlags, hw, Bool.false_eq_true, if_false, if_true]
  have hs4 : step c { s1 with k := k3, pc := upd s1.pc t (.submit (.rearm timed cap evs) [w] [receipt r 0]) } t (.change none) =
      some ({ s1 with k := k3, pc := upd s1.pc t (.submit (.rearm timed cap evs) [] [receipt r 0, receipt w ENOENT]) },
        changeObs t w ENOENT) := by
    unfold step; rw [if_neg hge]; simp only [upd_self, hreg2]
    simp only [reduceCtorEq, if_false, List.cons_append, List.nil_append, Option.some.injEq, Prod.mk.injEq, and_true, S.mk.injEq, true_and]
    funext u; unfold upd; split <;> rfl
  have hs5 : step c { s1 with k := k3, pc := upd s1.pc t (.submit (.rearm timed cap evs) [] [receipt r 0, receipt w ENOENT]) } t .eval =
      some ({ s1 with k := k3, pc := upd s1.pc t (.wFin evs) }, .tau) := by
    unfold step; rw [if_neg hge]; simp only [upd_self]
    have : submitResult [receipt r 0, receipt w ENOENT] = .ok := by simp [submitResult, receipt, ENOENT]
    rw [this]
    simp only [submitted, Option.some.injEq, Prod.mk.injEq, and_true, S.mk.injEq, true_and]
    funext u; unfold upd; split <;> rfl
  have hs6 : step c { s1 with k := k3, pc := upd s1.pc t (.wFin evs) } t .finish =
      some ({ s1 with k := k3, notified := false, lib := none, pc := upd s1.pc t .out },
        .waitOk t (visible evs).length (visible evs)) := by
    unfold step; rw [if_neg hge]; simp only [upd_self]
    simp only [Option.some.injEq, Prod.mk.injEq, and_true, S.mk.injEq, true_and]
    funext u; unfold upd; split <;> rfl
  have hrest := run_cons hs2 (run_cons hs3 (run_cons hs4 (run_cons hs5 (run_cons hs6 (rfl : runActs c _ [] = some (_, []))))))
  have hall := run_append hr hrest
  refine ⟨m, { s1 with k := k3, notified := false, lib := none, pc := upd s1.pc t .out },
    [.tau, changeObs t w ENOENT, changeObs t r 0, .tau] ++ obs, by unfold by_; rw [List.map_append]; exact hall, ?_, rfl, rfl, hc1, ?_, ?_, ?_, ?_⟩
  · simp only; rw [he]; funext u; simp only [upd]; split <;> rfl
  · simp only [k3, setKnote]; rw [he]
  · simp only [k3, setKnote]; rw [he]
  · intro f hf
    have : f ≠ .read c.notifFd := by rintro rfl; rw [readInternal hu] at hf; cases hf
    simp only [k3, setKnote, this, if_false]; rw [he]
  · intro o ho tr f hf
    have hne : f ≠ .read c.notifFd := by rintro rfl; rw [readInternal hu] at hf; cases hf
    simp only [List.nil_append, List.cons_append] at ho
    rcases List.mem_cons.1 ho with rfl | ho
    · rfl
    rcases List.mem_cons.1 ho with rfl | ho
    · simp [changeObs, ENOENT, watch]
    rcases List.mem_cons.1 ho with rfl | ho
    · simp [changeObs, r, changeFlags, modeToFlags, watch, hne]
    rcases List.mem_cons.1 ho with rfl | ho
    · rfl
    · rw [hob o ho]; rfl

end Polling.KqM
