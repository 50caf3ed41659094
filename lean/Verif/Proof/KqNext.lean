import Verif.Model.KqM

/-! The steps of the kqueue machine as a relation, and reachable states. -/

namespace Polling.KqM
open Kqueue KqSpec

/-- The first position of a call. -/
def first : Call → Pc
  | .add fd ev mode => .insert (.add fd ev mode)
  | .addFilter x key mode => .insert (.addFilter x key mode)
  | .modify fd ev mode => .has (.modify fd ev mode)
  | .modifyFilter x key mode => .has (.modifyFilter x key mode)
  | .delete fd => .has (.delete fd)
  | .deleteFilter x => .submit (.call (.deleteFilter x)) (changes (.deleteFilter x)) []

/-- The call removes its source at the end. -/
def isDelete : Call → Bool
  | .delete _ | .deleteFilter _ => true
  | _ => false

/-- The submission of `w` by `t` ends with `r`. -/
inductive Fin (s : S) (t : Tid) : Act → Work → Res → Prop where
  | eval {w done} : s.pc t = .submit w [] done → Fin s t .eval w (submitResult done)
  | fail {w todo done e} : s.pc t = .submit w todo done → Fin s t (.kfail e) w (.err e)

theorem Fin.pc {s t a w r} (h : Fin s t a w r) : ∃ todo done, s.pc t = .submit w todo done := by
  cases h with
  | eval hp => exact ⟨_, _, hp⟩
  | fail hp => exact ⟨_, _, hp⟩

theorem Fin.ok {s t a w r} (h : Fin s t a w r) (hr : r = .ok) :
    ∃ done, s.pc t = .submit w [] done ∧ submitResult done = .ok ∧ a = .eval := by
  cases h with
  | eval hp => exact ⟨_, hp, hr, rfl⟩
  | fail hp => cases hr

/-- One constructor per outcome of `step`. -/
inductive Next (c : Cfg) (s : S) (t : Tid) : Act → S → KObs → Prop where
  | reject {call} : s.pc t = .out → accessible c call = true → reserved call = true →
      Next c s t (.call call) s (.ret t call (.res (.err .invalidInput)))
  | panic0 {call} : s.pc t = .out → accessible c call = true → valid c call = false →
      Next c s t (.call call) s (.ret t call .panic)
  | begin {call} : s.pc t = .out → accessible c call = true → reserved call = false →
      (∀ x, call = .deleteFilter x → valid c call = true) →
      Next c s t (.call call) { s with pc := upd s.pc t (first call) } (.begin t call)
  | dup {call} : s.pc t = .insert call → s.sources (source call) = true →
      Next c s t .src { s with pc := upd s.pc t .out } (.ret t call (.res (.err .alreadyExists)))
  | inserted {call} : s.pc t = .insert call → s.sources (source call) = false →
      Next c s t .src { s with
        sources := fun x => if x = source call then true else s.sources x
        pc := upd s.pc t (.has call) } (.inserted t (source call))
  | missing {call} : s.pc t = .has call ∨ s.pc t = .remove call → s.sources (source call) = false →
      Next c s t .src { s with pc := upd s.pc t .out } (.ret t call (.res (.err .notFound)))
  | panic {call} : s.pc t = .has call → s.sources (source call) = true → valid c call = false →
      Next c s t .src { s with pc := upd s.pc t .out } (.ret t call .panic)
  | has {call} : s.pc t = .has call → s.sources (source call) = true → valid c call = true →
      Next c s t .src { s with pc := upd s.pc t (.submit (.call call) (changes call) []) } .tau
  | removed {call} : s.pc t = .remove call → s.sources (source call) = true →
      Next c s t .src { s with
        sources := fun x => if x = source call then false else s.sources x
        pc := upd s.pc t (.ending call) } (.removed t (source call))
  | ended {call} : s.pc t = .ending call →
      Next c s t .eval { s with pc := upd s.pc t .out } (.ret t call (.res .ok))
  | wMissing {timed cap evs} : s.pc t = .wHas timed cap evs → s.sources (.fd c.notifFd) = false →
      Next c s t .src { s with pc := upd s.pc t .out, lib := none } (.waitErr t .notFound)
  | wHas {timed cap evs} : s.pc t = .wHas timed cap evs → s.sources (.fd c.notifFd) = true →
      Next c s t .src { s with pc := upd s.pc t (.submit (.rearm timed cap evs)
        (fdChanges c.notifFd (Event.onlyReadable NOTIFY_KEY) .oneshot) []) } .tau
  | change {fault w ev todo done errno k} : s.pc t = .submit w (ev :: todo) done → fault ≠ some 0 →
      register c fault s.k ev = (errno, k) →
      Next c s t (.change fault) { s with k, pc := upd s.pc t (.submit w todo (done ++ [receipt ev errno])) }
        (changeObs t ev errno)
  | finCall {a call r} : Fin s t a (.call call) r → (r = .ok → isDelete call = false) →
      Next c s t a { s with pc := upd s.pc t .out } (.ret t call (.res r))
  | finDelete {a call} : Fin s t a (.call call) .ok → isDelete call = true →
      Next c s t a { s with pc := upd s.pc t (.remove call) } .tau
  | finNotify {a r} : Fin s t a .notify r → Next c s t a { s with pc := upd s.pc t .out } (.notified t)
  | finRearm {a timed cap evs} : Fin s t a (.rearm timed cap evs) .ok →
      Next c s t a { s with pc := upd s.pc t (.wFin evs) } .tau
  | rearmRetry {a timed cap evs} : Fin s t a (.rearm timed cap evs) (.err .interrupted) →
      Next c s t a { s with pc := upd s.pc t (.wKev timed cap) } .tau
  | rearmErr {a timed cap evs e} : Fin s t a (.rearm timed cap evs) (.err e) → e ≠ .interrupted →
      Next c s t a { s with pc := upd s.pc t .out, lib := none } (.waitErr t e)
  | kevRetry {timed cap} : s.pc t = .wKev timed cap → Next c s t (.kfail .interrupted) s .tau
  | kevErr {timed cap e} : s.pc t = .wKev timed cap → e ≠ .interrupted →
      Next c s t (.kfail e) { s with pc := upd s.pc t .out, lib := none } (.waitErr t e)
  | casSeen : s.pc t = .out → s.notified = true → Next c s t .notifyCas s (.notifySeen t)
  | casUser : s.pc t = .out → s.notified = false → c.user = true →
      Next c s t .notifyCas { s with notified := true, pc := upd s.pc t (.submit .notify [userChange true] []) } (.notifyBegin t)
  | casPair : s.pc t = .out → s.notified = false → c.user = false →
      Next c s t .notifyCas { s with notified := true, pc := upd s.pc t .nWrite } (.notifyBegin t)
  | writeFail : s.pc t = .nWrite → Next c s t (.write true) { s with pc := upd s.pc t .out } (.notified t)
  | write : s.pc t = .nWrite → Next c s t (.write false) { s with
        k := activate { s.k with chan := s.k.chan + 1 } (.read c.notifFd)
        pc := upd s.pc t .out } (.notified t)
  | waitBusy {timed cap} : s.pc t = .out → s.lib.isSome = true → Next c s t (.wait timed cap) s (.waitBusy t)
  | waitBegin {timed cap} : s.pc t = .out → s.lib = none → cap > 0 →
      Next c s t (.wait timed cap) { s with lib := some t, pc := upd s.pc t (.wKev timed cap) } (.waitBegin t)
  | kevent {timed cap evs k} : s.pc t = .wKev timed cap → harvest c s.k cap = (evs, k) → evs ≠ [] ∨ timed = true →
      Next c s t .kevent { s with k, pc := upd s.pc t (if c.user then .wFin evs else .wClear timed cap evs) }
        (.deliver t (evs.filter fun e => !c.internal e.filter))
  | read {timed cap evs} : s.pc t = .wClear timed cap evs → s.k.chan > 0 →
      Next c s t (.read false) { s with k := { s.k with chan := s.k.chan - 64 } } .tau
  | readEnd {timed cap evs fail} : s.pc t = .wClear timed cap evs → s.k.chan = 0 ∨ fail = true →
      Next c s t (.read fail) { s with pc := upd s.pc t (.wHas timed cap evs) } .tau
  | finish {evs} : s.pc t = .wFin evs →
      Next c s t .finish { s with notified := false, lib := none, pc := upd s.pc t .out }
        (.waitOk t (visible evs).length (visible evs))
  | raise {f v} : c.internal f = false → Next c s t (.cond f (some v)) { s with
        k := activate { s.k with cond := fun x => if x = f then some v else s.k.cond x } f } .tau
  | fall {f} : c.internal f = false → Next c s t (.cond f none) { s with
        k := { s.k with cond := fun x => if x = f then none else s.k.cond x } } .tau

theorem upd_self (pc : Tid → Pc) (t : Tid) (p : Pc) : upd pc t p t = p := by simp [upd]
theorem upd_other {pc : Tid → Pc} {t u : Tid} (p : Pc) (h : u ≠ t) : upd pc t p u = pc u := by simp [upd, h]
theorem upd_same (pc : Tid → Pc) {t : Tid} {p : Pc} (h : pc t = p) : upd pc t p = pc := by
  funext u; unfold upd; split
  · next e => rw [e, h]
  · rfl

theorem submitted_next {c : Cfg} {s s' : S} {t : Tid} {a : Act} {w : Work} {r : Res} {o : KObs} (hf : Fin s t a w r)
    (h : submitted s t w r = (s', o)) : Next c s t a s' o := by
  unfold submitted at h
  cases w with
  | call call =>
    simp only at h
    split at h
    · injection h with h1 h2; subst h1 h2; exact .finDelete hf rfl
    · injection h with h1 h2; subst h1 h2; exact .finDelete hf rfl
    · next hne1 hne2 =>
      injection h with h1 h2; subst h1 h2
      refine .finCall hf fun hr => ?_
      subst hr
      cases call <;> first | rfl | (exfalso; first | exact hne1 _ rfl rfl | exact hne2 _ rfl rfl)
  | notify => injection h with h1 h2; subst h1 h2; exact .finNotify hf
  | rearm timed cap evs =>
    cases r with
    | ok => injection h with h1 h2; subst h1 h2; exact .finRearm hf
    | err e =>
      simp only [waitFail] at h
      split at h
      · next he => injection h with h1 h2; subst h1 h2 he; exact .rearmRetry hf
      · next he => injection h with h1 h2; subst h1 h2; exact .rearmErr hf he

theorem step_next {c : Cfg} {s s' : S} {t : Tid} {a : Act} {o : KObs} (h : step c s t a = some (s', o)) :
    t < c.threads ∧ Next c s t a s' o := by
  unfold step at h
  split at h
  · cases h
  next ht =>
  refine ⟨by omega, ?_⟩
  clear ht
  split at h
  · next call hp =>
    split at h
    · cases h
    next hacc =>
    simp only [Bool.not_eq_true, Bool.not_eq_false'] at hacc
    split at h
    all_goals (split at h <;> (injection h with h; injection h with h1 h2; subst h1 h2))
    all_goals first
      | (next hr => exact .reject hp hacc hr)
      | (next hr => exact .begin hp hacc (by simpa using hr) (fun x hx => by cases hx))
      | (next hr => exact .panic0 hp hacc (by simpa using hr))
      | (next hr => exact .begin hp hacc rfl (fun x hx => by simpa using hr))
  · next call hp =>
    split at h <;> (injection h with h; injection h with h1 h2; subst h1 h2)
    · next hs => exact .dup hp hs
    · next hs => exact .inserted hp (by simpa using hs)
  · next call hp =>
    split at h
    · next hs => injection h with h; injection h with h1 h2; subst h1 h2; exact .missing (.inl hp) (by simpa using hs)
    · next hs =>
      split at h <;> (injection h with h; injection h with h1 h2; subst h1 h2)
      · next hv => exact .panic hp (by simpa using hs) (by simpa using hv)
      · next hv => exact .has hp (by simpa using hs) (by simpa using hv)
  · next call hp =>
    split at h <;> (injection h with h; injection h with h1 h2; subst h1 h2)
    · next hs => exact .missing (.inr hp) (by simpa using hs)
    · next hs => exact .removed hp (by simpa using hs)
  · next call hp => injection h with h; injection h with h1 h2; subst h1 h2; exact .ended hp
  · next timed cap evs hp =>
    split at h <;> (injection h with h; injection h with h1 h2; subst h1 h2)
    · next hs => exact .wMissing hp (by simpa using hs)
    · next hs => exact .wHas hp (by simpa using hs)
  · next fault w ev todo done hp =>
    split at h
    · cases h
    next hf =>
    rcases hr : register c fault s.k ev with ⟨errno, k⟩
    simp only [hr] at h
    injection h with h; injection h with h1 h2; subst h1 h2
    exact .change hp hf hr
  · next e w todo done hp => injection h with h; exact submitted_next (.fail hp) h
  · next e timed cap hp =>
    injection h with h
    unfold waitFail at h
    split at h
    · next he => injection h with h1 h2; subst h1 h2 he; rw [upd_same _ hp]; exact .kevRetry hp
    · next he => injection h with h1 h2; subst h1 h2; exact .kevErr hp he
  · next w done hp => injection h with h; exact submitted_next (.eval hp) h
  · next hp =>
    split at h <;> (injection h with h; injection h with h1 h2; subst h1 h2)
    · next hn => exact .casSeen hp hn
    · next hn =>
      cases hu : c.user with
      | true => simp only [if_true]; exact .casUser hp (by simpa using hn) hu
      | false => simp only [Bool.false_eq_true, if_false]; exact .casPair hp (by simpa using hn) hu
  · next fail hp =>
    split at h <;> (injection h with h; injection h with h1 h2; subst h1 h2)
    · next hf => subst hf; exact .writeFail hp
    · next hf => simp only [Bool.not_eq_true] at hf; subst hf; exact .write hp
  · next timed cap hp =>
    split at h
    · next hl => injection h with h; injection h with h1 h2; subst h1 h2; exact .waitBusy hp hl
    · next hl =>
      split at h
      · cases h
      next hc => injection h with h; injection h with h1 h2; subst h1 h2; exact .waitBegin hp (by simpa using hl) (by omega)
  · next timed cap hp =>
    rcases hh : harvest c s.k cap with ⟨evs, k⟩
    simp only [hh] at h
    split at h
    · next hc => injection h with h; injection h with h1 h2; subst h1 h2; exact .kevent hp hh hc
    · cases h
  · next fail timed cap evs hp =>
    split at h <;> (injection h with h; injection h with h1 h2; subst h1 h2)
    · next hc => obtain ⟨hc, rfl⟩ := hc; exact .read hp hc
    · next hc => exact .readEnd hp (by
        cases fail with
        | true => exact .inr rfl
        | false => exact .inl (by simp at hc; exact hc))
  · next evs hp => injection h with h; injection h with h1 h2; subst h1 h2; exact .finish hp
  · next f v =>
    split at h
    · cases h
    next hi =>
    injection h with h; injection h with h1 h2; subst h1 h2
    cases v with
    | none => exact .fall (by simpa using hi)
    | some v => exact .raise (by simpa using hi)
  · cases h

/-- Reachable states with their trace (newest first); `P` restricts the steps (assumptions about OS calls). -/
inductive Reach (c : Cfg) (P : S → Tid → Act → Prop) : S → List KObs → Prop where
  | init (cond) : Reach c P (init c cond) []
  | step {s tr t a s' o} : Reach c P s tr → P s t a → step c s t a = some (s', o) → Reach c P s' (o :: tr)

/-- No assumption. -/
def Any : S → Tid → Act → Prop := fun _ _ _ => True

theorem Reach.mono {c P Q s tr} (hPQ : ∀ s t a, P s t a → Q s t a) (h : Reach c P s tr) : Reach c Q s tr := by
  induction h with
  | init => exact .init _
  | step _ hp hs ih => exact .step ih (hPQ _ _ _ hp) hs

theorem Reach.any {c P s tr} (h : Reach c P s tr) : Reach c Any s tr := h.mono fun _ _ _ _ => trivial

/-- A sequence of steps; the observations are newest first. -/
def runActs (c : Cfg) (s : S) : List (Tid × Act) → Option (S × List KObs)
  | [] => some (s, [])
  | (t, a) :: l => (step c s t a).bind fun r => (runActs c r.1 l).map fun q => (q.1, q.2 ++ [r.2])

theorem reach_run {c s tr} (h : Reach c Any s tr) (acts : List (Tid × Act)) : ∀ s' obs,
    runActs c s acts = some (s', obs) → Reach c Any s' (obs ++ tr) := by
  induction acts generalizing s tr with
  | nil => intro s' obs hr; cases hr; exact h
  | cons ta acts ih =>
    intro s' obs hr
    obtain ⟨t, a⟩ := ta
    simp only [runActs, Option.bind_eq_some_iff, Option.map_eq_some_iff] at hr
    obtain ⟨⟨s1, o⟩, h1, ⟨s2, obs2⟩, h2, h3⟩ := hr
    injection h3 with h3 h4
    subst h3 h4
    have := ih (.step h trivial h1) s2 obs2 h2
    simpa using this

end Polling.KqM
