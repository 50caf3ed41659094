import Verif.Proof.EpollTimer

/-! What a delivery of the epoll machine contains. -/

namespace Polling.EpollM
open Epoll Spec

/-- Only a return of `epoll_wait` delivers. -/
theorem deliver_inv {c : Cfg} {s : S} {a : Act} {s' : S} {evs : List (Fd × Event EventExtra)}
    (hs : step c s a = some (s', .deliver evs)) :
    a = .epollReturn ∧ ∃ dl cap to t0, s.phase = .polling dl cap to t0 ∧
      ((harvest c s.k cap).1 ≠ [] ∨ timeUp (epollTimeoutMs c.hasTimer to) t0 s.k.time = true) ∧
      s' = { s with k := (harvest c s.k cap).2, phase := .clearing dl cap (harvest c s.k cap).1 } ∧
      evs = ((harvest c s.k cap).1.filter fun e => !c.internal e.1).map fun e => (e.1, toEvent e.2) := by
  have hwf : ∀ s dl cap e, (waitFail s dl cap e).2 ≠ .deliver evs := by
    intro s dl cap e; unfold waitFail; split <;> simp
  cases a with
  | add fd ev mode fault =>
    simp only [step] at hs
    repeat' split at hs
    all_goals first | (cases hs; done) | simp at hs
  | modify fd ev mode fault =>
    simp only [step] at hs
    repeat' split at hs
    all_goals first | (cases hs; done) | simp at hs
  | delete fd fault =>
    simp only [step] at hs
    repeat' split at hs
    all_goals first | (cases hs; done) | simp at hs
  | epollReturn =>
    simp only [step] at hs
    split at hs
    · next dl cap to t0 hph =>
      split at hs
      · next hc => cases hs; exact ⟨rfl, dl, cap, to, t0, hph, hc, rfl, rfl⟩
      · cases hs
    · cases hs
  | settime fault =>
    simp only [step] at hs
    repeat' split at hs
    all_goals first | (cases hs; done) | (injection hs with hs; exact absurd (congrArg Prod.snd hs) (hwf _ _ _ _)) | simp at hs
  | armTimer fault =>
    simp only [step] at hs
    repeat' split at hs
    all_goals first | (cases hs; done) | (injection hs with hs; exact absurd (congrArg Prod.snd hs) (hwf _ _ _ _)) | simp at hs
  | rearm fault =>
    simp only [step] at hs
    repeat' split at hs
    all_goals first | (cases hs; done) | (injection hs with hs; exact absurd (congrArg Prod.snd hs) (hwf _ _ _ _)) | simp at hs
  | epollFail e =>
    simp only [step] at hs
    repeat' split at hs
    all_goals first | (cases hs; done) | (injection hs with hs; exact absurd (congrArg Prod.snd hs) (hwf _ _ _ _)) | simp at hs
  | clearRead =>
    simp only [step] at hs
    repeat' split at hs
    all_goals first | (cases hs; done) | (injection hs with hs; injection hs with h1 h2; cases h2)
  | _ =>
    simp only [step] at hs
    repeat' split at hs
    all_goals first | (cases hs; done) | simp at hs

/-- A property of every delivery follows from the property of delivering steps. -/
theorem everyDelivery_of {c : Cfg} {P : (Fd → Option (Current EventExtra)) → List (Fd × Event EventExtra) → Prop}
    (hstep : ∀ s tr a s' evs, Reach c s tr → step c s a = some (s', .deliver evs) → P (current tr) evs) {s tr}
    (h : Reach c s tr) : EveryDelivery P tr := by
  induction h with
  | init user => intro later evs earlier he; cases later <;> cases he
  | step hr hs ih =>
    intro later evs earlier he
    cases later with
    | nil =>
      simp only [List.nil_append, List.cons.injEq] at he
      obtain ⟨rfl, rfl⟩ := he
      exact hstep _ _ _ _ _ hr hs
    | cons l later =>
      simp only [List.cons_append, List.cons.injEq] at he
      exact ih later evs earlier he.2

/-- The interest conditions of a registration that is armed. -/
def asked (cu : Current EventExtra) : Flags := ctlFlags cu.ev cu.mode ||| ERR ||| HUP

/-- A registration that can deliver. -/
def live (cu : Current EventExtra) : Bool := !(cu.fired && oneshot cu.mode)

theorem itemOf_live (cu : Current EventExtra) (h : live cu = true) : itemOf cu = ⟨asked cu, keyToU64 cu.ev.key⟩ := by
  unfold itemOf live asked at *
  have : (cu.fired && oneshot cu.mode) = false := by rwa [Bool.not_eq_true'] at h
  simp [this]

theorem itemOf_dead (cu : Current EventExtra) (h : live cu = false) (f : Flags) :
    f &&& (itemOf cu).events &&& ~~~PRIVATE = 0#32 := by
  unfold itemOf live at *
  have : (cu.fired && oneshot cu.mode) = true := by simpa using h
  rw [this]
  simp only [if_true]
  rw [BitVec.and_assoc]
  have : modeFlags cu.mode &&& ~~~PRIVATE = 0#32 := by cases cu.mode <;> decide
  rw [this]; simp

theorem ready_user {c : Cfg} {k : Kern} {fd : Fd} (h : c.internal fd = false) : ready c k fd = k.user fd := by
  have h1 : fd ≠ c.notifFd := fun e => ne_notif h e.symm
  have h2 : ¬ (c.hasTimer = true ∧ fd = c.timerFd) := fun e => ne_timer h e.1 e.2.symm
  simp [ready, h1, h2]

/-- Whether a user's source is reported, in terms of its registration. -/
theorem hot_user {c : Cfg} {k : Kern} {tr : List (Obs EventExtra)} (h : KInv c k tr) {fd : Fd} (hf : c.internal fd = false) :
    hot (ready c k) k.items fd = true ↔
      ∃ cu, current tr fd = some cu ∧ live cu = true ∧ k.user fd &&& asked cu &&& ~~~PRIVATE ≠ 0#32 := by
  unfold hot rev
  rw [h.r.user fd hf, ready_user hf]
  cases hc : current tr fd with
  | none => simp
  | some cu =>
    simp only [Option.map_some, Option.some.injEq, exists_eq_left', bne_iff_ne]
    cases hl : live cu with
    | true => rw [itemOf_live cu hl]; simp
    | false => rw [itemOf_dead cu hl]; simp

theorem raw_user {c : Cfg} {k : Kern} {tr : List (Obs EventExtra)} (h : KInv c k tr) {fd : Fd} (hf : c.internal fd = false)
    {cu} (hc : current tr fd = some cu) (hl : live cu = true) :
    rawOf (ready c k) k.items fd = (fd, ⟨keyToU64 cu.ev.key, k.user fd &&& asked cu &&& ~~~PRIVATE⟩) := by
  unfold rawOf rev
  rw [h.r.user fd hf, ready_user hf, hc]
  simp [itemOf_live cu hl]

/-- The event delivered for a registration when the OS sees the conditions `now`. -/
def eventOf (cu : Current EventExtra) (now : Flags) : Event EventExtra :=
  toEvent ⟨keyToU64 cu.ev.key, now &&& asked cu &&& ~~~PRIVATE⟩

/-- Facts about one delivery. -/
structure Delivery (c : Cfg) (k : Kern) (tr : List (Obs EventExtra)) (cap : Nat) (evs : List (Fd × Event EventExtra)) : Prop where
  nodup : (evs.map Prod.fst).Nodup
  sound : ∀ fd e, (fd, e) ∈ evs → c.internal fd = false ∧ ∃ cu, current tr fd = some cu ∧ live cu = true ∧
    k.user fd &&& asked cu &&& ~~~PRIVATE ≠ 0#32 ∧ e = eventOf cu (k.user fd)
  complete : ∀ fd cu, current tr fd = some cu → live cu = true → k.user fd &&& asked cu &&& ~~~PRIVATE ≠ 0#32 →
    (cu.mode = .level ∨ cu.mode = .oneshot ∨ fd ∈ k.rdl) →
    (fd, eventOf cu (k.user fd)) ∈ evs ∨ (harvest c k cap).1.length = cap
  le : evs.length ≤ (harvest c k cap).1.length ∧ (harvest c k cap).1.length ≤ cap

theorem delivery {c : Cfg} {k : Kern} {tr : List (Obs EventExtra)} (h : KInv c k tr) (cap : Nat) :
    Delivery c k tr cap (((harvest c k cap).1.filter fun e => !c.internal e.1).map fun e => (e.1, toEvent e.2)) := by
  obtain ⟨pre, rest, h1, h2, h3, h4, h5⟩ := harvest_spec h.l cap
  have hnd := h.l.nodup
  rw [h1, List.nodup_append] at hnd
  refine ⟨?_, ?_, ?_, ?_⟩
  · rw [List.map_map]
    have : ((harvest c k cap).1.filter fun e => !c.internal e.1).map (Prod.fst ∘ fun e => (e.1, toEvent e.2)) =
        ((harvest c k cap).1.map Prod.fst).filter fun x => !c.internal x := by
      rw [List.filter_map]; rfl
    rw [this, mem_evs h2]
    exact (hnd.1.filter _).filter _
  · intro fd e hm
    simp only [List.mem_map, List.mem_filter, Prod.mk.injEq] at hm
    obtain ⟨⟨fd', raw⟩, ⟨hmem, hint⟩, rfl, rfl⟩ := hm
    have hf : c.internal fd' = false := by simpa using hint
    rw [h2, List.mem_map] at hmem
    obtain ⟨x, hx, hxe⟩ := hmem
    have hfx : x = fd' := congrArg Prod.fst hxe
    subst hfx
    obtain ⟨cu, hc, hl, hne⟩ := (hot_user h hf).1 (List.mem_filter.1 hx).2
    rw [raw_user h hf hc hl, Prod.mk.injEq] at hxe
    exact ⟨hf, cu, hc, hl, hne, by rw [← hxe.2]; rfl⟩
  · intro fd cu hc hl hne hlnk
    have hf := (h.r.curOk fd cu hc).1
    have hhot := (hot_user h hf).2 ⟨cu, hc, hl, hne⟩
    have hin : fd ∈ k.rdl := by
      rcases hlnk with hm | hm | hm
      · refine h.l.linked fd (itemOf cu) (by rw [h.r.user fd hf, hc]; rfl) ?_ ?_
        · rw [itemOf_et cu (h.r.curOk fd cu hc).2.2, hm]; decide
        · rw [ready_user hf, itemOf_live cu hl]; exact hne
      · refine h.l.linked fd (itemOf cu) (by rw [h.r.user fd hf, hc]; rfl) ?_ ?_
        · rw [itemOf_et cu (h.r.curOk fd cu hc).2.2, hm]; decide
        · rw [ready_user hf, itemOf_live cu hl]; exact hne
      · exact hm
    rcases h4 with h4 | h4
    · left
      subst h4
      rw [h1, List.append_nil] at hin
      rw [List.mem_map]
      refine ⟨rawOf (ready c k) k.items fd, List.mem_filter.2 ⟨?_, ?_⟩, ?_⟩
      · rw [h2, List.mem_map]; exact ⟨fd, List.mem_filter.2 ⟨hin, hhot⟩, rfl⟩
      · simp [rawOf, hf]
      · rw [raw_user h hf hc hl]; rfl
    · right; rw [h2, List.length_map]; exact h4
  · refine ⟨?_, by rw [h2, List.length_map]; exact h3⟩
    rw [List.length_map]; exact List.length_filter_le _ _

/-- `epoll_wait` can return. -/
theorem return_enabled {c : Cfg} {s : S} {dl cap to t0} (hph : s.phase = .polling dl cap to t0)
    (h : (harvest c s.k cap).1 ≠ [] ∨ timeUp (epollTimeoutMs c.hasTimer to) t0 s.k.time = true) :
    step c s .epollReturn = some ({ s with k := (harvest c s.k cap).2, phase := .clearing dl cap (harvest c s.k cap).1 },
      .deliver (((harvest c s.k cap).1.filter fun e => !c.internal e.1).map fun e => (e.1, toEvent e.2))) := by
  simp only [step, hph]
  rw [if_pos h]

theorem return_disabled {c : Cfg} {s : S} {dl cap to t0} (hph : s.phase = .polling dl cap to t0)
    (h : (harvest c s.k cap).1 = []) (ht : timeUp (epollTimeoutMs c.hasTimer to) t0 s.k.time = false) :
    step c s .epollReturn = none := by
  simp only [step, hph]
  rw [if_neg (by simp [h, ht])]

end Polling.EpollM
