import Verif.Proof.LinSim
import Verif.Proof.PollReach

/-! The registration calls of the poll machine are those of the atomic object. -/

namespace Polling.PollP
open PollB PollFlags PollSpec Lin

/-- What the atomic object knows of a thread. -/
def LinAt (ru : Rules) : CallSt → Option (InCall Fd) → Prop
  | .idle, x => x = none
  | .begun op, x => x = some ⟨(kindP op).1, (kindP op).2, none⟩
  | .done r, x => ∃ k fd b a, x = some ⟨k, fd, some (b, a)⟩ ∧ ∀ n, Allowed ru k (ofRes r) b a n

/-- A call on the map, as the atomic object sees it. -/
theorem apply_allowed (ru : Rules) (i : Fd → Bool) (m : Map) (op : Op) :
    (∀ n, Allowed ru (kindP op).1 (ofRes (applyAsCoded i m op).1) (m (kindP op).2).isSome ((applyAsCoded i m op).2 (kindP op).2).isSome n) ∧
    ∀ fd, fd ≠ (kindP op).2 → (applyAsCoded i m op).2 fd = m fd := by
  have set : ∀ {x : Option Reg} {fd y : Fd}, y ≠ fd → Map.set m fd x y = m y := fun h => by simp [Map.set, h]
  cases op with
  | add fd ev mode =>
    simp only [applyAsCoded, apply, kindP]
    split
    · exact ⟨fun _ => .inl rfl, fun _ _ => rfl⟩
    · split
      · next h => exact ⟨fun _ => by simp only [ofRes]; rw [h]; exact ⟨rfl, rfl⟩, fun _ _ => rfl⟩
      · next h =>
        split
        · exact ⟨fun _ => ⟨by simpa using h, by simp [Map.set]⟩, fun _ hne => set hne⟩
        · exact ⟨fun _ => .inl rfl, fun _ _ => rfl⟩
  | modify fd ev mode =>
    simp only [applyAsCoded, kindP]
    split
    · exact ⟨fun _ => rfl, fun _ _ => rfl⟩
    · split
      · next h => exact ⟨fun _ => by simp only [ofRes]; rw [h]; exact ⟨rfl, rfl⟩, fun _ _ => rfl⟩
      · next r h =>
        split
        · exact ⟨fun _ => by simp only [ofRes]; rw [h]; exact ⟨rfl, by simp [Map.set]⟩, fun _ hne => set hne⟩
        · exact ⟨fun _ => by simp only [ofRes]; rw [h]; simp [Allowed, Map.set], fun _ hne => set hne⟩
  | delete fd =>
    simp only [applyAsCoded, apply, kindP]
    split
    · exact ⟨fun _ => .inl rfl, fun _ _ => rfl⟩
    · split
      · next h =>
        have h' : (m fd).isSome = false := by cases hm : m fd <;> simp_all
        exact ⟨fun _ => by simp only [ofRes]; rw [h']; exact ⟨rfl, rfl⟩, fun _ _ => rfl⟩
      · next h => exact ⟨fun _ => ⟨by simp [Map.set], .inl (by cases hm : m fd <;> simp_all)⟩, fun _ hne => set hne⟩

theorem stepSpec_round (i : Internal) (m : Map) (os order b) (fd : Fd) :
    ((stepSpec applyAsCoded i m (.round os order b)).2 fd).isSome = (m fd).isSome := by
  simp only [stepSpec]
  split
  · rfl
  · simp only [afterWait, Option.isSome_map]

/-- The state of the atomic object after a run. -/
structure LinRel (ru : Rules) (c : Cfg) (tr : List PObs) (st : State Fd) : Prop where
  present : ∀ fd, st.present fd = (mapOf c tr fd).isSome
  calls : ∀ t, ∃ x, callState t tr = some x ∧ LinAt ru x (st.calls t)

/-- The result of an applied call is that on the map. -/
theorem applied_result {c : Cfg} {s s' : S} {u : Tid} {a : Act} {t op r tr} (hn : Next c s u a s' (.applied t op r)) (hT : T c s tr) :
    r = (applyAsCoded c.n.hasFd (mapOf c tr) op).1 := by
  cases hn with
  | callApply _ _ tbl hp hc =>
    obtain ⟨fds', heq, _⟩ := call_spec hT.inv hT.rel op
    rw [hc] at heq
    exact (congrArg Prod.fst (Option.some.inj heq))

theorem next_lin {ru : Rules} {c s u a s' o st} {tr : List PObs} (hn : Next c s u a s' o) (hT : T c s tr)
    (hcs : ∀ t, callState t (o :: tr) ≠ none) (h : LinRel ru c tr st) (ha : Atomic ru st (Lin.ofPObs tr)) :
    ∃ st', Atomic ru st' (Lin.ofPObs (o :: tr)) ∧ LinRel ru c (o :: tr) st' := by
  obtain ⟨p, calls⟩ := st
  obtain ⟨h1, h2⟩ := h
  dsimp only at h1 h2
  have same : Lin.ofPObs (o :: tr) = Lin.ofPObs tr → steps (o :: tr) = steps tr → (∀ t st, callNext t st o = some st) →
      ∃ st', Atomic ru st' (Lin.ofPObs (o :: tr)) ∧ LinRel ru c (o :: tr) st' := by
    intro e1 e2 e3
    refine ⟨⟨p, calls⟩, by rw [e1]; exact ha, fun fd => ?_, fun t => ?_⟩
    · rw [mapOf, e2]; exact h1 fd
    · obtain ⟨x, hx, hl⟩ := h2 t
      exact ⟨x, by simp only [callState, hx, Option.bind_some, e3], hl⟩
  cases ho : o
  case callBegin t op =>
    subst ho
    obtain ⟨x, hx, hl⟩ := h2 t
    have hid : x = .idle := by
      have := hcs t
      simp only [callState, hx, Option.bind_some, callNext] at this
      simp at this
      exact this
    subst hid
    refine ⟨_, Atomic.begin ha hl, h1, fun v => ?_⟩
    by_cases e : v = t
    · subst e
      exact ⟨.begun op, by simp [callState, hx, callNext], by dsimp only; rw [put_same]; rfl⟩
    · obtain ⟨y, hy, hm⟩ := h2 v
      exact ⟨y, by simp [callState, hy, callNext, Ne.symm e], by dsimp only; rw [put_other _ _ e]; exact hm⟩
  case applied t op r =>
    subst ho
    have hr := applied_result hn hT
    obtain ⟨hal, hoth⟩ := apply_allowed ru c.n.hasFd (mapOf c tr) op
    have hmap : mapOf c (.applied t op r :: tr) = (applyAsCoded c.n.hasFd (mapOf c tr) op).2 := by
      rw [mapOf, steps, mapAfter_append]; rfl
    obtain ⟨x, hx, hl⟩ := h2 t
    have hid : x = .begun op := by
      have := hcs t
      simp only [callState, hx, Option.bind_some, callNext] at this
      simp at this
      exact this
    subst hid
    refine ⟨_, Atomic.effect ((applyAsCoded c.n.hasFd (mapOf c tr) op).2 (kindP op).2).isSome ha hl, fun fd => ?_, fun v => ?_⟩
    · rw [hmap]; dsimp only; unfold put; split
      · next e => rw [e]
      · next e => rw [h1, hoth fd e]
    · by_cases e : v = t
      · subst e
        refine ⟨.done r, by simp [callState, hx, callNext], _, _, _, _, by dsimp only; rw [put_same], fun n => ?_⟩
        rw [hr]
        show Allowed ru _ _ (p _) _ _
        rw [h1]
        exact hal n
      · obtain ⟨y, hy, hm⟩ := h2 v
        exact ⟨y, by simp [callState, hy, callNext, Ne.symm e], by dsimp only; rw [put_other _ _ e]; exact hm⟩
  case callEnd t r =>
    subst ho
    obtain ⟨x, hx, hl⟩ := h2 t
    have hid : x = .done r := by
      have := hcs t
      simp only [callState, hx, Option.bind_some, callNext] at this
      simp at this
      exact this
    subst hid
    obtain ⟨k, fd, b, af, hc, hal⟩ := hl
    refine ⟨⟨p, put calls t none⟩, ?_, h1, fun v => ?_⟩
    · simp only [Lin.ofPObs]
      rw [addRet_some ha hc]
      exact Atomic.ret ha hc (hal _)
    · by_cases e : v = t
      · subst e
        exact ⟨.idle, by simp [callState, hx, callNext], put_same _ _ _⟩
      · obtain ⟨y, hy, hm⟩ := h2 v
        exact ⟨y, by simp [callState, hy, callNext, Ne.symm e], by dsimp only; rw [put_other _ _ e]; exact hm⟩
  case round t os order b out =>
    subst ho
    refine ⟨⟨p, calls⟩, ha, fun fd => ?_, fun v => ?_⟩
    · have : mapOf c (.round t os order b out :: tr) = (stepSpec applyAsCoded c.n.spec (mapOf c tr) (.round os order b)).2 := by
        rw [mapOf, steps, mapAfter_append]; rfl
      rw [this, stepSpec_round]; exact h1 fd
    · obtain ⟨y, hy, hm⟩ := h2 v
      exact ⟨y, by simp [callState, hy, callNext], hm⟩
  all_goals (subst ho; exact same rfl rfl fun _ _ => rfl)

theorem reach_lin {ru : Rules} {c P s tr} (h : Reach c P s tr) : ∃ st, Atomic ru st (Lin.ofPObs tr) ∧ LinRel ru c tr st := by
  induction h with
  | init => exact ⟨_, .init, fun _ => rfl, fun t => ⟨.idle, rfl, rfl⟩⟩
  | step hr hp hs ih =>
    obtain ⟨st, ha, hl⟩ := ih
    refine next_lin (step_next hs).2 (reach_T hr) (fun t => ?_) hl ha
    rw [reach_call (.step hr hp hs) t]; exact nofun

end Polling.PollP
