import Verif.Proof.KqInv

/-! Deliveries on kqueue. -/

namespace Polling.KqM
open Kqueue KqSpec

/-- Every observation was made by a step from a reachable state. -/
theorem reach_split {c P s tr} (h : Reach c P s tr) : ∀ later o earlier, tr = later ++ o :: earlier →
    ∃ s0 t a s1, Reach c P s0 earlier ∧ P s0 t a ∧ step c s0 t a = some (s1, o) := by
  induction h with
  | init => intro later o earlier he; simp at he
  | @step s tr t a s' o' hr hp hs ih =>
    intro later o earlier he
    cases later with
    | nil =>
      simp only [List.nil_append, List.cons.injEq] at he
      obtain ⟨rfl, rfl⟩ := he
      exact ⟨s, t, a, s', hr, hp, hs⟩
    | cons x later =>
      simp only [List.cons_append, List.cons.injEq] at he
      exact ih later o earlier he.2

/-- The events of a delivery, and what is left. -/
theorem deliver_inv {c s t a s' u evs} (hs : step c s t a = some (s', .deliver u evs)) (hki : KI c s.k) :
    u = t ∧ a = .kevent ∧ ∃ timed cap all took, s.pc t = .wKev timed cap ∧ harvest c s.k cap = (all, s'.k) ∧
      Batch c s.k cap all s'.k took ∧ evs = all.filter fun e => !c.internal e.filter := by
  have hn := (step_next hs).2
  generalize ho : KObs.deliver u evs = o at hn
  cases hn with
  | @kevent timed cap all k hpc hh hc =>
    injection ho with h1 h2
    subst h1 h2
    obtain ⟨pre, rest, _, _, _, hb⟩ := harvest_batch hki.nodup hh
    exact ⟨rfl, rfl, timed, cap, all, _, hpc, hh, hb, rfl⟩
  | change => unfold changeObs at ho; split at ho; cases ho; split at ho <;> cases ho
  | _ => cases ho

/-- A delivered event comes from a filter that is watched. -/
theorem delivered {c P s tr} (hr : Reach c P s tr) {t a s' u evs} (hs : step c s t a = some (s', .deliver u evs))
    {e : KEvent} (he : e ∈ evs) :
    ∃ w, watch c.keepMode tr e.filter = some w ∧ w.gone = false ∧ e.udata = w.key ∧
      e = eventOf (ready c s.k) s.k.knotes e.filter ∧ c.internal e.filter = false ∧
      (ready c s.k e.filter = s.k.cond e.filter) ∧
      ((s.k.cond e.filter).isSome = true ∨ (w.oneshot = true ∧ c.recheck = false)) := by
  obtain ⟨_, _, timed, cap, all, took, _, _, hb, rfl⟩ := deliver_inv hs (reach_ki hr)
  obtain ⟨he, hi⟩ := List.mem_filter.1 he
  rw [hb.evs, List.mem_map] at he
  obtain ⟨f, hf, rfl⟩ := he
  have hi' : c.internal f = false := by simpa [eventOf] using hi
  have hm := reach_match hr f hi'
  have hh := (hb.queued f hf).2
  have hrd : ready c s.k f = s.k.cond f := by
    unfold ready
    unfold Cfg.internal at hi'
    cases hcu : c.user with
    | true => rw [hcu] at hi'; simp at hi'; simp [hi']
    | false => rw [hcu] at hi'; simp at hi'; simp [hi']
  unfold hot at hh
  cases hn : s.k.knotes f with
  | none => rw [hn] at hh; cases hh
  | some n =>
    rw [hn] at hm hh
    cases hw : watch c.keepMode tr f with
    | none => rw [hw] at hm; exact hm.elim
    | some w =>
      rw [hw] at hm
      obtain ⟨h1, h2, h3, h4⟩ := hm
      refine ⟨w, hw, h1, by simp [eventOf, hn, h2], rfl, hi', hrd, ?_⟩
      simp only [eventOf]
      rw [hrd] at hh
      simp only [Option.any_some, Bool.or_eq_true, Bool.and_eq_true, Bool.not_eq_true'] at hh
      rcases hh with hh | hh
      · exact .inl hh
      · exact .inr ⟨h3 ▸ hh.1, hh.2⟩

/-- A filter is delivered at most once in a batch. -/
theorem delivered_once {c P s tr} (hr : Reach c P s tr) {t a s' u evs} (hs : step c s t a = some (s', .deliver u evs)) :
    (evs.map KEvent.filter).Nodup := by
  obtain ⟨_, _, timed, cap, all, took, _, _, hb, rfl⟩ := deliver_inv hs (reach_ki hr)
  have : (all.map KEvent.filter).Nodup := by
    rw [hb.evs, List.map_map]
    have : (KEvent.filter ∘ eventOf (ready c s.k) s.k.knotes) = id := rfl
    rw [this, List.map_id]
    exact hb.nodup
  exact this.sublist (List.filter_sublist.map _)

/-- A watched filter whose condition holds is in the batch, unless the buffer is full. -/
theorem deliver_complete {c P s tr} (hr : Reach c P s tr) {t a s' u evs} (hs : step c s t a = some (s', .deliver u evs))
    {f : Filter} (hi : c.internal f = false) (huf : isUser f = false) {w : Watch} (hw : watch c.keepMode tr f = some w) (hg : w.gone = false)
    (hc : w.clear = false) (hac : c.autoClear f = false) (hcond : (s.k.cond f).isSome = true) :
    (∃ e ∈ evs, e.filter = f) ∨ ∃ timed cap all, s.pc t = .wKev timed cap ∧ harvest c s.k cap = (all, s'.k) ∧ all.length = cap := by
  have hki := reach_ki hr
  obtain ⟨_, _, timed, cap, all, took, hpc, hh, hb, rfl⟩ := deliver_inv hs hki
  have hm := reach_match hr f hi
  rw [hw] at hm
  cases hn : s.k.knotes f with
  | none => rw [hn] at hm; have : w.gone = true := hm; rw [hg] at this; cases this
  | some n =>
    rw [hn] at hm
    obtain ⟨_, h2, h3, h4⟩ := hm
    have hrd : ready c s.k f = s.k.cond f := by
      unfold ready
      unfold Cfg.internal at hi
      cases hcu : c.user with
      | true => rw [hcu] at hi; simp at hi; simp [hi]
      | false => rw [hcu] at hi; simp at hi; simp [hi]
    have hq : f ∈ s.k.queue := hki.live f n hn (by rw [h4, hc, hac]; rfl) huf (by rw [hrd]; exact hcond)
    have hhot : hot c (ready c s.k) s.k.knotes f = true := by
      unfold hot; rw [hn, hrd]; simp [hcond]
    by_cases hl : took.length < cap
    · left
      have hf := hb.complete hl f hq hhot
      refine ⟨eventOf (ready c s.k) s.k.knotes f, List.mem_filter.2 ⟨?_, by simp [eventOf, hi]⟩, rfl⟩
      rw [hb.evs]; exact List.mem_map.2 ⟨f, hf, rfl⟩
    · right
      refine ⟨timed, cap, all, hpc, hh, ?_⟩
      rw [hb.evs, List.length_map]
      have := hb.room
      omega

/-- `kevent` returns if some knote has something to report. -/
theorem kevent_enabled {c P s tr} (hr : Reach c P s tr) {t timed cap} (hpc : s.pc t = .wKev timed cap) {f : Filter}
    (hq : f ∈ s.k.queue) (hh : hot c (ready c s.k) s.k.knotes f = true) :
    ∃ s' evs, step c s t .kevent = some (s', .deliver t evs) := by
  have hki := reach_ki hr
  have ht : t < c.threads := by
    by_cases h : t < c.threads
    · exact h
    · rw [reach_range hr t (by omega)] at hpc; cases hpc
  have hcap : cap > 0 := by have := reach_pcOk hr t; rw [hpc] at this; exact this
  rcases hv : harvest c s.k cap with ⟨all, k'⟩
  obtain ⟨_, _, _, _, _, hb⟩ := harvest_batch hki.nodup hv
  have hne : all ≠ [] := by
    intro he
    have hev := hb.evs
    rw [he] at hev
    have hnil := (List.map_eq_nil_iff.1 hev.symm)
    have := hb.complete (by rw [hnil]; exact hcap) f hq hh
    rw [hnil] at this; cases this
  refine ⟨{ s with k := k', pc := upd s.pc t (if c.user then .wFin all else .wClear timed cap all) },
    all.filter (fun e => !c.internal e.filter), ?_⟩
  unfold step
  rw [if_neg (by omega)]
  simp only [hpc, hv]
  rw [if_pos (.inl hne)]

end Polling.KqM
