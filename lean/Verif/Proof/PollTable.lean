import Verif.Model.PollTable
import Verif.Spec.PollMap

namespace Polling.PollB
open PollFlags PollSpec

theorem swapRemove_some {α : Type} (l : List α) (i : Nat) (hi : i < l.length) :
    ∃ l', swapRemove l i = some l' ∧ l'.length = l.length - 1 ∧
      ∀ j, l'[j]? = if j < l.length - 1 then (if j = i then l[l.length - 1]? else l[j]?) else none := by
  have hne : l ≠ [] := by intro h; simp [h] at hi
  unfold swapRemove
  rw [List.getLast?_eq_some_getLast hne]
  simp only [hi, if_true]
  refine ⟨_, rfl, by simp, fun j => ?_⟩
  rw [List.getElem?_dropLast, List.length_set]
  split
  · rw [List.getElem?_set]
    by_cases hji : i = j
    · subst hji
      simp only [if_true]
      rw [List.getElem?_eq_getElem (by omega), List.getLast_eq_getElem]
      simp [hi]
    · rw [if_neg hji, if_neg (Ne.symm hji)]
  · rfl

theorem swapRemove_none {α : Type} (l : List α) (i : Nat) (hi : ¬ i < l.length) : swapRemove l i = none := by
  unfold swapRemove
  cases l.getLast? <;> simp [hi]

/-- Consistency of the two parts of the table. -/
structure Inv (n : NotifyFds) (fds : Fds) : Prop where
  zero : ∃ p, fds.pollFds[0]? = some p ∧ p.fd = n.readFd ∧ p.events = n.flags
  fwd : ∀ fd d, fds.fdData fd = some d → 1 ≤ d.index ∧ ∃ p, fds.pollFds[d.index]? = some p ∧ p.fd = fd
  bwd : ∀ i p, 1 ≤ i → fds.pollFds[i]? = some p → ∃ d, fds.fdData p.fd = some d ∧ d.index = i
  internal : ∀ fd, n.hasFd fd = true → fds.fdData fd = none

/-- The table represents the map. -/
def Rel (fds : Fds) (m : Map) : Prop :=
  ∀ fd, (fds.fdData fd = none ∧ m fd = none) ∨
    ∃ d r p, fds.fdData fd = some d ∧ m fd = some r ∧ fds.pollFds[d.index]? = some p ∧
      r.key = d.key ∧ r.oneshot = d.remove ∧ p.events = r.ask

theorem Rel.none_iff {fds m} (h : Rel fds m) (fd : Fd) : fds.fdData fd = none ↔ m fd = none := by
  rcases h fd with ⟨h1, h2⟩ | ⟨d, r, p, h1, h2, _⟩ <;> simp [h1, h2]

theorem ask_new (ev : Event EventExtra) (b : Bool) :
    (⟨ev.key, ev.readable, ev.writable, b⟩ : Reg).ask = pollEvents ev := rfl

theorem init_inv (n : NotifyFds) : Inv n (Fds.init n) := by
  refine ⟨⟨_, rfl, rfl, rfl⟩, by simp [Fds.init], ?_, by simp [Fds.init]⟩
  intro i p hi hp
  simp [Fds.init, List.getElem?_singleton] at hp
  omega

theorem init_rel (n : NotifyFds) : Rel (Fds.init n) (fun _ => none) := fun _ => .inl ⟨rfl, rfl⟩

theorem supported_iff (mode : PollMode) :
    (supported mode = true ∧ cvtModeAsRemove mode = .ok (mode == .oneshot)) ∨
    (supported mode = false ∧ cvtModeAsRemove mode = .error .unsupported) := by
  cases mode <;> simp [supported, cvtModeAsRemove] <;> rfl

theorem inv_lt {n fds} (h : Inv n fds) {fd d} (hd : fds.fdData fd = some d) : d.index < fds.pollFds.length := by
  obtain ⟨_, p, hp, _⟩ := h.fwd fd d hd
  exact (List.getElem?_eq_some_iff.1 hp).1

theorem inv_index_inj {n fds} (h : Inv n fds) {fd d fd' d'} (hd : fds.fdData fd = some d)
    (hd' : fds.fdData fd' = some d') (hi : d.index = d'.index) : fd = fd' := by
  obtain ⟨_, p, hp, hf⟩ := h.fwd fd d hd
  obtain ⟨_, p', hp', hf'⟩ := h.fwd fd' d' hd'
  rw [hi, hp'] at hp
  obtain rfl := Option.some.inj hp
  rw [← hf, ← hf']

/-- Replacing the entry of a registered descriptor (same descriptor, new events) keeps the table consistent. -/
theorem set_inv {n fds} (h : Inv n fds) {fd d} (hd : fds.fdData fd = some d) (ev : Flags) (d' : FdData)
    (hi : d'.index = d.index) :
    Inv n ⟨fds.pollFds.set d.index (PollFd.new fd ev), mapInsert fds.fdData fd d'⟩ := by
  have hlt := inv_lt h hd
  have h1 := (h.fwd fd d hd).1
  refine ⟨?_, ?_, ?_, ?_⟩
  · obtain ⟨p, hp, hf⟩ := h.zero
    exact ⟨p, by rw [List.getElem?_set_ne (by omega)]; exact hp, hf⟩
  · intro x dx hx
    simp only [mapInsert] at hx
    by_cases hxf : x = fd
    · subst hxf
      simp only [if_true, Option.some.injEq] at hx
      subst hx
      rw [hi]
      exact ⟨h1, _, by rw [List.getElem?_set_self hlt], rfl⟩
    · rw [if_neg hxf] at hx
      obtain ⟨hx1, p, hp, hpf⟩ := h.fwd x dx hx
      have hne : d.index ≠ dx.index := fun he => hxf (inv_index_inj h hd hx he).symm
      exact ⟨hx1, p, by rw [List.getElem?_set_ne hne]; exact hp, hpf⟩
  · intro i p hi' hp
    by_cases hid : d.index = i
    · subst hid
      rw [List.getElem?_set_self hlt] at hp
      obtain rfl := Option.some.inj hp
      exact ⟨d', by simp [mapInsert, PollFd.new], hi⟩
    · rw [List.getElem?_set_ne hid] at hp
      obtain ⟨dx, hdx, hix⟩ := h.bwd i p hi' hp
      have hne : p.fd ≠ fd := by
        intro he; rw [he, hd] at hdx; obtain rfl := Option.some.inj hdx; exact hid hix
      exact ⟨dx, by simp [mapInsert, hne, hdx], hix⟩
  · intro x hx
    have := h.internal x hx
    have hne : x ≠ fd := by intro he; rw [he, hd] at this; simp at this
    simp [mapInsert, hne, this]

theorem set_rel {n fds m} (h : Inv n fds) (hr : Rel fds m) {fd d} (hd : fds.fdData fd = some d) (ev : Flags)
    (d' : FdData) (hi : d'.index = d.index) (r : Reg) (hk : r.key = d'.key) (ho : r.oneshot = d'.remove)
    (ha : ev = r.ask) :
    Rel ⟨fds.pollFds.set d.index (PollFd.new fd ev), mapInsert fds.fdData fd d'⟩ (m.set fd (some r)) := by
  intro x
  have hlt := inv_lt h hd
  by_cases hx : x = fd
  · subst hx
    refine .inr ⟨d', r, PollFd.new x ev, by simp [mapInsert], by simp [Map.set], ?_, hk, ho, ha⟩
    simp only [hi]
    rw [List.getElem?_set_self hlt]
  · rcases hr x with ⟨h1, h2⟩ | ⟨dx, rx, px, h1, h2, h3, h4, h5, h6⟩
    · exact .inl ⟨by simp [mapInsert, hx, h1], by simp [Map.set, hx, h2]⟩
    · have hne : d.index ≠ dx.index := fun he => hx (inv_index_inj h hd h1 he).symm
      refine .inr ⟨dx, rx, px, by simp [mapInsert, hx, h1], by simp [Map.set, hx, h2], ?_, h4, h5, h6⟩
      simp only
      rw [List.getElem?_set_ne hne]; exact h3

theorem add_spec {n fds m} (h : Inv n fds) (hr : Rel fds m) (fd : Fd) (ev : Event EventExtra) (mode : PollMode) :
    ∃ fds', add n fds fd ev mode = some ((apply n.hasFd m (.add fd ev mode)).1, fds') ∧
      Inv n fds' ∧ Rel fds' (apply n.hasFd m (.add fd ev mode)).2 := by
  unfold add
  simp only [apply]
  by_cases hn : n.hasFd fd = true
  · simp only [hn, if_true]; exact ⟨_, rfl, h, hr⟩
  · rw [if_neg hn, if_neg hn]
    rcases hr fd with ⟨h1, h2⟩ | ⟨d, r, p, h1, h2, _⟩
    · simp only [h1, h2, Option.isSome_none, Bool.false_eq_true, if_false]
      rcases supported_iff mode with ⟨hs, hc⟩ | ⟨hs, hc⟩
      · simp only [hs, hc, if_true]
        have hlen : 1 ≤ fds.pollFds.length := by
          obtain ⟨p, hp, _⟩ := h.zero
          have := (List.getElem?_eq_some_iff.1 hp).1
          omega
        refine ⟨_, rfl, ⟨?_, ?_, ?_, ?_⟩, ?_⟩
        · obtain ⟨p, hp, hf⟩ := h.zero
          exact ⟨p, by rw [List.getElem?_append_left (by omega)]; exact hp, hf⟩
        · intro x dx hx
          simp only [mapInsert] at hx
          by_cases hxf : x = fd
          · subst hxf
            simp only [if_true, Option.some.injEq] at hx
            subst hx
            exact ⟨hlen, PollFd.new x (pollEvents ev), by simp, rfl⟩
          · rw [if_neg hxf] at hx
            obtain ⟨hx1, p, hp, hpf⟩ := h.fwd x dx hx
            have := inv_lt h hx
            exact ⟨hx1, p, by rw [List.getElem?_append_left this]; exact hp, hpf⟩
        · intro i p hi hp
          by_cases hil : i < fds.pollFds.length
          · rw [List.getElem?_append_left hil] at hp
            obtain ⟨dx, hdx, hix⟩ := h.bwd i p hi hp
            have hne : p.fd ≠ fd := by intro he; rw [he, h1] at hdx; simp at hdx
            exact ⟨dx, by simp [mapInsert, hne, hdx], hix⟩
          · rw [List.getElem?_append_right (by omega)] at hp
            simp only [List.getElem?_singleton] at hp
            split at hp
            · obtain rfl := Option.some.inj hp
              exact ⟨⟨fds.pollFds.length, ev.key, mode == .oneshot⟩, by simp only [mapInsert, PollFd.new, if_true], by simp only; omega⟩
            · simp at hp
        · intro x hx
          have hne : x ≠ fd := by intro he; subst he; exact hn hx
          simp [mapInsert, hne, h.internal x hx]
        · intro x
          by_cases hx : x = fd
          · subst hx
            exact .inr ⟨⟨fds.pollFds.length, ev.key, mode == .oneshot⟩,
              ⟨ev.key, ev.readable, ev.writable, mode == .oneshot⟩, PollFd.new x (pollEvents ev), by simp only [mapInsert, if_true], by simp only [Map.set, if_true],
              by simp, rfl, rfl, rfl⟩
          · rcases hr x with ⟨g1, g2⟩ | ⟨dx, rx, px, g1, g2, g3, g4, g5, g6⟩
            · exact .inl ⟨by simp [mapInsert, hx, g1], by simp [Map.set, hx, g2]⟩
            · refine .inr ⟨dx, rx, px, by simp [mapInsert, hx, g1], by simp [Map.set, hx, g2], ?_, g4, g5, g6⟩
              rw [List.getElem?_append_left (inv_lt h g1)]; exact g3
      · simp only [hs, hc, Bool.false_eq_true, if_false]
        exact ⟨_, rfl, h, hr⟩
    · simp only [h1, h2, Option.isSome_some, if_true]
      exact ⟨_, rfl, h, hr⟩

theorem modify_spec {n fds m} (h : Inv n fds) (hr : Rel fds m) (fd : Fd) (ev : Event EventExtra) (mode : PollMode) :
    ∃ fds', modify n fds fd ev mode = some ((applyAsCoded n.hasFd m (.modify fd ev mode)).1, fds') ∧
      Inv n fds' ∧ Rel fds' (applyAsCoded n.hasFd m (.modify fd ev mode)).2 := by
  unfold modify
  simp only [applyAsCoded]
  by_cases hn : n.hasFd fd = true
  · simp only [hn, if_true]; exact ⟨_, rfl, h, hr⟩
  · rw [if_neg hn, if_neg hn]
    rcases hr fd with ⟨h1, h2⟩ | ⟨d, r, p, h1, h2, h3, h4, h5, h6⟩
    · simp only [h1, h2]; exact ⟨_, rfl, h, hr⟩
    · simp only [h1, h2, inv_lt h h1, if_true]
      rcases supported_iff mode with ⟨hs, hc⟩ | ⟨hs, hc⟩
      · simp only [hs, hc, if_true]
        exact ⟨_, rfl, set_inv h h1 _ _ rfl, set_rel h hr h1 _ ⟨d.index, ev.key, mode == .oneshot⟩ rfl ⟨ev.key, ev.readable, ev.writable, mode == .oneshot⟩ rfl rfl rfl⟩
      · simp only [hs, hc, Bool.false_eq_true, if_false]
        exact ⟨_, rfl, set_inv h h1 _ _ rfl, set_rel h hr h1 _ ⟨d.index, ev.key, d.remove⟩ rfl ⟨ev.key, ev.readable, ev.writable, r.oneshot⟩ rfl h5 rfl⟩

theorem delete_spec {n fds m} (h : Inv n fds) (hr : Rel fds m) (fd : Fd) :
    ∃ fds', delete n fds fd = some ((apply n.hasFd m (.delete fd)).1, fds') ∧
      Inv n fds' ∧ Rel fds' (apply n.hasFd m (.delete fd)).2 := by
  unfold delete
  simp only [apply]
  by_cases hn : n.hasFd fd = true
  · simp only [hn, if_true]; exact ⟨_, rfl, h, hr⟩
  · rw [if_neg hn, if_neg hn]
    rcases hr fd with ⟨h1, h2⟩ | ⟨d, r, p, h1, h2, h3, h4, h5, h6⟩
    · simp only [h1, h2, Option.isNone_none, if_true]; exact ⟨_, rfl, h, hr⟩
    · simp only [h1, h2, Option.isNone_some, Bool.false_eq_true, if_false]
      have hlt := inv_lt h h1
      have hd1 := (h.fwd fd d h1).1
      obtain ⟨l', hl', hlen, hget⟩ := swapRemove_some fds.pollFds d.index hlt
      simp only [hl']
      by_cases hlast : d.index < fds.pollFds.length - 1
      · -- another entry moves into the hole
        obtain ⟨q, hq⟩ : ∃ q, fds.pollFds[fds.pollFds.length - 1]? = some q :=
          ⟨_, List.getElem?_eq_getElem (by omega)⟩
        have hq' : l'[d.index]? = some q := by rw [hget, if_pos hlast, if_pos rfl, hq]
        obtain ⟨dq, hdq, hiq⟩ := h.bwd _ q (by omega) hq
        have hqfd : q.fd ≠ fd := by
          intro he; rw [he, h1] at hdq; obtain rfl := Option.some.inj hdq; omega
        simp only [hq', mapRemove, if_neg hqfd, hdq]
        refine ⟨_, rfl, ⟨?_, ?_, ?_, ?_⟩, ?_⟩
        · obtain ⟨p0, hp0, hf0⟩ := h.zero
          refine ⟨p0, ?_, hf0⟩
          rw [hget, if_pos (by omega), if_neg (by omega)]; exact hp0
        · intro x dx hx
          simp only [mapInsert, mapRemove] at hx
          by_cases hxq : x = q.fd
          · rw [if_pos hxq] at hx
            obtain rfl := Option.some.inj hx
            exact ⟨hd1, q, hq', hxq.symm⟩
          · rw [if_neg hxq] at hx
            by_cases hxf : x = fd
            · rw [if_pos hxf] at hx; simp at hx
            · rw [if_neg hxf] at hx
              obtain ⟨hx1, px, hpx, hpf⟩ := h.fwd x dx hx
              have hxlt := inv_lt h hx
              have hne1 : dx.index ≠ d.index := fun he => hxf (inv_index_inj h hx h1 he)
              have hne2 : dx.index ≠ fds.pollFds.length - 1 := fun he => hxq (inv_index_inj h hx hdq (by omega))
              exact ⟨hx1, px, by rw [hget, if_pos (by omega), if_neg hne1]; exact hpx, hpf⟩
        · intro i px hi hpx
          rw [hget] at hpx
          split at hpx
          · split at hpx
            · next hid =>
              rw [hq] at hpx
              obtain rfl := Option.some.inj hpx
              exact ⟨{ dq with index := d.index }, by simp only [mapInsert, if_true], hid.symm⟩
            · next hid =>
              obtain ⟨dx, hdx, hix⟩ := h.bwd i px hi hpx
              have hne1 : px.fd ≠ fd := by
                intro he; rw [he, h1] at hdx; obtain rfl := Option.some.inj hdx; exact hid hix.symm
              have hne2 : px.fd ≠ q.fd := by
                intro he; rw [he, hdq] at hdx; obtain rfl := Option.some.inj hdx; omega
              exact ⟨dx, by simp [mapRemove, mapInsert, hne1, hne2, hdx], hix⟩
          · simp at hpx
        · intro x hx
          have hxi := h.internal x hx
          have hne2 : x ≠ q.fd := by intro he; rw [he, hdq] at hxi; simp at hxi
          simp only [mapRemove, mapInsert, if_neg hne2]
          split
          · rfl
          · exact hxi
        · intro x
          by_cases hxq : x = q.fd
          · subst hxq
            rcases hr q.fd with ⟨g1, g2⟩ | ⟨dx, rx, px, g1, g2, g3, g4, g5, g6⟩
            · rw [g1] at hdq; simp at hdq
            · rw [hdq] at g1; obtain rfl := Option.some.inj g1
              rw [hiq, hq] at g3; obtain rfl := Option.some.inj g3
              exact .inr ⟨{ dq with index := d.index }, rx, q, by simp only [mapInsert, if_true], by simp [Map.set, hqfd, g2], hq', g4, g5, g6⟩
          · by_cases hxf : x = fd
            · subst hxf
              exact .inl ⟨by simp [mapRemove, mapInsert, hxq], by simp [Map.set]⟩
            · rcases hr x with ⟨g1, g2⟩ | ⟨dx, rx, px, g1, g2, g3, g4, g5, g6⟩
              · exact .inl ⟨by simp [mapRemove, mapInsert, hxq, hxf, g1], by simp [Map.set, hxf, g2]⟩
              · have hne1 : dx.index ≠ d.index := fun he => hxf (inv_index_inj h g1 h1 he)
                have hne2 : dx.index ≠ fds.pollFds.length - 1 := fun he => hxq (inv_index_inj h g1 hdq (by omega))
                have hxlt := inv_lt h g1
                exact .inr ⟨dx, rx, px, by simp [mapRemove, mapInsert, hxq, hxf, g1], by simp [Map.set, hxf, g2],
                  by rw [hget, if_pos (by omega), if_neg hne1]; exact g3, g4, g5, g6⟩
      · -- the removed entry was the last one
        have hnone : l'[d.index]? = none := by rw [hget, if_neg hlast]
        simp only [hnone]
        refine ⟨_, rfl, ⟨?_, ?_, ?_, ?_⟩, ?_⟩
        · obtain ⟨p0, hp0, hf0⟩ := h.zero
          refine ⟨p0, ?_, hf0⟩
          rw [hget, if_pos (by omega), if_neg (by omega)]; exact hp0
        · intro x dx hx
          simp only [mapRemove] at hx
          by_cases hxf : x = fd
          · rw [if_pos hxf] at hx; simp at hx
          · rw [if_neg hxf] at hx
            obtain ⟨hx1, px, hpx, hpf⟩ := h.fwd x dx hx
            have hxlt := inv_lt h hx
            have hne1 : dx.index ≠ d.index := fun he => hxf (inv_index_inj h hx h1 he)
            exact ⟨hx1, px, by rw [hget, if_pos (by omega), if_neg hne1]; exact hpx, hpf⟩
        · intro i px hi hpx
          rw [hget] at hpx
          split at hpx
          · rw [if_neg (by omega)] at hpx
            obtain ⟨dx, hdx, hix⟩ := h.bwd i px hi hpx
            have hne1 : px.fd ≠ fd := by
              intro he; rw [he, h1] at hdx; obtain rfl := Option.some.inj hdx; omega
            exact ⟨dx, by simp [mapRemove, hne1, hdx], hix⟩
          · simp at hpx
        · intro x hx
          simp only [mapRemove]
          split
          · rfl
          · exact h.internal x hx
        · intro x
          by_cases hxf : x = fd
          · subst hxf
            exact .inl ⟨by simp [mapRemove], by simp [Map.set]⟩
          · rcases hr x with ⟨g1, g2⟩ | ⟨dx, rx, px, g1, g2, g3, g4, g5, g6⟩
            · exact .inl ⟨by simp [mapRemove, hxf, g1], by simp [Map.set, hxf, g2]⟩
            · have hne1 : dx.index ≠ d.index := fun he => hxf (inv_index_inj h g1 h1 he)
              have hxlt := inv_lt h g1
              exact .inr ⟨dx, rx, px, by simp [mapRemove, hxf, g1], by simp [Map.set, hxf, g2],
                by rw [hget, if_pos (by omega), if_neg hne1]; exact g3, g4, g5, g6⟩

/-- Every registration call on the table does what the map does, and never panics. -/
theorem call_spec {n fds m} (h : Inv n fds) (hr : Rel fds m) (op : Op) :
    ∃ fds', call n fds op = some ((applyAsCoded n.hasFd m op).1, fds') ∧
      Inv n fds' ∧ Rel fds' (applyAsCoded n.hasFd m op).2 := by
  cases op with
  | add fd ev mode => exact add_spec h hr fd ev mode
  | modify fd ev mode => exact modify_spec h hr fd ev mode
  | delete fd => exact delete_spec h hr fd

/-! ### Collecting events -/

/-- `order` is a possible iteration order of the map. -/
def Enumerates (order : List Fd) (fds : Fds) : Prop :=
  order.Nodup ∧ ∀ fd, fd ∈ order ↔ (fds.fdData fd).isSome = true

/-- revents of a descriptor -/
def rev (fds : Fds) (fd : Fd) : Flags :=
  match fds.fdData fd with
  | none => 0#16
  | some d => match fds.pollFds[d.index]? with
    | none => 0#16
    | some p => p.revents

/-- The stored event of a descriptor. -/
def evOf (fds : Fds) (fd : Fd) : Event EventExtra :=
  match fds.fdData fd with
  | none => toEvent 0#64 0#16
  | some d => toEvent d.key (rev fds fd)

/-- Entry update done by the collection of the descriptors in `order`. -/
def upd (m : Fd → Option FdData) (order : List Fd) (p : PollFd) : PollFd :=
  if p.fd ∈ order ∧ p.revents ≠ 0#16 ∧ (m p.fd).any FdData.remove = true then PollFd.new p.fd 0#16 else p

theorem set_eq_upd {n fds} (h : Inv n fds) {fd d p} (hd : fds.fdData fd = some d) (hp : fds.pollFds[d.index]? = some p)
    (hre : p.revents ≠ 0#16) (hrm : d.remove = true) :
    fds.pollFds.set d.index (PollFd.new p.fd 0#16) = fds.pollFds.map (upd fds.fdData [fd]) := by
  obtain ⟨h1, p', hp', hpf⟩ := h.fwd fd d hd
  rw [hp] at hp'; obtain rfl := Option.some.inj hp'
  apply List.ext_getElem?
  intro j
  rw [List.getElem?_set, List.getElem?_map]
  have hlt := inv_lt h hd
  by_cases hj : d.index = j
  · subst hj
    simp only [if_true, hlt, hp, Option.map_some, upd]
    rw [if_pos ⟨by simp [hpf], hre, by rw [hpf, hd]; exact hrm⟩]
  · rw [if_neg hj]
    cases hq : fds.pollFds[j]? with
    | none => rfl
    | some q =>
      simp only [Option.map_some, upd]
      rw [if_neg]
      rintro ⟨hm, _, _⟩
      have hqf : q.fd = fd := by simpa using hm
      by_cases hj0 : 1 ≤ j
      · obtain ⟨dq, hdq, hiq⟩ := h.bwd j q hj0 hq
        rw [hqf, hd] at hdq
        obtain rfl := Option.some.inj hdq
        exact hj hiq
      · have : j = 0 := by omega
        subst this
        obtain ⟨p0, hp0, hf0⟩ := h.zero
        rw [hq] at hp0; obtain rfl := Option.some.inj hp0
        have := h.internal fd (by simp [NotifyFds.hasFd, ← hf0.1, hqf])
        rw [hd] at this; simp at this

theorem upd_fd (m order p) : (upd m order p).fd = p.fd := by
  unfold upd; split <;> rfl

theorem upd_upd (m : Fd → Option FdData) (fd : Fd) (order : List Fd) (_hnd : fd ∉ order) (p : PollFd) :
    upd m order (upd m [fd] p) = upd m (fd :: order) p := by
  unfold upd
  by_cases hf : p.fd = fd
  · by_cases hc : p.revents ≠ 0#16 ∧ (m p.fd).any FdData.remove = true
    · have h1 : p.fd ∈ [fd] ∧ p.revents ≠ 0#16 ∧ (m p.fd).any FdData.remove = true := ⟨by simp [hf], hc⟩
      have h2 : p.fd ∈ fd :: order ∧ p.revents ≠ 0#16 ∧ (m p.fd).any FdData.remove = true := ⟨by simp [hf], hc⟩
      rw [if_pos h1, if_pos h2]
      simp [PollFd.new]
    · have h1 : ¬ (p.fd ∈ [fd] ∧ p.revents ≠ 0#16 ∧ (m p.fd).any FdData.remove = true) := fun h => hc h.2
      have h2 : ¬ (p.fd ∈ fd :: order ∧ p.revents ≠ 0#16 ∧ (m p.fd).any FdData.remove = true) := fun h => hc h.2
      have h3 : ¬ (p.fd ∈ order ∧ p.revents ≠ 0#16 ∧ (m p.fd).any FdData.remove = true) := fun h => hc h.2
      rw [if_neg h1, if_neg h2, if_neg h3]
  · have h1 : ¬ (p.fd ∈ [fd] ∧ p.revents ≠ 0#16 ∧ (m p.fd).any FdData.remove = true) := fun h => hf (by simpa using h.1)
    rw [if_neg h1]
    by_cases h3 : p.fd ∈ order ∧ p.revents ≠ 0#16 ∧ (m p.fd).any FdData.remove = true
    · rw [if_pos h3, if_pos ⟨List.mem_cons_of_mem _ h3.1, h3.2⟩]
    · rw [if_neg h3, if_neg]
      rintro ⟨ha, hb⟩
      rcases List.mem_cons.1 ha with ha | ha
      · exact hf ha
      · exact h3 ⟨ha, hb⟩

theorem map_upd_inv {n fds} (h : Inv n fds) (order : List Fd) :
    Inv n { fds with pollFds := fds.pollFds.map (upd fds.fdData order) } := by
  refine ⟨?_, ?_, ?_, h.internal⟩
  · obtain ⟨p, hp, hf⟩ := h.zero
    refine ⟨upd fds.fdData order p, by simp only [List.getElem?_map, hp, Option.map_some], by rw [upd_fd]; exact hf.1, ?_⟩
    have : fds.fdData p.fd = none := h.internal p.fd (by simp [NotifyFds.hasFd, hf.1])
    simp [upd, this, hf.2]
  · intro fd d hd
    obtain ⟨h1, p, hp, hf⟩ := h.fwd fd d hd
    exact ⟨h1, upd fds.fdData order p, by simp only [List.getElem?_map, hp, Option.map_some], by rw [upd_fd]; exact hf⟩
  · intro i p hi hp
    simp only [List.getElem?_map, Option.map_eq_some_iff] at hp
    obtain ⟨q, hq, rfl⟩ := hp
    rw [upd_fd]
    exact h.bwd i q hi hq

theorem map_id_of {α : Type} (f : α → α) (l : List α) (h : ∀ a ∈ l, f a = a) : l.map f = l := by
  induction l with
  | nil => rfl
  | cons a l ih => simp [h a (by simp), ih (fun b hb => h b (by simp [hb]))]

theorem collect_spec {n} (k : Nat) (order : List Fd) (fds : Fds) (events : List (Event EventExtra)) (h : Inv n fds)
    (hnd : order.Nodup) (hmem : ∀ fd ∈ order, (fds.fdData fd).isSome = true)
    (hk : events.length + (order.filter fun fd => rev fds fd != 0#16).length = k) :
    collect k order fds events =
      some ({ fds with pollFds := fds.pollFds.map (upd fds.fdData order) },
        events ++ (order.filter fun fd => rev fds fd != 0#16).map (evOf fds)) := by
  induction order generalizing fds events with
  | nil =>
    simp only [collect, List.filter_nil, List.map_nil, List.append_nil]
    rw [map_id_of]
    intro p _
    simp [upd]
  | cons fd order ih =>
    obtain ⟨hnin, hnd'⟩ := List.nodup_cons.1 hnd
    obtain ⟨d, hd⟩ := Option.isSome_iff_exists.1 (hmem fd (by simp))
    obtain ⟨h1, p, hp, hpf⟩ := h.fwd fd d hd
    have hrev : rev fds fd = p.revents := by simp [rev, hd, hp]
    have hev : evOf fds fd = toEvent d.key p.revents := by simp [evOf, hd, hrev]
    unfold collect
    simp only [hd, hp]
    by_cases hz : p.revents = 0#16
    · -- nothing for this descriptor
      have hb : (p.revents != 0#16) = false := by simp [hz]
      have hb' : (rev fds fd != 0#16) = false := by rw [hrev]; exact hb
      simp only [hb, Bool.false_eq_true, if_false]
      rw [List.filter_cons_of_neg (by simp [hb'])] at hk
      rw [ih fds events h hnd' (fun x hx => hmem x (by simp [hx])) hk]
      rw [List.filter_cons_of_neg (by simp [hb'])]
      congr 3
      apply List.map_congr_left
      intro q hq
      unfold upd
      by_cases hqf : q.fd = fd
      · have : q.revents = 0#16 := by
          obtain ⟨j, hj, hjq⟩ := List.getElem_of_mem hq
          have hq? : fds.pollFds[j]? = some q := by rw [List.getElem?_eq_getElem hj, hjq]
          by_cases hj0 : 1 ≤ j
          · obtain ⟨dq, hdq, hiq⟩ := h.bwd j q hj0 hq?
            rw [hqf, hd] at hdq; obtain rfl := Option.some.inj hdq
            rw [hiq, hq?] at hp; obtain rfl := Option.some.inj hp
            exact hz
          · have : j = 0 := by omega
            subst this
            obtain ⟨p0, hp0, hf0⟩ := h.zero
            rw [hq?] at hp0; obtain rfl := Option.some.inj hp0
            have := h.internal fd (by simp [NotifyFds.hasFd, ← hf0.1, hqf])
            rw [hd] at this; simp at this
        simp [this]
      · simp [hqf]
    · have hb : (p.revents != 0#16) = true := by simp [hz]
      have hb' : (rev fds fd != 0#16) = true := by rw [hrev]; exact hb
      simp only [hb, if_true]
      rw [List.filter_cons_of_pos (by simp [hb'])] at hk ⊢
      simp only [List.map_cons, hev]
      -- the table after the possible removal of interest
      obtain ⟨fds1, hfds1, hdata1, hpoll1⟩ : ∃ fds1 : Fds,
          (if d.remove = true then
            { fds with pollFds := fds.pollFds.set d.index (PollFd.new p.fd 0#16) } else fds) = fds1 ∧
          fds1.fdData = fds.fdData ∧ fds1.pollFds = fds.pollFds.map (upd fds.fdData [fd]) := by
        refine ⟨_, rfl, ?_, ?_⟩
        · split <;> rfl
        · split
          · next hrm => exact set_eq_upd h hd hp hz hrm
          · next hrm =>
            rw [map_id_of]
            intro q _
            unfold upd
            rw [if_neg]
            rintro ⟨hm, _, hrx⟩
            have hqf : q.fd = fd := by simpa using hm
            rw [hqf, hd] at hrx
            exact hrm hrx
      rw [hfds1]
      have hfds1' : fds1 = { fds with pollFds := fds.pollFds.map (upd fds.fdData [fd]) } := by
        cases fds1; simp only at hdata1 hpoll1; subst hdata1; subst hpoll1; rfl
      have hinv1 : Inv n fds1 := by rw [hfds1']; exact map_upd_inv h [fd]
      have hrev1 : ∀ x ∈ order, rev fds1 x = rev fds x := by
        intro x hx
        have hxf : x ≠ fd := fun he => hnin (he ▸ hx)
        rw [hfds1']
        unfold rev
        obtain ⟨dx, hdx⟩ := Option.isSome_iff_exists.1 (hmem x (by simp [hx]))
        obtain ⟨_, px, hpx, hpxf⟩ := h.fwd x dx hdx
        simp only [hdx, List.getElem?_map, hpx, Option.map_some]
        unfold upd
        rw [if_neg]
        rintro ⟨hm, _⟩
        exact hxf (by rw [← hpxf]; simpa using hm)
      have hfilter : (order.filter fun x => rev fds1 x != 0#16) = order.filter fun x => rev fds x != 0#16 := by
        apply List.filter_congr
        intro x hx
        rw [hrev1 x hx]
      have hevs : (order.filter fun x => rev fds x != 0#16).map (evOf fds1) =
          (order.filter fun x => rev fds x != 0#16).map (evOf fds) := by
        apply List.map_congr_left
        intro x hx
        have hx' := (List.mem_filter.1 hx).1
        unfold evOf
        rw [hdata1, hrev1 x hx']
      have htab : fds1.pollFds.map (upd fds.fdData order) = fds.pollFds.map (upd fds.fdData (fd :: order)) := by
        rw [hpoll1, List.map_map]
        apply List.map_congr_left
        intro q _
        exact upd_upd _ _ _ hnin q
      by_cases hfull : (events ++ [toEvent d.key p.revents]).length = k
      · -- early exit: nothing else can be ready
        rw [if_pos hfull]
        have hnone : (order.filter fun x => rev fds x != 0#16) = [] := by
          simp only [List.length_append, List.length_cons, List.length_nil] at hfull hk
          exact List.eq_nil_of_length_eq_zero (by omega)
        rw [hnone]
        simp only [List.map_nil]
        congr 1
        rw [hfds1']
        congr 2
        apply List.map_congr_left
        intro q hq
        rw [← upd_upd _ _ _ hnin q]
        generalize hq' : upd fds.fdData [fd] q = q'
        unfold upd
        rw [if_neg]
        rintro ⟨hm, hre, _⟩
        have hqq : q'.fd = q.fd := by rw [← hq', upd_fd]
        have hx : q'.fd ∈ order := hm
        have : q' = q := by
          rw [← hq']; unfold upd; rw [if_neg]
          rintro ⟨hm2, _⟩
          have : q.fd = fd := by simpa using hm2
          rw [hqq, this] at hx; exact hnin hx
        subst this
        have hmf : q'.fd ∈ order.filter fun x => rev fds x != 0#16 := by
          refine List.mem_filter.2 ⟨hx, ?_⟩
          obtain ⟨dx, hdx⟩ := Option.isSome_iff_exists.1 (hmem q'.fd (by simp [hx]))
          obtain ⟨_, px, hpx, hpxf⟩ := h.fwd _ dx hdx
          have : px = q' := by
            obtain ⟨j, hj, hjq⟩ := List.getElem_of_mem hq
            have hq? : fds.pollFds[j]? = some q' := by rw [List.getElem?_eq_getElem hj, hjq]
            by_cases hj0 : 1 ≤ j
            · obtain ⟨dq, hdq, hiq⟩ := h.bwd j q' hj0 hq?
              rw [hdx] at hdq; obtain rfl := Option.some.inj hdq
              rw [hiq, hq?] at hpx; exact (Option.some.inj hpx).symm
            · have : j = 0 := by omega
              subst this
              obtain ⟨p0, hp0, hf0⟩ := h.zero
              rw [hq?] at hp0; obtain rfl := Option.some.inj hp0
              have := h.internal q'.fd (by simp [NotifyFds.hasFd, ← hf0.1])
              rw [hdx] at this; simp at this
          subst this
          simp [rev, hdx, hpx, hre]
        rw [hnone] at hmf
        simp at hmf
      · rw [if_neg hfull]
        rw [ih fds1 _ hinv1 hnd' (by rw [hdata1]; exact fun x hx => hmem x (by simp [hx]))
          (by rw [hfilter]; simp only [List.length_append, List.length_cons, List.length_nil] at hk ⊢; omega)]
        rw [hfilter, hevs, hdata1, htab]
        simp

end Polling.PollB
