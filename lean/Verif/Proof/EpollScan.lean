import Verif.Model.EpollM
import Verif.Proof.Bits

/-! The kernel part of the epoll machine: the ready list and its scan. -/

namespace Polling.EpollM
open Epoll Spec

/-- An item after it has been reported once. -/
def disarm (it : Item) : Item :=
  if intersects it.events ONESHOT then { it with events := it.events &&& PRIVATE } else it

/-- Conditions reported for a descriptor. -/
def rev (rdy : Fd → Flags) (items : Fd → Option Item) (fd : Fd) : Flags :=
  match items fd with
  | none => 0#32
  | some it => rdy fd &&& it.events &&& ~~~PRIVATE

/-- It would be reported. -/
def hot (rdy : Fd → Flags) (items : Fd → Option Item) (fd : Fd) : Bool := rev rdy items fd != 0#32

/-- The raw event of a descriptor. -/
def rawOf (rdy : Fd → Flags) (items : Fd → Option Item) (fd : Fd) : Fd × RawEvent :=
  (fd, ⟨((items fd).map Item.data).getD 0#64, rev rdy items fd⟩)

/-- Level-triggered. -/
def lvl (items : Fd → Option Item) (fd : Fd) : Bool :=
  (items fd).any fun it => !intersects it.events ONESHOT && !intersects it.events ET

theorem hot_congr {rdy items items'} {fd : Fd} (h : items' fd = items fd) :
    hot rdy items' fd = hot rdy items fd ∧ rawOf rdy items' fd = rawOf rdy items fd ∧
    lvl items' fd = lvl items fd := by
  simp [hot, rev, rawOf, lvl, h]

theorem scan_spec (rdy : Fd → Flags) (room : Nat) (l : List Fd) (items : Fd → Option Item) (hnd : l.Nodup) :
    ∃ pre, l = pre ++ (scan rdy room l items).rest ∧
      (scan rdy room l items).evs = (pre.filter (hot rdy items)).map (rawOf rdy items) ∧
      (pre.filter (hot rdy items)).length ≤ room ∧
      ((scan rdy room l items).rest = [] ∨ (pre.filter (hot rdy items)).length = room) ∧
      (scan rdy room l items).back = (pre.filter (hot rdy items)).filter (lvl items) ∧
      (scan rdy room l items).items =
        fun x => if x ∈ pre.filter (hot rdy items) then (items x).map disarm else items x := by
  induction l generalizing room items with
  | nil => refine ⟨[], ?_⟩; cases room <;> simp [scan]
  | cons fd l ih =>
    obtain ⟨hnin, hnd'⟩ := List.nodup_cons.1 hnd
    cases room with
    | zero => exact ⟨[], by simp [scan]⟩
    | succ room =>
      unfold scan
      cases hi : items fd with
      | none =>
        obtain ⟨pre, h1, h2, h3, h4, h5, h6⟩ := ih (room + 1) items hnd'
        have hh : hot rdy items fd = false := by simp [hot, rev, hi]
        refine ⟨fd :: pre, ?_⟩
        rw [List.filter_cons_of_neg (by simp [hh])]
        exact ⟨by rw [List.cons_append, ← h1], h2, h3, h4, h5, h6⟩
      | some it =>
        simp only
        by_cases hz : rdy fd &&& it.events &&& ~~~PRIVATE = 0#32
        · obtain ⟨pre, h1, h2, h3, h4, h5, h6⟩ := ih (room + 1) items hnd'
          have hh : hot rdy items fd = false := by simp [hot, rev, hi, hz]
          refine ⟨fd :: pre, ?_⟩
          rw [if_pos hz, List.filter_cons_of_neg (by simp [hh])]
          exact ⟨by rw [List.cons_append, ← h1], h2, h3, h4, h5, h6⟩
        · have hh : hot rdy items fd = true := by simp [hot, rev, hi, hz]
          rw [if_neg hz]
          generalize hit : (if intersects it.events ONESHOT = true then
            fun x => if x = fd then some { it with events := it.events &&& PRIVATE } else items x else items) = items'
          have hx : ∀ x, x ≠ fd → items' x = items x := by
            intro x hx; rw [← hit]; split <;> simp [hx]
          have hfd : items' fd = some (disarm it) := by
            rw [← hit, disarm]; split <;> simp [hi]
          obtain ⟨pre, h1, h2, h3, h4, h5, h6⟩ := ih room items' hnd'
          have hpl : ∀ x ∈ pre, x ∈ l := by
            intro x hxp; rw [h1]; exact List.mem_append_left _ hxp
          have hne : ∀ x ∈ pre, x ≠ fd := by
            intro x hxp he; subst he; exact hnin (hpl x hxp)
          have hfil : pre.filter (hot rdy items') = pre.filter (hot rdy items) :=
            List.filter_congr fun x hxp => (hot_congr (hx x (hne x hxp))).1
          have hnfil : fd ∉ pre.filter (hot rdy items) := by
            intro hm; exact hnin (hpl _ (List.mem_filter.1 hm).1)
          refine ⟨fd :: pre, ?_⟩
          rw [List.filter_cons_of_pos hh]
          rw [hfil] at h2 h3 h4 h5 h6
          refine ⟨by rw [List.cons_append, ← h1], ?_, by simp; omega, ?_, ?_, ?_⟩
          · simp only [List.map_cons]
            rw [h2]
            congr 1
            · simp [rawOf, hi, rev]
            · apply List.map_congr_left
              intro x hxf
              exact (hot_congr (hx x (hne x (List.mem_filter.1 hxf).1))).2.1
          · rcases h4 with h4 | h4
            · exact .inl h4
            · exact .inr (by simp [h4])
          · rw [List.filter_cons]
            have : (List.filter (lvl items') (List.filter (hot rdy items) pre)) =
                (List.filter (lvl items) (List.filter (hot rdy items) pre)) :=
              List.filter_congr fun x hxf => (hot_congr (rdy := rdy) (hx x (hne x (List.mem_filter.1 hxf).1))).2.2
            rw [h5, this]
            have hl : lvl items fd = (!intersects it.events ONESHOT && !intersects it.events ET) := by
              simp [lvl, hi]
            rw [hl]
          · rw [h6]
            funext x
            by_cases hxe : x = fd
            · subst hxe
              rw [if_neg hnfil, if_pos (by simp), hfd, hi]; rfl
            · by_cases hm : x ∈ pre.filter (hot rdy items)
              · rw [if_pos hm, if_pos (by simp [hm]), hx x hxe]
              · rw [if_neg hm, if_neg (by simp only [List.mem_cons, not_or]; exact ⟨hxe, hm⟩), hx x hxe]

/-! `link` -/

theorem link_eq (k : Kern) (fd : Fd) (key : Flags) :
    link k fd key = { k with rdl := (link k fd key).rdl } := by
  unfold link
  split
  · rfl
  · split <;> rfl

theorem link_mem (k : Kern) (fd : Fd) (key : Flags) (x : Fd) :
    x ∈ (link k fd key).rdl ↔ x ∈ k.rdl ∨ (x = fd ∧ ∃ it, k.items fd = some it ∧ key &&& it.events &&& ~~~PRIVATE ≠ 0#32) := by
  unfold link
  cases hi : k.items fd with
  | none => simp
  | some it =>
    simp only
    split
    · next h => simp [h.1]
    · next h =>
      constructor
      · exact .inl
      · rintro (hx | ⟨rfl, it', he, hk⟩)
        · exact hx
        · simp only [Option.some.injEq] at he; subst he
          exact Classical.byContradiction fun hc => h ⟨hk, hc⟩

theorem link_nodup (k : Kern) (fd : Fd) (key : Flags) (h : k.rdl.Nodup) : (link k fd key).rdl.Nodup := by
  unfold link
  split
  · exact h
  · split
    · next hc =>
      simp only
      rw [List.nodup_append]
      refine ⟨h, by simp, ?_⟩
      intro a ha b hb
      simp only [List.mem_singleton] at hb
      rintro rfl
      exact hc.2 (hb ▸ ha)
    · exact h

/-- The old ready list is a prefix: nothing already queued moves. -/
theorem link_prefix (k : Kern) (fd : Fd) (key : Flags) : k.rdl <+: (link k fd key).rdl := by
  unfold link
  split
  · exact List.prefix_refl _
  · split
    · exact List.prefix_append _ _
    · exact List.prefix_refl _

end Polling.EpollM
