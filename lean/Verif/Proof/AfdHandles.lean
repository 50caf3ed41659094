import Verif.Model.AfdHandles
import Verif.Proof.AfdGroups

/-! Invariants of the handles of the AFD helpers. -/

namespace Polling.AfdHandles
open AfdHSpec AfdSpec

theorem put_self {α : Type} (f : Nat → α) (x : Nat) (v : α) : put f x v x = v := if_pos rfl

theorem put_other {α : Type} (f : Nat → α) {x y : Nat} (v : α) (h : y ≠ x) : put f x v y = f y := if_neg h

/-- The handle that the thread that makes a helper has. -/
def Stage.has : Stage → HNo → Prop
  | .join x, h | .skip x, h | .push x, h | .drop x _, h => x = h
  | _, _ => False

/-- Somebody will close the handle. -/
def Held (s : S) (h : HNo) : Prop := s.stage.has h ∨ (∃ a, s.g.count a > 0 ∧ s.handle a = h) ∨ h ∈ s.closing

structure Inv (s : S) (tr : List HObs) : Prop where
  own : ∀ h, s.owner h = .poller ↔ Held s h
  ex1 : ∀ h, s.stage.has h → ∀ a, s.g.count a > 0 → s.handle a ≠ h
  ex2 : ∀ h, s.stage.has h → h ∉ s.closing
  ex3 : ∀ a b, s.g.count a > 0 → s.g.count b > 0 → s.handle a = s.handle b → a = b
  ex4 : ∀ a, s.g.count a > 0 → s.handle a ∉ s.closing
  nodup : s.closing.Nodup
  atEnd : s.stage ≠ .none → atEnd s.g = true
  ours : ∀ h, ours tr h = decide (s.owner h = .poller)
  others : ∀ h, others tr h = decide (s.owner h = .other)
  attached : ∀ h, attached tr h = s.joined h
  quiet : ∀ h, quiet tr h = s.skips h
  handle : ∀ a, a < s.g.next → handleOf tr a = some (s.handle a)
  used : ∀ a, s.g.count a > 0 → s.joined (s.handle a) = true ∧ s.skips (s.handle a) = true
  skip : ∀ h, s.stage = .skip h → s.joined h = true
  push : ∀ h, s.stage = .push h → s.joined h = true ∧ s.skips h = true

/-- A step of the search that does not make a helper. -/
theorem search_step {g g' : AfdGroups.S} {o : AObs} (he : atEnd g = false) (hs : AfdGroups.step g (.go none) = some (g', o)) :
    g'.next = g.next ∧ ∀ a, g'.count a > 0 ↔ g.count a > 0 := by
  simp only [AfdGroups.step] at hs
  split at hs
  · cases hs
  · rename_i t i hse
    split at hs
    · split at hs
      · simp only [AfdGroups.remove, Option.map_map, Option.map_eq_some_iff] at hs
        obtain ⟨l, _, he⟩ := hs; cases he; exact ⟨rfl, fun _ => Iff.rfl⟩
      · split at hs <;> cases hs <;> exact ⟨rfl, fun _ => Iff.rfl⟩
    · rename_i hn
      simp [atEnd, hse, hn] at he
  · split at hs
    · cases hs
    · rename_i a ha
      split at hs
      · simp only [AfdGroups.remove, Option.map_map, Option.map_eq_some_iff] at hs
        obtain ⟨l, _, he⟩ := hs; cases he; exact ⟨rfl, fun _ => Iff.rfl⟩
      · cases hs
        refine ⟨rfl, fun x => ?_⟩
        show (if x = a then g.count a + 1 else g.count x) > 0 ↔ _
        split
        · rename_i e; subst e; omega
        · exact Iff.rfl

/-- A helper is made, or not. -/
theorem end_step {g : AfdGroups.S} (he : atEnd g = true) (fault : Option Err) : ∃ t i, g.search = .look t i ∧
    AfdGroups.step g (.go fault) = match fault with
      | some e => some ({ g with search := .none }, .failed t e)
      | none => some ({ AfdGroups.setCount g g.next 1 with list := g.list ++ [g.next], next := g.next + 1, search := .none }, .created t g.next) := by
  unfold atEnd at he
  split at he
  · rename_i t i hse
    refine ⟨t, i, hse, ?_⟩
    have hn : g.list[i]? = none := by simpa using he
    simp only [AfdGroups.step, hse, hn]
    cases fault <;> rfl
  · cases he

theorem start_step {g g' : AfdGroups.S} {t o} (hs : AfdGroups.step g (.start t) = some (g', o)) :
    atEnd g = false ∧ g'.next = g.next ∧ g'.count = g.count := by
  simp only [AfdGroups.step] at hs
  split at hs
  · rename_i h; cases hs; exact ⟨by simp [atEnd, h], rfl, rfl⟩
  · cases hs

theorem release_step {g g' : AfdGroups.S} {a o} (hs : AfdGroups.step g (.release a) = some (g', o)) :
    g.count a > 0 ∧ o = .released a ∧ g' = AfdGroups.setCount g a (g.count a - 1) := by
  simp only [AfdGroups.step] at hs
  split at hs
  · rename_i h; cases hs; exact ⟨h, rfl, rfl⟩
  · cases hs

/-- The helpers behave as in `AfdGroups`. -/
theorem reach_helpers {s tr} (h : Reach s tr) : AfdGroups.Reach s.g (helpers tr) := by
  induction h with
  | init => exact .init
  | @step s tr a s' o _ hs ih =>
    cases a with
    | start t =>
      simp only [step, Option.map_eq_some_iff] at hs
      obtain ⟨⟨g', o'⟩, hg, he⟩ := hs; cases he
      exact ih.step hg
    | go h fault =>
      simp only [step] at hs
      split at hs
      · split at hs
        · split at hs
          · cases hs; exact ih
          · split at hs
            · cases hs; exact ih
            · cases hs
        · simp only [Option.map_eq_some_iff] at hs
          obtain ⟨⟨g', o'⟩, hg, he⟩ := hs; cases he
          exact ih.step hg
      · split at hs <;> cases hs <;> exact ih
      · split at hs <;> cases hs <;> exact ih
      · simp only [Option.bind_eq_some_iff] at hs
        obtain ⟨⟨g', o'⟩, hg, he⟩ := hs
        split at he
        · rename_i t a ho
          dsimp only at ho; subst ho
          cases he; exact ih.step hg
        · cases he
      · cases hs; exact ih
      · simp only [Option.map_eq_some_iff] at hs
        obtain ⟨⟨g', o'⟩, hg, he⟩ := hs; cases he
        exact ih.step hg
    | release a =>
      simp only [step, Option.map_eq_some_iff] at hs
      obtain ⟨⟨g', o'⟩, hg, he⟩ := hs; cases he
      exact ih.step hg
    | close i => simp only [step] at hs; split at hs <;> cases hs; exact ih
    | otherOpen h => simp only [step] at hs; split at hs <;> cases hs; exact ih
    | otherClose h => simp only [step] at hs; split at hs <;> cases hs; exact ih

/-- A step that concerns only the list of helpers. -/
theorem Inv.list {s : S} {tr : List HObs} (h : Inv s tr) {g' : AfdGroups.S} {o : AObs} (hst : s.stage = .none) (hn : g'.next = s.g.next)
    (hc : ∀ a, g'.count a > 0 ↔ s.g.count a > 0) : Inv { s with g := g' } (.helper o :: tr) where
  own x := by
    rw [show Held { s with g := g' } x ↔ Held s x by simp only [Held, hc]]
    exact h.own x
  ex1 x hx a ha := h.ex1 x hx a ((hc a).1 ha)
  ex2 := h.ex2
  ex3 a b ha hb := h.ex3 a b ((hc a).1 ha) ((hc b).1 hb)
  ex4 a ha := h.ex4 a ((hc a).1 ha)
  nodup := h.nodup
  atEnd hne := absurd hst hne
  ours := h.ours
  others := h.others
  attached := h.attached
  quiet := h.quiet
  handle a ha := h.handle a (hn ▸ ha)
  used a ha := h.used a ((hc a).1 ha)
  skip := h.skip
  push := h.push

/-- A handle is closed that nobody else has. -/
theorem Inv.close {s : S} {tr : List HObs} (h : Inv s tr) {x : HNo} (st : Stage) (cl : List HNo) (hp : s.owner x = .poller)
    (hst : ∀ y, st.has y → s.stage.has y) (hcl : ∀ y ∈ cl, y ∈ s.closing)
    (hback : ∀ y, y ≠ x → (s.stage.has y → st.has y) ∧ (y ∈ s.closing → y ∈ cl))
    (h1 : ¬ st.has x) (h2 : x ∉ cl) (h3 : ∀ a, s.g.count a > 0 → s.handle a ≠ x) (hnd : cl.Nodup) (hat : st ≠ .none → s.stage ≠ .none)
    (hsk : ∀ y, st = .skip y → s.stage = .skip y) (hpu : ∀ y, st = .push y → s.stage = .push y) :
    Inv { closeH s x with stage := st, closing := cl } (.closed x :: tr) where
  own y := by
    show put s.owner x .free y = .poller ↔ (st.has y ∨ (∃ a, s.g.count a > 0 ∧ s.handle a = y) ∨ y ∈ cl)
    by_cases e : y = x
    · subst e
      rw [put_self]
      refine ⟨nofun, ?_⟩
      rintro (h' | ⟨a, h', h''⟩ | h')
      · exact absurd h' h1
      · exact absurd h'' (h3 a h')
      · exact absurd h' h2
    · rw [put_other _ _ e, h.own y]
      constructor
      · rintro (h' | h' | h')
        · exact .inl ((hback y e).1 h')
        · exact .inr (.inl h')
        · exact .inr (.inr ((hback y e).2 h'))
      · rintro (h' | h' | h')
        · exact .inl (hst y h')
        · exact .inr (.inl h')
        · exact .inr (.inr (hcl y h'))
  ex1 y hy := h.ex1 y (hst y hy)
  ex2 y hy hm := h.ex2 y (hst y hy) (hcl y hm)
  ex3 := h.ex3
  ex4 a ha hm := h.ex4 a ha (hcl _ hm)
  nodup := hnd
  atEnd hne := h.atEnd (hat hne)
  ours y := by
    show (if y = x then false else AfdHSpec.ours tr y) = decide (put s.owner x .free y = .poller)
    by_cases e : y = x
    · subst e; rw [put_self, if_pos rfl]; rfl
    · rw [put_other _ _ e, if_neg e]; exact h.ours y
  others y := by
    show (if y = x then false else AfdHSpec.others tr y) = decide (put s.owner x .free y = .other)
    by_cases e : y = x
    · subst e; rw [put_self, if_pos rfl]; rfl
    · rw [put_other _ _ e, if_neg e]; exact h.others y
  attached := h.attached
  quiet := h.quiet
  handle := h.handle
  used := h.used
  skip y hy := h.skip y (hsk y hy)
  push y hy := h.push y (hpu y hy)

theorem reach_inv {s tr} (h : Reach s tr) : Inv s tr := by
  induction h with
  | init =>
    exact ⟨fun x => ⟨nofun, fun h => h.elim False.elim (fun h => h.elim (fun ⟨a, h, _⟩ => absurd h (Nat.lt_irrefl 0)) nofun)⟩, nofun, nofun,
      fun a b h => absurd h (Nat.lt_irrefl 0), fun a h => absurd h (Nat.lt_irrefl 0), .nil, fun h => absurd rfl h,
      fun _ => rfl, fun _ => rfl, fun _ => rfl, fun _ => rfl, fun a h => absurd h (Nat.not_lt_zero a), fun a h => absurd h (Nat.lt_irrefl 0), nofun, nofun⟩
  | @step s tr a s' o hr hs h =>
    have hg := AfdGroups.reach_inv (reach_helpers hr)
    cases a with
    | start t =>
      simp only [step, Option.map_eq_some_iff] at hs
      obtain ⟨⟨g', o'⟩, hgs, he⟩ := hs; cases he
      obtain ⟨h1, h2, h3⟩ := start_step hgs
      refine h.list ?_ h2 (fun a => by rw [h3])
      cases hst : s.stage <;> first | rfl | (have := h.atEnd (by rw [hst]; nofun); rw [h1] at this; cases this)
    | go x fault =>
      simp only [step] at hs
      split at hs
      · rename_i hst
        split at hs
        · rename_i hend
          split at hs
          · cases hs
            refine ⟨fun x => ?_, nofun, nofun, h.ex3, h.ex4, h.nodup, fun _ => hend, h.ours, h.others, h.attached, h.quiet, h.handle, h.used, nofun, nofun⟩
            rw [h.own x]; simp only [Held, hst, Stage.has]
          · split at hs
            · rename_i hfree
              cases hs
              have hno : ¬ Held s x := fun hh => by rw [(h.own x).2 hh] at hfree; cases hfree
              have hua : ∀ a, s.g.count a > 0 → s.handle a ≠ x := fun a ha e => hno (.inr (.inl ⟨a, ha, e⟩))
              refine ⟨fun y => ?_, ?_, ?_, h.ex3, h.ex4, h.nodup, fun _ => hend, fun y => ?_, fun y => ?_, fun y => ?_, fun y => ?_, h.handle, ?_, nofun, nofun⟩
              · show put s.owner x .poller y = .poller ↔ (x = y ∨ (∃ a, s.g.count a > 0 ∧ s.handle a = y) ∨ y ∈ s.closing)
                by_cases e : y = x
                · subst e; rw [put_self]; exact ⟨fun _ => .inl rfl, fun _ => rfl⟩
                · rw [put_other _ _ e, h.own y]
                  simp only [Held, hst, Stage.has, false_or]
                  exact ⟨fun h => .inr h, fun h => h.resolve_left (fun h => e h.symm)⟩
              · intro y hy a ha
                cases (show x = y from hy); exact hua a ha
              · intro y hy hm
                cases (show x = y from hy); exact hno (.inr (.inr hm))
              · show (if y = x then true else AfdHSpec.ours tr y) = decide (put s.owner x .poller y = .poller)
                by_cases e : y = x
                · subst e; rw [put_self, if_pos rfl]; rfl
                · rw [put_other _ _ e, if_neg e]; exact h.ours y
              · show AfdHSpec.others tr y = decide (put s.owner x .poller y = .other)
                by_cases e : y = x
                · subst e; rw [put_self, h.others, hfree]; rfl
                · rw [put_other _ _ e]; exact h.others y
              · show (if y = x then false else AfdHSpec.attached tr y) = put s.joined x false y
                by_cases e : y = x
                · subst e; rw [put_self, if_pos rfl]
                · rw [put_other _ _ e, if_neg e]; exact h.attached y
              · show (if y = x then false else AfdHSpec.quiet tr y) = put s.skips x false y
                by_cases e : y = x
                · subst e; rw [put_self, if_pos rfl]
                · rw [put_other _ _ e, if_neg e]; exact h.quiet y
              · intro a ha
                show put s.joined x false (s.handle a) = true ∧ put s.skips x false (s.handle a) = true
                rw [put_other _ _ (hua a ha), put_other _ _ (hua a ha)]; exact h.used a ha
            · cases hs
        · rename_i hend
          simp only [Option.map_eq_some_iff] at hs
          obtain ⟨⟨g', o'⟩, hgs, he⟩ := hs; cases he
          obtain ⟨h1, h2⟩ := search_step (by simpa using hend) hgs
          exact h.list hst h1 h2
      · rename_i y hst
        split at hs
        · cases hs
          refine ⟨fun x => ?_, fun x hx => h.ex1 x (by rw [hst]; exact hx), fun x hx => h.ex2 x (by rw [hst]; exact hx), h.ex3, h.ex4, h.nodup,
            fun _ => h.atEnd (by rw [hst]; nofun), h.ours, h.others, h.attached, h.quiet, h.handle, h.used, nofun, nofun⟩
          rw [h.own x]; simp only [Held, hst, Stage.has]
        · cases hs
          refine ⟨fun x => ?_, fun x hx => h.ex1 x (by rw [hst]; exact hx), fun x hx => h.ex2 x (by rw [hst]; exact hx), h.ex3, h.ex4, h.nodup,
            fun _ => h.atEnd (by rw [hst]; nofun), h.ours, h.others, fun z => ?_, h.quiet, h.handle, ?_, ?_, nofun⟩
          · rw [h.own x]; simp only [Held, hst, Stage.has]
          · show (if z = y then true else AfdHSpec.attached tr z) = put s.joined y true z
            by_cases e : z = y
            · subst e; rw [put_self, if_pos rfl]
            · rw [put_other _ _ e, if_neg e]; exact h.attached z
          · intro a ha
            have hne := h.ex1 y (by rw [hst]; rfl) a ha
            show put s.joined y true (s.handle a) = true ∧ _
            rw [put_other _ _ hne]; exact h.used a ha
          · intro z hz
            cases hz; exact put_self _ _ _
      · rename_i y hst
        split at hs
        · cases hs
          refine ⟨fun x => ?_, fun x hx => h.ex1 x (by rw [hst]; exact hx), fun x hx => h.ex2 x (by rw [hst]; exact hx), h.ex3, h.ex4, h.nodup,
            fun _ => h.atEnd (by rw [hst]; nofun), h.ours, h.others, h.attached, h.quiet, h.handle, h.used, nofun, nofun⟩
          rw [h.own x]; simp only [Held, hst, Stage.has]
        · cases hs
          refine ⟨fun x => ?_, fun x hx => h.ex1 x (by rw [hst]; exact hx), fun x hx => h.ex2 x (by rw [hst]; exact hx), h.ex3, h.ex4, h.nodup,
            fun _ => h.atEnd (by rw [hst]; nofun), h.ours, h.others, h.attached, fun z => ?_, h.handle, ?_, nofun, ?_⟩
          · rw [h.own x]; simp only [Held, hst, Stage.has]
          · show (if z = y then true else AfdHSpec.quiet tr z) = put s.skips y true z
            by_cases e : z = y
            · subst e; rw [put_self, if_pos rfl]
            · rw [put_other _ _ e, if_neg e]; exact h.quiet z
          · intro a ha
            have hne := h.ex1 y (by rw [hst]; rfl) a ha
            show _ ∧ put s.skips y true (s.handle a) = true
            rw [put_other _ _ hne]; exact h.used a ha
          · intro z hz
            cases hz; exact ⟨h.skip y hst, put_self _ _ _⟩
      · rename_i y hst
        simp only [Option.bind_eq_some_iff] at hs
        obtain ⟨⟨g', o'⟩, hgs, he⟩ := hs
        obtain ⟨t, i, _, hgs'⟩ := end_step (h.atEnd (by rw [hst]; nofun)) none
        rw [hgs'] at hgs
        cases hgs
        cases he
        have hy := h.ex1 y (by rw [hst]; rfl)
        have hy2 := h.ex2 y (by rw [hst]; rfl)
        have hcount : ∀ a, (AfdGroups.setCount s.g s.g.next 1).count a > 0 → a = s.g.next ∨ (a ≠ s.g.next ∧ s.g.count a > 0) := by
          intro a ha
          by_cases e : a = s.g.next
          · exact .inl e
          · refine .inr ⟨e, ?_⟩
            have : (if a = s.g.next then 1 else s.g.count a) > 0 := ha
            rwa [if_neg e] at this
        have hcount' : ∀ a, s.g.count a > 0 → a ≠ s.g.next ∧ (AfdGroups.setCount s.g s.g.next 1).count a > 0 := by
          intro a ha
          have e : a ≠ s.g.next := fun e => by rw [e, hg.fresh _ (Nat.le_refl _)] at ha; exact absurd ha (Nat.lt_irrefl 0)
          refine ⟨e, ?_⟩
          show (if a = s.g.next then 1 else s.g.count a) > 0
          rwa [if_neg e]
        refine ⟨fun z => ?_, nofun, nofun, ?_, ?_, h.nodup, fun hne => absurd rfl hne, h.ours, h.others, h.attached, h.quiet, ?_, ?_, nofun, nofun⟩
        · show s.owner z = .poller ↔ (False ∨ (∃ a, (AfdGroups.setCount s.g s.g.next 1).count a > 0 ∧ put s.handle s.g.next y a = z) ∨ z ∈ s.closing)
          rw [h.own z, false_or]
          constructor
          · rintro (h' | ⟨a, h1, h2⟩ | h')
            · rw [hst] at h'; cases (show y = z from h')
              refine .inl ⟨s.g.next, ?_, put_self _ _ _⟩
              show (if s.g.next = s.g.next then 1 else _) > 0
              rw [if_pos rfl]; exact Nat.one_pos
            · exact .inl ⟨a, (hcount' a h1).2, by rw [put_other _ _ (hcount' a h1).1]; exact h2⟩
            · exact .inr h'
          · rintro (⟨a, h1, h2⟩ | h')
            · rcases hcount a h1 with e | ⟨e, h1⟩
              · subst e; rw [put_self] at h2; subst h2; exact .inl (by rw [hst]; rfl)
              · rw [put_other _ _ e] at h2; exact .inr (.inl ⟨a, h1, h2⟩)
            · exact .inr (.inr h')
        · intro a b ha hb he
          replace he : put s.handle s.g.next y a = put s.handle s.g.next y b := he
          rcases hcount a ha with e | ⟨e, ha⟩ <;> rcases hcount b hb with e' | ⟨e', hb⟩
          · rw [e, e']
          · rw [e, put_self, put_other _ _ e'] at he; exact absurd he.symm (hy b hb)
          · rw [e', put_self, put_other _ _ e] at he; exact absurd he (hy a ha)
          · rw [put_other _ _ e, put_other _ _ e'] at he; exact h.ex3 a b ha hb he
        · intro a ha
          show put s.handle s.g.next y a ∉ s.closing
          rcases hcount a ha with e | ⟨e, ha⟩
          · rw [e, put_self]; exact hy2
          · rw [put_other _ _ e]; exact h.ex4 a ha
        · intro a ha
          show (if a = s.g.next then some y else handleOf tr a) = some (put s.handle s.g.next y a)
          by_cases e : a = s.g.next
          · rw [if_pos e, e, put_self]
          · rw [if_neg e, put_other _ _ e]; exact h.handle a (by have : a < s.g.next + 1 := ha; omega)
        · intro a ha
          show s.joined (put s.handle s.g.next y a) = true ∧ s.skips (put s.handle s.g.next y a) = true
          rcases hcount a ha with e | ⟨e, ha⟩
          · rw [e, put_self]; exact h.push y hst
          · rw [put_other _ _ e]; exact h.used a ha
      · rename_i y e hst
        cases hs
        have hy := h.ex1 y (by rw [hst]; rfl)
        have hy2 := h.ex2 y (by rw [hst]; rfl)
        exact h.close (.fail e) s.closing ((h.own y).2 (.inl (by rw [hst]; rfl))) (fun z hz => hz.elim) (fun _ h => h)
          (fun z hz => ⟨fun h' => by rw [hst] at h'; exact absurd h'.symm hz, id⟩) id hy2 hy h.nodup (fun _ => by rw [hst]; nofun) nofun nofun
      · rename_i e hst
        simp only [Option.map_eq_some_iff] at hs
        obtain ⟨⟨g', o'⟩, hgs, he⟩ := hs
        cases he
        obtain ⟨t, i, _, hgs'⟩ := end_step (h.atEnd (by rw [hst]; nofun)) (some e)
        rw [hgs'] at hgs
        cases hgs
        refine ⟨fun x => ?_, nofun, nofun, h.ex3, h.ex4, h.nodup, fun hne => absurd rfl hne, h.ours, h.others, h.attached, h.quiet, h.handle, h.used, nofun, nofun⟩
        rw [h.own x]; simp only [Held, hst, Stage.has]
    | release a =>
      simp only [step, Option.map_eq_some_iff] at hs
      obtain ⟨⟨g', o'⟩, hgs, he⟩ := hs; cases he
      obtain ⟨hpos, rfl, rfl⟩ := release_step hgs
      have hca : (AfdGroups.setCount s.g a (s.g.count a - 1)).count a = s.g.count a - 1 := if_pos rfl
      have hco : ∀ b, b ≠ a → (AfdGroups.setCount s.g a (s.g.count a - 1)).count b = s.g.count b := fun b hb => if_neg hb
      have hle : ∀ b, (AfdGroups.setCount s.g a (s.g.count a - 1)).count b > 0 → s.g.count b > 0 := by
        intro b hb
        by_cases e : b = a
        · rw [e]; exact hpos
        · rwa [hco b e] at hb
      dsimp only
      have hend : s.stage ≠ .none → AfdHandles.atEnd (AfdGroups.setCount s.g a (s.g.count a - 1)) = true := h.atEnd
      split
      · rename_i hz
        rw [hca] at hz
        have hne : ∀ b, (AfdGroups.setCount s.g a (s.g.count a - 1)).count b > 0 → b ≠ a := by
          intro b hb e; rw [e, hca, hz] at hb; exact absurd hb (Nat.lt_irrefl 0)
        refine ⟨fun z => ?_, fun x hx b hb => h.ex1 x hx b (hle b hb), ?_, fun b c hb hc => h.ex3 b c (hle b hb) (hle c hc), ?_, ?_, hend, h.ours, h.others,
          h.attached, h.quiet, h.handle, fun b hb => h.used b (hle b hb), h.skip, h.push⟩
        · rw [h.own z]
          simp only [Held, List.mem_cons]
          constructor
          · rintro (h' | ⟨b, h1, h2⟩ | h')
            · exact .inl h'
            · by_cases e : b = a
              · subst e; exact .inr (.inr (.inl h2.symm))
              · exact .inr (.inl ⟨b, by rw [hco b e]; exact h1, h2⟩)
            · exact .inr (.inr (.inr h'))
          · rintro (h' | ⟨b, h1, h2⟩ | h' | h')
            · exact .inl h'
            · exact .inr (.inl ⟨b, hle b h1, h2⟩)
            · exact .inr (.inl ⟨a, hpos, h'.symm⟩)
            · exact .inr (.inr h')
        · intro x hx hm
          rcases List.mem_cons.1 hm with e | hm
          · exact h.ex1 x hx a hpos e.symm
          · exact h.ex2 x hx hm
        · intro b hb hm
          rcases List.mem_cons.1 hm with e | hm
          · exact hne b hb (h.ex3 b a (hle b hb) hpos e)
          · exact h.ex4 b (hle b hb) hm
        · exact List.nodup_cons.2 ⟨h.ex4 a hpos, h.nodup⟩
      · rename_i hz
        rw [hca] at hz
        have hiff : ∀ b, (AfdGroups.setCount s.g a (s.g.count a - 1)).count b > 0 ↔ s.g.count b > 0 := by
          intro b
          refine ⟨hle b, fun hb => ?_⟩
          by_cases e : b = a
          · rw [e, hca]; omega
          · rwa [hco b e]
        refine ⟨fun z => ?_, fun x hx b hb => h.ex1 x hx b (hle b hb), h.ex2, fun b c hb hc => h.ex3 b c (hle b hb) (hle c hc), fun b hb => h.ex4 b (hle b hb), h.nodup, hend, h.ours, h.others,
          h.attached, h.quiet, h.handle, fun b hb => h.used b (hle b hb), h.skip, h.push⟩
        rw [h.own z]
        simp only [Held, hiff]
    | close i =>
      simp only [step] at hs
      split at hs
      · rename_i x hx
        cases hs
        have hm : x ∈ s.closing := List.mem_iff_getElem?.2 ⟨i, hx⟩
        have hi : i < s.closing.length := (List.getElem?_eq_some_iff.1 hx).1
        refine h.close s.stage (s.closing.eraseIdx i) ((h.own x).2 (.inr (.inr hm))) (fun _ h => h) (fun y hy => List.mem_of_mem_eraseIdx hy)
          (fun y hy => ⟨id, fun h' => ?_⟩) (fun h' => h.ex2 x h' hm) ?_ (fun a ha e => h.ex4 a ha (e ▸ hm)) ?_ id (fun _ h => h) (fun _ h => h)
        · obtain ⟨j, hj⟩ := List.mem_iff_getElem?.1 h'
          exact List.mem_eraseIdx_iff_getElem?.2 ⟨j, fun e => by subst e; rw [hx] at hj; cases hj; exact hy rfl, hj⟩
        · intro h'
          obtain ⟨j, hj, hj'⟩ := List.mem_eraseIdx_iff_getElem?.1 h'
          exact hj ((List.getElem?_inj hi h.nodup).1 (hx.trans hj'.symm)).symm
        · exact h.nodup.sublist (List.eraseIdx_sublist ..)
      · cases hs
    | otherOpen x =>
      simp only [step] at hs
      split at hs
      · rename_i hfree
        cases hs
        have hno : ¬ Held s x := fun hh => by rw [(h.own x).2 hh] at hfree; cases hfree
        refine ⟨fun y => ?_, h.ex1, h.ex2, h.ex3, h.ex4, h.nodup, h.atEnd, fun y => ?_, fun y => ?_, h.attached, h.quiet, h.handle, h.used, h.skip, h.push⟩
        · show put s.owner x .other y = .poller ↔ Held s y
          by_cases e : y = x
          · subst e; rw [put_self]; exact ⟨nofun, fun h' => absurd h' hno⟩
          · rw [put_other _ _ e]; exact h.own y
        · show AfdHSpec.ours tr y = decide (put s.owner x .other y = .poller)
          by_cases e : y = x
          · subst e; rw [put_self, h.ours, hfree]; rfl
          · rw [put_other _ _ e]; exact h.ours y
        · show (if y = x then true else AfdHSpec.others tr y) = decide (put s.owner x .other y = .other)
          by_cases e : y = x
          · subst e; rw [put_self, if_pos rfl]; rfl
          · rw [put_other _ _ e, if_neg e]; exact h.others y
      · cases hs
    | otherClose x =>
      simp only [step] at hs
      split at hs
      · rename_i hfree
        cases hs
        have hno : ¬ Held s x := fun hh => by rw [(h.own x).2 hh] at hfree; cases hfree
        refine ⟨fun y => ?_, h.ex1, h.ex2, h.ex3, h.ex4, h.nodup, h.atEnd, fun y => ?_, fun y => ?_, h.attached, h.quiet, h.handle, h.used, h.skip, h.push⟩
        · show put s.owner x .free y = .poller ↔ Held s y
          by_cases e : y = x
          · subst e; rw [put_self]; exact ⟨nofun, fun h' => absurd h' hno⟩
          · rw [put_other _ _ e]; exact h.own y
        · show AfdHSpec.ours tr y = decide (put s.owner x .free y = .poller)
          by_cases e : y = x
          · subst e; rw [put_self, h.ours, hfree]; rfl
          · rw [put_other _ _ e]; exact h.ours y
        · show (if y = x then false else AfdHSpec.others tr y) = decide (put s.owner x .free y = .other)
          by_cases e : y = x
          · subst e; rw [put_self, if_pos rfl]; rfl
          · rw [put_other _ _ e, if_neg e]; exact h.others y
      · cases hs

end Polling.AfdHandles
