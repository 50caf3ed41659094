import Verif.Model.AfdGroups
import Verif.Proof.PollTable

/-! Invariants of the list of AFD helper handles. -/

namespace Polling.AfdGroups
open AfdSpec

theorem remove_some {s : S} {i : Nat} (hi : i < s.list.length) : ∃ l, remove s i = some { s with list := l } ∧ l.length = s.list.length - 1 ∧
    (∀ j, l[j]? = if j < s.list.length - 1 then (if j = i then s.list[s.list.length - 1]? else s.list[j]?) else none) := by
  obtain ⟨l, h1, h2, h3⟩ := PollB.swapRemove_some s.list i hi
  exact ⟨l, by simp [remove, h1], h2, h3⟩

/-- Elements before `i` stay where they are; every other element is still there, after `i`, except the removed one. -/
theorem remove_mem {l l' : List Nat} {i : Nat} (hi : i < l.length) (hlen : l'.length = l.length - 1)
    (hget : ∀ j, l'[j]? = if j < l.length - 1 then (if j = i then l[l.length - 1]? else l[j]?) else none) :
    (∀ j, j < i → l'[j]? = l[j]?) ∧ (∀ x, x ∈ l' → x ∈ l) ∧ (∀ x, x ∈ l → some x ≠ l[i]? → x ∈ l') ∧
      (l.Nodup → l'.Nodup) ∧ (l.Nodup → ∀ x, l[i]? = some x → x ∉ l') := by
  have hsub : ∀ j x, l'[j]? = some x → ∃ k, k ≠ i ∧ l[k]? = some x ∧ (if j = i then k = l.length - 1 else k = j) := by
    intro j x hj
    rw [hget] at hj
    split at hj
    · split at hj
      · rename_i h1 h2
        subst h2
        exact ⟨l.length - 1, by omega, hj, by simp⟩
      · rename_i h1 h2
        exact ⟨j, h2, hj, by simp [h2]⟩
    · cases hj
  have inj : l.Nodup → ∀ {k k' : Nat} {x : Nat}, l[k]? = some x → l[k']? = some x → k = k' := by
    intro hn k k' x h1 h2
    have hk : k < l.length := by
      rcases Nat.lt_or_ge k l.length with h | h
      · exact h
      · rw [List.getElem?_eq_none h] at h1; cases h1
    exact (List.getElem?_inj hk hn).1 (h1.trans h2.symm)
  refine ⟨fun j hj => ?_, fun x hx => ?_, fun x hx hne => ?_, fun hn => ?_, fun hn x hx hx' => ?_⟩
  · rw [hget, if_pos (by omega), if_neg (by omega)]
  · obtain ⟨j, hj⟩ := List.mem_iff_getElem?.1 hx
    obtain ⟨k, _, hk, _⟩ := hsub j x hj
    exact List.mem_iff_getElem?.2 ⟨k, hk⟩
  · obtain ⟨j, hj⟩ := List.mem_iff_getElem?.1 hx
    have hjl : j < l.length := by
      rcases Nat.lt_or_ge j l.length with h | h
      · exact h
      · rw [List.getElem?_eq_none h] at hj; cases hj
    have hji : j ≠ i := by intro h; subst h; exact hne hj.symm
    by_cases hl : j = l.length - 1
    · refine List.mem_iff_getElem?.2 ⟨i, ?_⟩
      rw [hget, if_pos (by omega), if_pos rfl, ← hl]; exact hj
    · refine List.mem_iff_getElem?.2 ⟨j, ?_⟩
      rw [hget, if_pos (by omega), if_neg hji]; exact hj
  · rw [List.Nodup, List.pairwise_iff_getElem]
    intro j j' hj hj' hjj' he
    have he : l'[j]? = l'[j']? := by rw [List.getElem?_eq_getElem hj, List.getElem?_eq_getElem hj', he]
    have h1 : l'[j]? = some l'[j] := List.getElem?_eq_getElem (by omega)
    obtain ⟨k, hk1, hk2, hk3⟩ := hsub _ _ h1
    obtain ⟨k', hk1', hk2', hk3'⟩ := hsub _ _ (he ▸ h1)
    have := inj hn hk2 hk2'
    split at hk3 <;> split at hk3' <;> omega
  · obtain ⟨j, hj⟩ := List.mem_iff_getElem?.1 hx'
    obtain ⟨k, hk1, hk2, _⟩ := hsub j x hj
    exact hk1 (inj hn hk2 hx)

/-- The position of the search, if there is one. -/
def Search.pos : Search → Option Nat
  | .none => .none
  | .look _ i | .upgrade _ i => some i

structure Inv (s : S) (tr : List AObs) : Prop where
  users : ∀ a, users tr a = s.count a
  bound : ∀ a, s.count a ≤ AFD_MAX_SIZE
  fresh : ∀ a, s.next ≤ a → s.count a = 0
  names : ∀ a ∈ s.list, a < s.next
  live : ∀ a, s.count a > 0 → a ∈ s.list
  nodup : s.list.Nodup
  pos : ∀ i, s.search.pos = some i → i ≤ s.list.length
  up : ∀ t i, s.search = .upgrade t i → ∃ a, s.list[i]? = some a ∧ s.count a < AFD_MAX_SIZE
  skipped : ∀ i, s.search.pos = some i → ∀ j, j < i → ∀ a, s.list[j]? = some a → ∃ n, n ≥ AFD_MAX_SIZE ∧ .seen a n ∈ sinceSearch tr
  dead : ∀ a, .seen a 0 ∈ tr → a ∉ s.list ∧ s.count a = 0 ∧ a < s.next

theorem mem_since_cons {o x : AObs} {tr} (h : ∀ t, o ≠ .search t) (hx : x ∈ sinceSearch tr) : x ∈ sinceSearch (o :: tr) := by
  cases o <;> first | exact absurd rfl (h _) | exact List.mem_cons_of_mem _ hx

theorem inv_init : Inv init [] where
  users _ := rfl
  bound _ := Nat.zero_le _
  fresh _ _ := rfl
  names _ h := nomatch h
  live _ h := absurd h (Nat.lt_irrefl 0)
  nodup := List.nodup_nil
  pos _ h := nomatch h
  up _ _ h := nomatch h
  skipped _ h := nomatch h
  dead _ h := nomatch h

theorem inv_step {s tr a s' o} (h : Inv s tr) (hs : step s a = some (s', o)) : Inv s' (o :: tr) := by
  cases a with
  | start t =>
    simp only [step] at hs
    split at hs
    · cases hs
      exact ⟨h.users, h.bound, h.fresh, h.names, h.live, h.nodup, fun i hi => by cases hi; exact Nat.zero_le _, fun _ _ h => (nomatch h),
        fun i hi j hj => by cases hi; exact absurd hj (Nat.not_lt_zero _), fun a ha => h.dead a (by simpa using ha)⟩
    · cases hs
  | release a =>
    simp only [step] at hs
    split at hs
    · rename_i hpos
      cases hs
      have hle : ∀ x, (setCount s a (s.count a - 1)).count x ≤ s.count x := by
        intro x; simp only [setCount]; split
        · rename_i hx; subst hx; omega
        · exact Nat.le_refl _
      refine ⟨fun x => ?_, fun x => Nat.le_trans (hle x) (h.bound x), fun x hx => Nat.le_zero.1 (h.fresh x hx ▸ hle x), h.names,
        fun x hx => h.live x (Nat.lt_of_lt_of_le hx (hle x)), h.nodup, h.pos, fun t i hu => ?_, fun i hi j hj x hx => ?_, fun x hx => ?_⟩
      · simp only [AfdSpec.users, setCount, h.users]
        split
        · rename_i hx; subst hx; rfl
        · rfl
      · obtain ⟨b, hb, hc⟩ := h.up t i hu
        exact ⟨b, hb, Nat.lt_of_le_of_lt (hle b) hc⟩
      · obtain ⟨n, hn, hm⟩ := h.skipped i hi j hj x hx
        exact ⟨n, hn, mem_since_cons nofun hm⟩
      · obtain ⟨h1, h2, h3⟩ := h.dead x (by simpa using hx)
        exact ⟨h1, Nat.le_zero.1 (h2 ▸ hle x), h3⟩
    · cases hs
  | go fault =>
    simp only [step] at hs
    split at hs
    · cases hs
    · rename_i t i hse
      split at hs
      · rename_i a ha
        have hil : i < s.list.length := by
          rcases Nat.lt_or_ge i s.list.length with hl | hl
          · exact hl
          · rw [List.getElem?_eq_none hl] at ha; cases ha
        have hmem : a ∈ s.list := List.mem_iff_getElem?.2 ⟨i, ha⟩
        split at hs
        · rename_i hz
          obtain ⟨l, hr, hlen, hget⟩ := remove_some (s := s) hil
          obtain ⟨m1, m2, m3, m4, m5⟩ := remove_mem hil hlen hget
          rw [hr] at hs
          cases hs
          refine ⟨h.users, h.bound, h.fresh, fun x hx => h.names x (m2 x hx), fun x hx => m3 x (h.live x hx) fun he => ?_, m4 h.nodup, fun j hj => ?_,
            fun t' j hj => ?_, fun j hj k hk x hx => ?_, fun x hx => ?_⟩
          · rw [ha] at he; cases he; dsimp only at hx; omega
          · dsimp only at hj; rw [hse] at hj; cases hj; dsimp only; omega
          · dsimp only at hj; rw [hse] at hj; cases hj
          · dsimp only at hj
            rw [hse] at hj; cases hj
            have := m1 k hk
            rw [this] at hx
            obtain ⟨n, hn, hm⟩ := h.skipped i (by rw [hse]; rfl) k hk x hx
            exact ⟨n, hn, mem_since_cons nofun hm⟩
          · rcases List.mem_cons.1 hx with hx | hx
            · cases hx
              exact ⟨m5 h.nodup _ ha, hz, h.names _ hmem⟩
            · obtain ⟨h1, h2, h3⟩ := h.dead x hx
              exact ⟨fun hm => h1 (m2 x hm), h2, h3⟩
        · rename_i hz
          have hdead : ∀ x, .seen x 0 ∈ (.seen a (s.count a) :: tr : List AObs) → x ∉ s.list ∧ s.count x = 0 ∧ x < s.next := by
            intro x hx
            rcases List.mem_cons.1 hx with hx | hx
            · injection hx with h1 h2
              exact absurd h2.symm hz
            · exact h.dead x hx
          split at hs
          · rename_i hfull
            cases hs
            refine ⟨h.users, h.bound, h.fresh, h.names, h.live, h.nodup, fun j hj => by cases hj; exact hil, nofun, fun j hj k hk x hx => ?_, hdead⟩
            cases hj
            by_cases hki : k = i
            · subst hki
              dsimp only at hx
              rw [ha] at hx; cases hx
              exact ⟨_, hfull, List.mem_cons_self⟩
            · obtain ⟨n, hn, hm⟩ := h.skipped i (by rw [hse]; rfl) k (by omega) x hx
              exact ⟨n, hn, mem_since_cons nofun hm⟩
          · rename_i hfull
            cases hs
            refine ⟨h.users, h.bound, h.fresh, h.names, h.live, h.nodup, fun j hj => by cases hj; exact Nat.le_of_lt hil, fun t' j hj => ?_, fun j hj k hk x hx => ?_, hdead⟩
            · cases hj; exact ⟨a, ha, Nat.lt_of_not_le hfull⟩
            · cases hj
              obtain ⟨n, hn, hm⟩ := h.skipped i (by rw [hse]; rfl) k hk x hx
              exact ⟨n, hn, mem_since_cons nofun hm⟩
      · split at hs
        · cases hs
          exact ⟨h.users, h.bound, h.fresh, h.names, h.live, h.nodup, nofun, nofun, nofun, fun x hx => h.dead x (by simpa using hx)⟩
        · cases hs
          have hne : ∀ x ∈ s.list, x ≠ s.next := fun x hx he => by have := h.names x hx; omega
          refine ⟨fun x => ?_, fun x => ?_, fun x hx => ?_, fun x hx => ?_, fun x hx => ?_, ?_, nofun, nofun, nofun, fun x hx => ?_⟩
          · simp only [AfdSpec.users, setCount, h.users]
            split
            · rename_i hx; subst hx; rw [h.fresh _ (Nat.le_refl _)]
            · rfl
          · simp only [setCount]; split
            · decide
            · exact h.bound x
          · simp only [setCount] at hx ⊢
            rw [if_neg (by omega)]
            exact h.fresh x (by omega)
          · simp only [setCount, List.mem_append, List.mem_singleton] at hx ⊢
            rcases hx with hx | hx
            · have := h.names x hx; omega
            · omega
          · simp only [setCount, List.mem_append, List.mem_singleton] at hx ⊢
            split at hx
            · rename_i he; exact .inr he
            · exact .inl (h.live x hx)
          · simp only [setCount]
            rw [List.nodup_append]
            exact ⟨h.nodup, by simp, fun x hx y hy => by simp only [List.mem_singleton] at hy; subst hy; exact hne x hx⟩
          · obtain ⟨h1, h2, h3⟩ := h.dead x (by simpa using hx)
            simp only [setCount, List.mem_append, List.mem_singleton]
            exact ⟨fun hm => hm.elim h1 (by omega), by rw [if_neg (by omega)]; exact h2, by omega⟩
    · rename_i t i hse
      split at hs
      · cases hs
      · rename_i a ha
        have hil : i < s.list.length := by
          rcases Nat.lt_or_ge i s.list.length with hl | hl
          · exact hl
          · rw [List.getElem?_eq_none hl] at ha; cases ha
        have hmem : a ∈ s.list := List.mem_iff_getElem?.2 ⟨i, ha⟩
        split at hs
        · rename_i hz
          obtain ⟨l, hr, hlen, hget⟩ := remove_some (s := s) hil
          obtain ⟨m1, m2, m3, m4, m5⟩ := remove_mem hil hlen hget
          rw [hr] at hs
          cases hs
          refine ⟨h.users, h.bound, h.fresh, fun x hx => h.names x (m2 x hx), fun x hx => m3 x (h.live x hx) fun he => ?_, m4 h.nodup, fun j hj => ?_,
            nofun, fun j hj k hk x hx => ?_, fun x hx => ?_⟩
          · rw [ha] at he; cases he; dsimp only at hx; omega
          · cases hj; dsimp only; omega
          · cases hj
            have := m1 k hk
            dsimp only at hx
            rw [this] at hx
            obtain ⟨n, hn, hm⟩ := h.skipped i (by rw [hse]; rfl) k hk x hx
            exact ⟨n, hn, mem_since_cons nofun hm⟩
          · obtain ⟨h1, h2, h3⟩ := h.dead x (by simpa using hx)
            exact ⟨fun hm => h1 (m2 x hm), h2, h3⟩
        · rename_i hz
          cases hs
          obtain ⟨b, hb, hlt⟩ := h.up t i hse
          rw [ha] at hb; cases hb
          refine ⟨fun x => ?_, fun x => ?_, fun x hx => ?_, h.names, fun x hx => ?_, h.nodup, nofun, nofun, nofun, fun x hx => ?_⟩
          · simp only [AfdSpec.users, setCount, h.users]
            split
            · rename_i hx; subst hx; rfl
            · rfl
          · simp only [setCount]; split
            · exact hlt
            · exact h.bound x
          · have hx' : s.next ≤ x := hx
            have := h.names _ hmem
            simp only [setCount]
            rw [if_neg (by omega)]
            exact h.fresh x hx'
          · simp only [setCount] at hx ⊢
            split at hx
            · rename_i he; subst he; exact hmem
            · exact h.live x hx
          · obtain ⟨h1, h2, h3⟩ := h.dead x (by simpa using hx)
            refine ⟨h1, ?_, h3⟩
            simp only [setCount]
            rw [if_neg (fun he : x = a => h1 (he ▸ hmem))]
            exact h2

theorem reach_inv {s tr} (h : Reach s tr) : Inv s tr := by
  induction h with
  | init => exact inv_init
  | step _ hs ih => exact inv_step ih hs

theorem run_reach {s tr} (h : Reach s tr) {as s' o} (hr : runActs s as = some (s', o)) : Reach s' (o ++ tr) := by
  induction as generalizing s tr s' o with
  | nil => cases hr; exact h
  | cons a as ih =>
    simp only [runActs, Option.bind_eq_some_iff, Option.map_eq_some_iff] at hr
    obtain ⟨⟨s1, o1⟩, h1, ⟨s2, o2⟩, h2, he⟩ := hr
    cases he
    have := ih (.step h h1) h2
    simpa using this

end Polling.AfdGroups
