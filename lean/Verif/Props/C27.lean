import Verif.Proof.AfdGroups

/-! C27: IOCP: AFD handles are shared by at most 32 sockets and are pruned. -/

namespace Polling.C27
open AfdGroups AfdSpec

/-- No helper is ever used by more than 32 sockets. -/
theorem at_most_32 {s tr} (h : Reach s tr) (a : Nat) : users tr a ≤ 32 := by
  rw [(reach_inv h).users a]; exact (reach_inv h).bound a

/-- A new helper is created only if the search looked at every helper that is in use, and found it full. -/
theorem created_only_if_full {s tr t a} (h : Reach s (.created t a :: tr)) {b : Nat} (hb : users tr b > 0) :
    ∃ n, n ≥ 32 ∧ .seen b n ∈ sinceSearch tr := by
  cases h with
  | @step s0 _ act _ _ h0 hs =>
    have hi := reach_inv h0
    rw [hi.users] at hb
    cases act with
    | start t => simp only [step] at hs; split at hs <;> cases hs
    | release a => simp only [step] at hs; split at hs <;> cases hs
    | go fault =>
      simp only [step] at hs
      split at hs
      · cases hs
      · rename_i t' i hse
        split at hs
        · split at hs
          · simp only [Option.map_eq_some_iff] at hs
            obtain ⟨_, _, he⟩ := hs; cases he
          · split at hs <;> cases hs
        · rename_i hn
          have hm := hi.live b hb
          obtain ⟨j, hj⟩ := List.mem_iff_getElem?.1 hm
          refine hi.skipped i (by rw [hse]; rfl) j ?_ b hj
          rcases Nat.lt_or_ge j i with h' | h'
          · exact h'
          · have h1 : s0.list.length ≤ i := List.getElem?_eq_none_iff.1 hn
            rw [List.getElem?_eq_none (by omega)] at hj; cases hj
      · split at hs
        · cases hs
        · split at hs
          · simp only [Option.map_eq_some_iff] at hs
            obtain ⟨_, _, he⟩ := hs; cases he
          · cases hs

/-- A helper that nobody uses is dropped from the list when the search meets it, and never comes back. -/
theorem dead_dropped {s tr a} (h : Reach s tr) (hd : .seen a 0 ∈ tr) : a ∉ s.list := ((reach_inv h).dead a hd).1

/-- A helper that is in use is in the list, once: it can be found, and no two sockets count differently. -/
theorem used_is_listed {s tr a} (h : Reach s tr) (hu : users tr a > 0) : a ∈ s.list ∧ s.list.Nodup :=
  ⟨(reach_inv h).live a ((reach_inv h).users a ▸ hu), (reach_inv h).nodup⟩

/-- A search that is in progress can always go on. -/
theorem search_goes_on {s tr} (h : Reach s tr) (hs : s.search ≠ .none) (fault : Option Err) : (step s (.go fault)).isSome := by
  have hi := reach_inv h
  simp only [step]
  split
  · contradiction
  · rename_i t i hse
    split
    · rename_i a ha
      have hil : i < s.list.length := by
        rcases Nat.lt_or_ge i s.list.length with hl | hl
        · exact hl
        · rw [List.getElem?_eq_none hl] at ha; cases ha
      obtain ⟨l, hr, _⟩ := remove_some (s := s) hil
      split
      · rw [hr]; rfl
      · split <;> rfl
    · split <;> rfl
  · rename_i t i hse
    obtain ⟨a, ha, _⟩ := hi.up t i hse
    have hil : i < s.list.length := by
      rcases Nat.lt_or_ge i s.list.length with hl | hl
      · exact hl
      · rw [List.getElem?_eq_none hl] at ha; cases ha
    obtain ⟨l, hr, _⟩ := remove_some (s := s) hil
    simp only [ha]
    split
    · rw [hr]; rfl
    · rfl

/-- Steps of the search. -/
def isGo : Act → Bool
  | .go _ => true
  | _ => false

/-- How many more steps the search takes at most. -/
def left (s : S) : Nat :=
  match s.search with
  | .none => 0
  | .look _ i => 2 * (s.list.length - i) + 1
  | .upgrade _ i => 2 * (s.list.length - i)

theorem left_step {s tr} (h : Reach s tr) (hse : s.search ≠ .none) {a s' o} (hs : step s a = some (s', o)) :
    (ends o = true ∧ isGo a = true) ∨ (s'.search ≠ .none ∧ left s' + (if isGo a then 1 else 0) ≤ left s) := by
  have hi := reach_inv h
  cases a with
  | start t => simp only [step] at hs; cases hs
  | release a =>
    simp only [step] at hs
    split at hs
    · cases hs; exact .inr ⟨hse, Nat.le_refl _⟩
    · cases hs
  | go fault =>
    simp only [step] at hs
    split at hs
    · cases hs
    · rename_i t i he
      split at hs
      · rename_i a ha
        have hil : i < s.list.length := by
          rcases Nat.lt_or_ge i s.list.length with hl | hl
          · exact hl
          · rw [List.getElem?_eq_none hl] at ha; cases ha
        split at hs
        · obtain ⟨l, hr, hlen, _⟩ := remove_some (s := s) hil
          rw [hr] at hs; cases hs
          exact .inr ⟨hse, by simp only [left, he, isGo, if_true, hlen]; omega⟩
        · split at hs
          · cases hs
            exact .inr ⟨nofun, by simp only [left, he, isGo, if_true]; omega⟩
          · cases hs
            exact .inr ⟨nofun, by simp only [left, he, isGo, if_true]; omega⟩
      · split at hs
        · cases hs; exact .inl ⟨rfl, rfl⟩
        · cases hs; exact .inl ⟨rfl, rfl⟩
    · rename_i t i he
      split at hs
      · cases hs
      · rename_i a ha
        have hil : i < s.list.length := by
          rcases Nat.lt_or_ge i s.list.length with hl | hl
          · exact hl
          · rw [List.getElem?_eq_none hl] at ha; cases ha
        split at hs
        · obtain ⟨l, hr, hlen, _⟩ := remove_some (s := s) hil
          rw [hr] at hs; cases hs
          exact .inr ⟨nofun, by simp only [left, he, isGo, if_true, hlen]; omega⟩
        · cases hs; exact .inl ⟨rfl, rfl⟩

/-- The search always terminates: whatever the other threads do meanwhile, a search that has not ended made at most twice as many
steps as the list is long. -/
theorem search_terminates {s tr t} (h : Reach s (.search t :: tr)) {as s' o} (hr : runActs s as = some (s', o)) (ho : ∀ x ∈ o, ends x = false) :
    (as.filter isGo).length ≤ 2 * s.list.length + 1 := by
  have key : ∀ (as : List Act) {s tr s' o}, Reach s tr → s.search ≠ .none → runActs s as = some (s', o) → (∀ x ∈ o, ends x = false) →
      (as.filter isGo).length ≤ left s := by
    intro as
    induction as with
    | nil => intros; exact Nat.zero_le _
    | cons a as ih =>
      intro s tr s' o h hse hr ho
      simp only [runActs, Option.bind_eq_some_iff, Option.map_eq_some_iff] at hr
      obtain ⟨⟨s1, o1⟩, h1, ⟨s2, o2⟩, h2, he⟩ := hr
      cases he
      rcases left_step h hse h1 with ⟨hc, _⟩ | ⟨hn, hl⟩
      · have := ho o1 (by simp)
        rw [hc] at this; cases this
      · have := ih (.step h h1) hn h2 fun x hx => ho x (List.mem_append_left _ hx)
        cases hg : isGo a <;> simp only [hg, List.filter_cons, if_true, Bool.false_eq_true, if_false, List.length_cons] at hl ⊢ <;> omega
  cases h with
  | @step s0 _ act _ _ h0 hs =>
    have h' : Reach s (.search t :: tr) := .step h0 hs
    cases act with
    | release a => simp only [step] at hs; split at hs <;> cases hs
    | go fault =>
      simp only [step] at hs
      split at hs
      · cases hs
      · split at hs
        · split at hs
          · simp only [Option.map_eq_some_iff] at hs
            obtain ⟨_, _, he⟩ := hs; cases he
          · split at hs <;> cases hs
        · split at hs <;> cases hs
      · split at hs
        · cases hs
        · split at hs
          · simp only [Option.map_eq_some_iff] at hs
            obtain ⟨_, _, he⟩ := hs; cases he
          · cases hs
    | start t' =>
      simp only [step] at hs
      split at hs
      · cases hs
        have := key as h' (by simp) hr ho
        exact this
      · cases hs

/-- Sockets arrive: the first 32 share the first helper. -/
def fill : Nat → List Act
  | 0 => [.start 0, .go none]
  | n + 1 => fill n ++ [.start 0, .go none, .go none]

/-- 33 sockets, then the first helper loses all of them during a search by another thread. -/
example : (runActs init (fill 31 ++ [.start 1, .go none, .go none, .start 2, .go none] ++ List.replicate 32 (.release 0) ++
      [.go none, .go none, .start 3, .go none, .go none, .go none])).map
      (fun r => (r.2.filter (fun o => o ≠ .released 0 && o ≠ .acquired 0 0 && o ≠ .search 0 && (List.range 32).all fun n => o != .seen 0 (n + 1)), r.1.list, users r.2 0, users r.2 1)) =
    some ([.acquired 3 1, .seen 1 2, .seen 0 0, .search 3, .acquired 2 1, .seen 1 1, .search 2, .created 1 1, .search 1, .created 0 0], [1], 0, 3) := by decide +kernel

end Polling.C27
