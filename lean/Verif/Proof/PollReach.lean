import Verif.Proof.PollSync

/-! The invariants hold in every reachable state. -/

namespace Polling.PollP
open PollB PollFlags PollSpec

theorem reach_I {c P s tr} (h : Reach c P s tr) : I c s := by
  induction h with
  | init => exact init_I c
  | step _ _ hs ih =>
    obtain ⟨ht, hn⟩ := step_next hs
    exact ⟨next_range ht hn ih.range, next_mtx hn ih.mtx, next_lib hn ih.lib, next_ops ht hn ih.ops⟩

theorem reach_T {c P s tr} (h : Reach c P s tr) : T c s tr := by
  induction h with
  | init => exact init_T c
  | step _ _ hs ih => exact next_T (step_next hs).2 ih

theorem reach_call {c P s tr} (h : Reach c P s tr) : ∀ t, callState t tr = some (callOf (s.pc t)) := by
  induction h with
  | init => exact fun _ => rfl
  | step _ _ hs ih => exact next_call (step_next hs).2 ih

theorem reach_wait {c P s tr} (h : Reach c P s tr) : ∃ st, waitState tr = some st ∧ W s st := by
  induction h with
  | init => exact ⟨.idle, rfl, .inl ⟨rfl, rfl⟩⟩
  | step hr _ hs ih =>
    obtain ⟨st, h1, h2⟩ := ih
    exact next_wait (step_next hs).2 (reach_I hr) h1 h2

theorem reach_looking {c P s tr} (h : Reach c P s tr) :
    ∃ x, looking tr = some x ∧ ∀ u, looks (s.pc u) = true ↔ x = some u := by
  induction h with
  | init => exact ⟨none, rfl, fun u => by simp [init, looks]⟩
  | step hr _ hs ih => exact next_looking (step_next hs).2 (reach_I hr) ih

theorem reach_J {c P s tr} (h : Reach c P s tr) : J s := by
  induction h with
  | init => exact init_J c
  | step hr _ hs ih => exact next_J (step_next hs).2 (reach_I hr) ih

theorem reach_Q {c P s tr} (h : Reach c P s tr) : Q c s := by
  induction h with
  | init => exact init_Q c
  | step hr _ hs ih => exact next_Q (step_next hs).1 (step_next hs).2 (reach_I hr) ih

theorem reach_L {c s tr} (h : Reach c WritesWork s tr) : L s := by
  induction h with
  | init => exact init_L c
  | step hr hp hs ih => exact next_L hp (step_next hs).2 (reach_I hr) ih

theorem reach_K {c s tr} (h : Reach c WritesWork s tr) (hno : NoSpurious tr) : K s tr := by
  induction h with
  | init => exact init_K c
  | @step s tr t a s' o hr hp hs ih =>
    have h1 : NoSpurious tr := fun u hu => hno u (List.mem_cons_of_mem _ hu)
    refine next_K hp (step_next hs).2 (reach_I hr) ?_ (ih h1)
    intro e; subst e; exact hno t List.mem_cons_self

theorem reach_run {c P s tr} (h : Reach c P s tr) (acts : List (Tid × Act)) : ∀ s' obs, (∀ a ∈ acts, P a.2) →
    runActs c s acts = some (s', obs) → Reach c P s' (obs ++ tr) := by
  induction acts generalizing s tr with
  | nil => intro s' obs _ hr; cases hr; exact h
  | cons ta acts ih =>
    intro s' obs hP hr
    obtain ⟨t, a⟩ := ta
    simp only [runActs, Option.bind_eq_some_iff, Option.map_eq_some_iff] at hr
    obtain ⟨⟨s1, o⟩, h1, ⟨s2, obs2⟩, h2, h3⟩ := hr
    injection h3 with h3 h4
    subst h3 h4
    have := ih (.step h (hP _ List.mem_cons_self) h1) s2 obs2 (fun a ha => hP a (List.mem_cons_of_mem _ ha)) h2
    simpa using this

end Polling.PollP
