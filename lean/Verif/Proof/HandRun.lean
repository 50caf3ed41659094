import Verif.Spec.Hand

/-! Concrete runs with what was done and what was observed. -/

namespace Polling.Spec

/-- A run by the given steps. -/
def runLog {S A O : Type} (next : S → A → Option (S × O)) : S → List A → List (A × O) → Option (S × List (A × O))
  | s, [], l => some (s, l)
  | s, a :: as, l => (next s a).bind fun r => runLog next r.1 as ((a, r.2) :: l)

theorem runs_of_log {S A O : Type} {ini : S → Prop} {next : S → A → Option (S × O)} {P : A → Prop} :
    ∀ {as : List A} {s s' : S} {l l' : List (A × O)}, Runs ini next P s l → (∀ a ∈ as, P a) → runLog next s as l = some (s', l') → Runs ini next P s' l' := by
  intro as
  induction as with
  | nil => intro s s' l l' h _ hr; cases hr; exact h
  | cons a as ih =>
    intro s s' l l' h hP hr
    simp only [runLog, Option.bind_eq_some_iff] at hr
    obtain ⟨r, h1, h2⟩ := hr
    exact ih (.step h (hP a (by simp)) h1) (fun b hb => hP b (by simp [hb])) h2

/-- The numbers at the end of a run. -/
def tally {A O S : Type} (f : A × O → Option Hand) (r : Option (S × List (A × O))) : Option (Nat × Nat) :=
  r.map fun r => (emptyBacks (r.2.filterMap f), notifies (r.2.filterMap f))

theorem runs_tally {S A O : Type} {ini : S → Prop} {next : S → A → Option (S × O)} {P : A → Prop} {f : A × O → Option Hand} {as : List A} {s : S} {x y : Nat}
    (hi : ini s) (hP : ∀ a ∈ as, P a) (h : tally f (runLog next s as []) = some (x, y)) :
    ∃ s' l, Runs ini next P s' l ∧ emptyBacks (l.filterMap f) = x ∧ notifies (l.filterMap f) = y := by
  unfold tally at h
  rw [Option.map_eq_some_iff] at h
  obtain ⟨⟨s', l⟩, h1, h2⟩ := h
  cases h2
  exact ⟨s', l, runs_of_log (.init hi) hP h1, rfl, rfl⟩

end Polling.Spec
