import Verif.Spec.WaitFree

/-! A bound for the steps that are left proves that a call never waits. -/

namespace Polling.Spec

theorem runLog_mem {S A O : Type} {next : S → A → Option (S × O)} : ∀ {acts : List A} {s s' : S} {l l' : List (A × O)},
    runLog next s acts l = some (s', l') → ∀ x ∈ l, x ∈ l' := by
  intro acts
  induction acts with
  | nil => intro s s' l l' h; cases h; exact fun _ h => h
  | cons a acts ih =>
    intro s s' l l' h x hx
    simp only [runLog, Option.bind_eq_some_iff] at h
    obtain ⟨r, _, h2⟩ := h
    exact ih h2 x (List.mem_cons_of_mem _ hx)

theorem waitFree_of {S A O : Type} {next : S → A → Option (S × O)} {start : A} {own fine : A → Bool} {returned : O → Prop} {k : Nat} {s : S}
    (inside : S → Prop) (left : S → Nat) (h0 : (next s start).isSome = true)
    (h1 : ∀ s1 o, next s start = some (s1, o) → returned o ∨ (inside s1 ∧ left s1 ≤ k))
    (h2 : ∀ s a s' o, inside s → next s a = some (s', o) → returned o ∨ (inside s' ∧ left s' + (if own a then 1 else 0) ≤ left s))
    (h3 : ∀ s, inside s → left s > 0 ∧ ∃ a, own a = true ∧ fine a = true ∧ (next s a).isSome = true) : WaitFree next start own fine returned k s := by
  have run : ∀ (acts : List A) {s s' : S} {l l'}, inside s → runLog next s acts l = some (s', l') →
      (∃ x ∈ l', returned x.2) ∨ (inside s' ∧ left s' + (acts.filter own).length ≤ left s) := by
    intro acts
    induction acts with
    | nil => intro s s' l l' hi h; cases h; exact .inr ⟨hi, Nat.le_refl _⟩
    | cons a acts ih =>
      intro s s' l l' hi h
      simp only [runLog, Option.bind_eq_some_iff] at h
      obtain ⟨⟨s1, o⟩, ha, h⟩ := h
      rcases h2 s a s1 o hi ha with hr | ⟨hi1, hle⟩
      · exact .inl ⟨_, runLog_mem h _ (List.mem_cons_self ..), hr⟩
      · rcases ih hi1 h with hr | ⟨hi2, hle2⟩
        · exact .inl hr
        · refine .inr ⟨hi2, ?_⟩
          rw [List.filter_cons]
          cases ho : own a with
          | true => rw [ho] at hle; simp only [if_true, List.length_cons] at hle ⊢; omega
          | false => rw [ho] at hle; simp only [Bool.false_eq_true, if_false] at hle ⊢; omega
  refine ⟨h0, ?_⟩
  intro acts s' l h
  simp only [runLog, Option.bind_eq_some_iff] at h
  obtain ⟨⟨s1, o⟩, ha, h⟩ := h
  rcases h1 s1 o ha with hr | ⟨hi1, hle⟩
  · exact .inl ⟨_, runLog_mem h _ (List.mem_cons_self ..), hr⟩
  · rcases run acts hi1 h with hr | ⟨hi2, hle2⟩
    · exact .inl hr
    · obtain ⟨h4, h5⟩ := h3 s' hi2
      exact .inr ⟨by omega, h5⟩

end Polling.Spec
