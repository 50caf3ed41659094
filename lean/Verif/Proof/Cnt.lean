import Verif.Spec.Tid

/-! Counting threads. -/

namespace Polling
variable {α : Type}

/-- Number of threads below `n` whose position satisfies `P`. -/
def cnt : Nat → (α → Bool) → (Tid → α) → Nat
  | 0, _, _ => 0
  | n + 1, P, pc => cnt n P pc + (P (pc n)).toNat

theorem cnt_congr {n : Nat} {P Q : α → Bool} {pc pc' : Tid → α} (h : ∀ t, t < n → P (pc t) = Q (pc' t)) :
    cnt n P pc = cnt n Q pc' := by
  induction n with
  | zero => rfl
  | succ n ih => simp only [cnt]; rw [ih fun t ht => h t (by omega), h n (by omega)]

theorem cnt_upd {n : Nat} (P : α → Bool) (pc : Tid → α) {t : Tid} (ht : t < n) (p : α) :
    cnt n P (fun u => if u = t then p else pc u) + (P (pc t)).toNat = cnt n P pc + (P p).toNat := by
  induction n with
  | zero => exact absurd ht (Nat.not_lt_zero _)
  | succ n ih =>
    simp only [cnt]
    have ht' : (t : Nat) < n + 1 := ht
    by_cases h : t = n
    · subst h
      have : cnt t P (fun u => if u = t then p else pc u) = cnt t P pc := cnt_congr fun u hu => by simp [Nat.ne_of_lt hu]
      simp [this]; omega
    · have h1 := ih (Nat.lt_of_le_of_ne (Nat.le_of_lt_succ ht') h)
      rw [if_neg (Ne.symm h)]; omega

theorem cnt_pos {n : Nat} {P : α → Bool} {pc : Tid → α} : 0 < cnt n P pc ↔ ∃ t, t < n ∧ P (pc t) = true := by
  induction n with
  | zero => simp [cnt]
  | succ n ih =>
    simp only [cnt]
    constructor
    · intro h
      by_cases hp : P (pc n) = true
      · exact ⟨n, by omega, hp⟩
      · simp only [Bool.not_eq_true] at hp
        rw [hp] at h
        obtain ⟨t, ht, h'⟩ := ih.1 (by simpa using h)
        exact ⟨t, by omega, h'⟩
    · rintro ⟨t, ht, h'⟩
      by_cases h : t = n
      · subst h; rw [h']; simp
      · have := ih.2 ⟨t, by omega, h'⟩; omega

theorem cnt_le (n : Nat) (P : α → Bool) (pc : Tid → α) : cnt n P pc ≤ n := by
  induction n with
  | zero => exact Nat.le_refl _
  | succ n ih => simp only [cnt]; have : (P (pc n)).toNat ≤ 1 := Bool.toNat_le _; omega

/-- If one thread does not satisfy `P`, fewer than all do. -/
theorem cnt_lt {n : Nat} {P : α → Bool} {pc : Tid → α} {t : Tid} (ht : t < n) (h : P (pc t) = false) : cnt n P pc < n := by
  induction n with
  | zero => exact absurd ht (Nat.not_lt_zero _)
  | succ n ih =>
    simp only [cnt]
    by_cases he : t = n
    · subst he; rw [h]; have := cnt_le t P pc; simp; omega
    · have := ih (Nat.lt_of_le_of_ne (Nat.le_of_lt_succ ht) he)
      have : (P (pc n)).toNat ≤ 1 := Bool.toNat_le _
      omega

end Polling
