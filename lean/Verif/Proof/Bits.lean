import Verif.Model.Base

/-! Helper lemmas about flag words. -/

namespace Polling

theorem bv_ne_zero_iff {n : Nat} (x : BitVec n) : x ≠ 0#n ↔ ∃ i, i < n ∧ x.getLsbD i = true := by
  constructor
  · intro h
    refine Classical.byContradiction fun hc => h ?_
    apply BitVec.eq_of_getLsbD_eq
    intro i hi
    have : x.getLsbD i ≠ true := fun h => hc ⟨i, hi, h⟩
    simpa using this
  · rintro ⟨i, _, hx⟩ rfl
    simp at hx

theorem intersects_iff {n : Nat} (f m : BitVec n) :
    intersects f m = true ↔ ∃ i, i < n ∧ f.getLsbD i = true ∧ m.getLsbD i = true := by
  unfold intersects
  rw [bne_iff_ne, bv_ne_zero_iff]
  simp [BitVec.getLsbD_and]

theorem contains_iff {n : Nat} (f m : BitVec n) :
    contains f m = true ↔ ∀ i, i < n → m.getLsbD i = true → f.getLsbD i = true := by
  unfold contains
  rw [beq_iff_eq]
  constructor
  · intro h i hi hm
    have := congrArg (fun z => z.getLsbD i) h
    simp [BitVec.getLsbD_and, hm] at this
    exact this
  · intro h
    apply BitVec.eq_of_getLsbD_eq
    intro i hi
    have := h i hi
    rw [BitVec.getLsbD_and]
    cases hm : m.getLsbD i
    · simp
    · simp [this hm]

theorem setBit_getLsbD {n : Nat} (f b : BitVec n) (v : Bool) (i : Nat) (hi : i < n) :
    (setBit f b v).getLsbD i = if b.getLsbD i then v else f.getLsbD i := by
  unfold setBit
  cases v
  · rw [if_neg (by decide), BitVec.getLsbD_and, BitVec.getLsbD_not]
    cases b.getLsbD i <;> simp [hi]
  · rw [if_pos rfl, BitVec.getLsbD_or]
    cases b.getLsbD i <;> simp

end Polling
