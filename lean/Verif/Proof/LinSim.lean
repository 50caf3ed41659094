import Verif.Spec.LinView

/-! Steps of the atomic object, combined. -/

namespace Polling.Lin
variable {α : Type} [DecidableEq α] {ru : Rules}

theorem put_same {β γ : Type} [DecidableEq β] (f : β → γ) (x : β) (v : γ) : put f x v x = v := by simp [put]
theorem put_other {β γ : Type} [DecidableEq β] (f : β → γ) {x y : β} (v : γ) (h : y ≠ x) : put f x v y = f y := by simp [put, h]
theorem put_put {β γ : Type} [DecidableEq β] (f : β → γ) (x : β) (v w : γ) : put (put f x v) x w = put f x w := by
  funext y; unfold put; split <;> rfl
theorem put_id {β γ : Type} [DecidableEq β] (f : β → γ) (x : β) : put f x (f x) = f := by
  funext y; unfold put; split
  · next h => rw [h]
  · rfl

/-- Effect and return at once. -/
theorem Atomic.done {p : α → Bool} {calls : Tid → Option (InCall α)} {tr t k x r} (h : Atomic ru ⟨p, calls⟩ tr)
    (hc : calls t = some ⟨k, x, none⟩) (after : Bool) (ha : Allowed ru k r (p x) after after) :
    Atomic ru ⟨put p x after, put calls t none⟩ (.ret t r :: tr) := by
  have := Atomic.ret (Atomic.effect after h hc) (put_same _ _ _) (by dsimp only; rw [put_same]; exact ha)
  rwa [put_put] at this

/-- An effect that changes nothing, and return. -/
theorem Atomic.look {p : α → Bool} {calls : Tid → Option (InCall α)} {tr t k x r} (h : Atomic ru ⟨p, calls⟩ tr)
    (hc : calls t = some ⟨k, x, none⟩) (ha : Allowed ru k r (p x) (p x) (p x)) :
    Atomic ru ⟨p, put calls t none⟩ (.ret t r :: tr) := by
  have := h.done hc (p x) ha
  rwa [put_id] at this

theorem atomic_calling {st : State α} {tr} (h : Atomic ru st tr) (t : Tid) :
    calling tr t = (st.calls t).map fun c => (c.k, c.x) := by
  induction h with
  | init => rfl
  | @begin st tr u k x _ hc ih =>
    simp only [calling, put]
    split
    · rfl
    · exact ih
  | @effect st tr u k x after _ hc ih =>
    simp only [put]
    split
    · next e => rw [ih, e, hc]; rfl
    · exact ih
  | @ret st tr u k x b a r _ hc _ ih =>
    simp only [calling, put]
    split
    · rfl
    · exact ih

theorem atomic_tail {st : State α} {o tr} (h : Atomic ru st (o :: tr)) : ∃ st', Atomic ru st' tr := by
  generalize hl : o :: tr = l at h
  induction h with
  | init => cases hl
  | begin h' _ _ => cases hl; exact ⟨_, h'⟩
  | effect _ _ _ ih => exact ih hl
  | ret h' _ _ _ => cases hl; exact ⟨_, h'⟩

/-- A result is one that the call in progress may have. -/
theorem lin_allowed {t r} {tr : List (Obs α)} (h : Linearizable ru (.ret t r :: tr)) :
    ∃ k x b a n, calling tr t = some (k, x) ∧ Allowed ru k r b a n := by
  obtain ⟨st, h⟩ := h
  generalize hl : Obs.ret t r :: tr = l at h
  induction h with
  | init => cases hl
  | begin => cases hl
  | effect _ _ _ ih => exact ih hl
  | ret h' hc ha _ =>
    cases hl
    exact ⟨_, _, _, _, _, by rw [atomic_calling h', hc]; rfl, ha⟩

theorem lin_suffix {l tr : List (Obs α)} (h : Linearizable ru (l ++ tr)) : Linearizable ru tr := by
  induction l with
  | nil => exact h
  | cons o l ih => obtain ⟨st, h⟩ := h; exact ih (atomic_tail h)

theorem addRet_some {st : State α} {tr t c r} (h : Atomic ru st tr) (hc : st.calls t = some c) : addRet t r tr = .ret t r :: tr := by
  unfold addRet; rw [atomic_calling h, hc]; rfl

theorem addRet_none {st : State α} {tr t r} (h : Atomic ru st tr) (hc : st.calls t = none) : addRet t r tr = tr := by
  unfold addRet; rw [atomic_calling h, hc]; rfl

/-! Counting. -/

def up (x : α) : Option (InCall α) → Bool
  | some ⟨_, y, some (false, true)⟩ => y == x
  | _ => false
def down (x : α) : Option (InCall α) → Bool
  | some ⟨_, y, some (true, false)⟩ => y == x
  | _ => false

theorem up_val (x : α) (k y b a) : up x (some ⟨k, y, some (b, a)⟩) = (!b && a && (y == x)) := by cases b <;> cases a <;> rfl
theorem down_val (x : α) (k y b a) : down x (some ⟨k, y, some (b, a)⟩) = (b && !a && (y == x)) := by cases b <;> cases a <;> rfl

theorem countP_put {β : Type} (f : Tid → Option β) (P : Option β → Bool) (t : Tid) (v : Option β) (l : List Tid) (hl : l.Nodup) (ht : t ∈ l) :
    l.countP (fun u => P (put f t v u)) + (P (f t)).toNat = l.countP (fun u => P (f u)) + (P v).toNat := by
  induction l with
  | nil => cases ht
  | cons a l ih =>
    obtain ⟨hna, hl⟩ := List.nodup_cons.1 hl
    by_cases e : a = t
    · subst e
      have : l.countP (fun u => P (put f a v u)) = l.countP (fun u => P (f u)) := by
        apply List.countP_congr
        intro u hu
        have : u ≠ a := fun e => hna (e ▸ hu)
        rw [put_other _ _ this]
      rw [List.countP_cons, List.countP_cons, this, put_same]
      cases P (f a) <;> cases P v <;> simp <;> omega
    · have := ih hl ((List.mem_cons.1 ht).resolve_left (Ne.symm e))
      rw [List.countP_cons, List.countP_cons, put_other _ _ e]
      omega

/-- Effects and results of the calls for a source add up to whether it is registered. -/
theorem atomic_balance {st : State α} {tr} (h : Atomic ru st tr) (x : α)
    (hf : ∀ k, results k x .failed tr = 0) :
    ∃ (l : List Tid) (extra : Nat), (ru.deleteAny = false → extra = 0) ∧ l.Nodup ∧ (∀ t, t ∉ l → st.calls t = none) ∧
      results .add x .ok tr + results .add x .missing tr + l.countP (fun t => up x (st.calls t)) + extra =
        results .delete x .ok tr + l.countP (fun t => down x (st.calls t)) + (st.present x).toNat := by
  induction h with
  | init => exact ⟨[], 0, fun _ => rfl, List.nodup_nil, fun _ _ => rfl, rfl⟩
  | @begin st tr t k y ha hc ih =>
    obtain ⟨l, extra, hx, hl, hout, hsum⟩ := ih hf
    have key : ∀ l' : List Tid, l'.Nodup → t ∈ l' → (∀ u, u ∉ l' → st.calls u = none) →
        results .add x .ok tr + results .add x .missing tr + l'.countP (fun t => up x (st.calls t)) + extra =
          results .delete x .ok tr + l'.countP (fun t => down x (st.calls t)) + (st.present x).toNat →
        ∃ (l : List Tid) (extra : Nat), (ru.deleteAny = false → extra = 0) ∧ l.Nodup ∧
          (∀ u, u ∉ l → put st.calls t (some ⟨k, y, none⟩) u = none) ∧
          results .add x .ok (.begin t k y :: tr) + results .add x .missing (.begin t k y :: tr) + l.countP (fun u => up x (put st.calls t (some ⟨k, y, none⟩) u)) + extra =
            results .delete x .ok (.begin t k y :: tr) + l.countP (fun u => down x (put st.calls t (some ⟨k, y, none⟩) u)) +
              (st.present x).toNat := by
      intro l' hl' ht hout' hsum'
      refine ⟨l', extra, hx, hl', fun u hu => ?_, ?_⟩
      · rw [put_other _ _ (fun e => hu (by rw [e]; exact ht))]; exact hout' u hu
      · have e1 := countP_put st.calls (up x) t (some ⟨k, y, none⟩) l' hl' ht
        have e2 := countP_put st.calls (down x) t (some ⟨k, y, none⟩) l' hl' ht
        rw [hc] at e1 e2
        simp only [up, down, results] at e1 e2 ⊢
        simp only [Bool.toNat_false] at e1 e2
        simp only [up, down] at hsum'
        omega
    by_cases ht : t ∈ l
    · exact key l hl ht hout hsum
    · refine key (t :: l) (List.nodup_cons.2 ⟨ht, hl⟩) List.mem_cons_self (fun u hu => hout u (fun h => hu (List.mem_cons_of_mem _ h))) ?_
      rw [List.countP_cons, List.countP_cons, hc]
      exact hsum
  | @effect st tr t k y af ha hc ih =>
    obtain ⟨l, extra, hx, hl, hout, hsum⟩ := ih hf
    have ht : t ∈ l := Classical.byContradiction fun e => by rw [hout t e] at hc; cases hc
    refine ⟨l, extra, hx, hl, fun u hu => ?_, ?_⟩
    · dsimp only; rw [put_other _ _ (fun e => hu (by rw [e]; exact ht))]; exact hout u hu
    · have e1 := countP_put st.calls (up x) t (some ⟨k, y, some (st.present y, af)⟩) l hl ht
      have e2 := countP_put st.calls (down x) t (some ⟨k, y, some (st.present y, af)⟩) l hl ht
      have u0 : up x (some ⟨k, y, none⟩) = false := rfl
      have d0 : down x (some ⟨k, y, none⟩) = false := rfl
      rw [hc, u0, up_val] at e1
      rw [hc, d0, down_val] at e2
      dsimp only
      by_cases e : x = y
      · subst e
        rw [put_same]
        cases hb : st.present x <;> cases af <;>
          simp only [hb, beq_self_eq_true, Bool.not_true, Bool.not_false, Bool.and_true, Bool.and_false, Bool.toNat_true, Bool.toNat_false] at e1 e2 hsum ⊢ <;> omega
      · have hyx : (y == x) = false := by simpa using Ne.symm e
        rw [put_other _ _ e]
        simp only [hyx, Bool.and_false, Bool.toNat_false, Nat.add_zero] at e1 e2
        omega
  | @ret st tr t k y b a r ha hc hal ih =>
    have hf' : ∀ k, results k x .failed tr = 0 := fun k' => by
      have := hf k'; simp only [results] at this; omega
    obtain ⟨l, extra, hx, hl, hout, hsum⟩ := ih hf'
    have ht : t ∈ l := Classical.byContradiction fun e => by rw [hout t e] at hc; cases hc
    have hcall : calling tr t = some (k, y) := by rw [atomic_calling ha, hc]; rfl
    have hnf : y = x → r ≠ .failed := fun e1 e2 => by
      have := hf k
      simp only [results, hcall, e1, e2, and_self, if_true] at this
      omega
    refine ⟨l, extra + (if y = x ∧ k = .delete ∧ r = .ok ∧ b = false then 1 else 0), fun hd => ?_, hl, fun u hu => ?_, ?_⟩
    · rw [hx hd, if_neg]
      rintro ⟨rfl, rfl, rfl, rfl⟩
      rcases hal.2 with h | h
      · cases h
      · rw [hd] at h; cases h
    · dsimp only; rw [put_other _ _ (fun e => hu (by rw [e]; exact ht))]; exact hout u hu
    · have e1 := countP_put st.calls (up x) t none l hl ht
      have e2 := countP_put st.calls (down x) t none l hl ht
      have u0 : up x none = false := rfl
      have d0 : down x none = false := rfl
      rw [hc, u0, up_val] at e1
      rw [hc, d0, down_val] at e2
      simp only [Bool.toNat_false, Nat.add_zero] at e1 e2
      simp only [results, hcall]
      by_cases e : y = x
      · subst e
        have hr := hnf rfl
        have fin : ∀ {A M D : Prop} [Decidable A] [Decidable M] [Decidable D], (A ↔ (k = .add ∧ r = .ok)) → (M ↔ (k = .add ∧ r = .missing)) →
            (D ↔ (k = .delete ∧ r = .ok)) →
            (if A then 1 else 0) + (if M then 1 else 0) = (!b && a).toNat ∧ (if D then 1 else 0) = (b && !a).toNat + (if k = .delete ∧ r = .ok ∧ b = false then 1 else 0) := by
          intro A M D _ _ _ hA hM hD
          cases k <;> cases r <;> simp [hA, hM, hD, Allowed] at hal hr ⊢ <;> simp [hal]
          all_goals first | (obtain ⟨rfl, rfl⟩ := hal; exact ⟨rfl, rfl⟩) | (cases b <;> rfl)
        obtain ⟨f1, f2⟩ := fin (A := some (k, y) = some (Kind.add, y) ∧ r = .ok)
          (M := some (k, y) = some (Kind.add, y) ∧ r = .missing) (D := some (k, y) = some (Kind.delete, y) ∧ r = .ok)
          (by simp) (by simp) (by simp)
        rw [f2]
        simp only [true_and]
        simp only [beq_self_eq_true, Bool.and_true] at e1 e2
        omega
      · have hyx : (y == x) = false := by simpa using e
        simp only [hyx, Bool.and_false, Bool.toNat_false, Nat.add_zero] at e1 e2
        have n1 : ¬ (some (k, y) = some (Kind.add, x) ∧ r = .ok) := fun h => e (congrArg Prod.snd (Option.some.inj h.1))
        have n2 : ¬ (some (k, y) = some (Kind.delete, x) ∧ r = .ok) := fun h => e (congrArg Prod.snd (Option.some.inj h.1))
        have n3 : ¬ (some (k, y) = some (Kind.add, x) ∧ r = .missing) := fun h => e (congrArg Prod.snd (Option.some.inj h.1))
        rw [if_neg n1, if_neg n2, if_neg n3, if_neg (fun h => e h.1)]
        omega

/-- The successful calls for a source add up to whether it is registered. -/
theorem quiet_balance (h1 : ru.deleteAny = false) {st : State α} {tr} (h : Atomic ru st tr) (hq : Quiescent tr)
    (x : α) (hf : ∀ k, results k x .failed tr = 0) :
    results .add x .ok tr + results .add x .missing tr = results .delete x .ok tr + (st.present x).toNat := by
  obtain ⟨l, extra, hx, _, _, hsum⟩ := atomic_balance h x hf
  have := hx h1
  have hn : ∀ t, st.calls t = none := fun t => by
    have := hq t
    rw [atomic_calling h] at this
    cases hc : st.calls t with
    | none => rfl
    | some c => rw [hc] at this; cases this
  have e1 : l.countP (fun t => up x (st.calls t)) = 0 := List.countP_eq_zero.2 fun t _ => by rw [hn]; exact nofun
  have e2 : l.countP (fun t => down x (st.calls t)) = 0 := List.countP_eq_zero.2 fun t _ => by rw [hn]; exact nofun
  omega

/-- The successful calls for a source bound whether it is registered. -/
theorem quiet_bound {st : State α} {tr} (h : Atomic ru st tr) (hq : Quiescent tr)
    (x : α) (hf : ∀ k, results k x .failed tr = 0) :
    results .add x .ok tr + results .add x .missing tr ≤ results .delete x .ok tr + (st.present x).toNat := by
  obtain ⟨l, extra, _, _, _, hsum⟩ := atomic_balance h x hf
  have hn : ∀ t, st.calls t = none := fun t => by
    have := hq t
    rw [atomic_calling h] at this
    cases hc : st.calls t with
    | none => rfl
    | some c => rw [hc] at this; cases this
  have e1 : l.countP (fun t => up x (st.calls t)) = 0 := List.countP_eq_zero.2 fun t _ => by rw [hn]; exact nofun
  have e2 : l.countP (fun t => down x (st.calls t)) = 0 := List.countP_eq_zero.2 fun t _ => by rw [hn]; exact nofun
  omega

/-- Where `add` may not say so, it never says that the source is missing. -/
theorem no_missing (h2 : ru.addMissing = false) {st : State α} {tr} (h : Atomic ru st tr) (x : α) : results .add x .missing tr = 0 := by
  induction h with
  | init => rfl
  | begin _ _ ih => exact ih
  | effect _ _ _ ih => exact ih
  | @ret st tr t k y b a r ha hc hal ih =>
    have hcall : calling tr t = some (k, y) := by rw [atomic_calling ha, hc]; rfl
    simp only [results, ih, hcall]
    rw [if_neg]
    rintro ⟨h3, rfl⟩
    cases h3
    rw [Allowed, h2] at hal
    cases hal.1

end Polling.Lin
