import Verif.Model.Layout

/-! Lemmas about the bytes of AFD requests. -/

namespace Polling.Layout

open WinSpec

theorem put_in {m : Mem} {n a v x : Nat} (h1 : a ≤ x) (h2 : x < a + n) : (put m n a v x).val = v / 256 ^ (x - a) % 256 := by
  unfold put
  rw [if_pos ⟨h1, h2⟩]

theorem put_out {m : Mem} {n a v x : Nat} (h : ¬ Within x a n) : put m n a v x = m x := by
  unfold put
  exact if_neg h

/-- Words depend on their bytes only. -/
theorem word_congr {m m' : Mem} {n a : Nat} (h : ∀ x, Within x a n → m' x = m x) : word m' n a = word m n a := by
  induction n generalizing a with
  | zero => rfl
  | succ n ih =>
    unfold word
    rw [h a ⟨Nat.le_refl _, by omega⟩, ih fun x hx => h x ⟨by have := hx.1; omega, by have := hx.2; omega⟩]

/-- A word elsewhere is not changed. -/
theorem word_put_other {m : Mem} {n a k b v : Nat} (h : a + n ≤ b ∨ b + k ≤ a) : word (put m k b v) n a = word m n a := by
  refine word_congr fun x hx => put_out fun hx2 => ?_
  have := hx.1; have := hx.2; have := hx2.1; have := hx2.2
  omega

theorem word_put_part {m : Mem} {n a v : Nat} (k j : Nat) (h : j + k ≤ n) : word (put m n a v) k (a + j) = v / 256 ^ j % 256 ^ k := by
  induction k generalizing j with
  | zero => unfold word; rw [Nat.pow_zero, Nat.mod_one]
  | succ k ih =>
    unfold word
    rw [put_in (by omega) (by omega), Nat.add_sub_cancel_left, Nat.add_assoc, ih (j + 1) (by omega),
      Nat.pow_succ 256 j, ← Nat.div_div_eq_div_mul, Nat.pow_succ 256 k, Nat.mul_comm (256 ^ k) 256, Nat.mod_mul]

/-- The word that was stored. -/
theorem word_put_same {m : Mem} {n a v : Nat} (h : v < 256 ^ n) : word (put m n a v) n a = v := by
  have := word_put_part (m := m) (n := n) (a := a) (v := v) n 0 (by omega)
  rw [Nat.add_zero, Nat.pow_zero, Nat.div_one, Nat.mod_eq_of_lt h] at this
  exact this

theorem up_ge (n a : Nat) (h : 0 < a) : n ≤ up n a := by
  unfold up
  have h1 := Nat.div_add_mod (n + a - 1) a
  have h2 := Nat.mod_lt (n + a - 1) h
  rw [Nat.mul_comm]
  generalize a * ((n + a - 1) / a) = q at h1 ⊢
  generalize (n + a - 1) % a = r at h1 h2
  omega

theorem up_dvd (n a : Nat) : a ∣ up n a := ⟨_, Nat.mul_comm _ _⟩

theorem up_one (n : Nat) : up n 1 = n := by
  unfold up
  rw [Nat.div_one, Nat.mul_one]
  omega

/-- Pointers have 4 or 8 bytes. -/
def Ptr (p : Nat) : Prop := p = 4 ∨ p = 8

theorem info_offs {p : Nat} (h : Ptr p) : off (info p) 0 = 0 ∧ off (info p) 1 = 8 ∧ off (info p) 2 = 12 ∧ off (info p) 3 = 16 ∧
    (reprC (info p)).size = 32 ∧ (reprC (info p)).align = 8 := by
  rcases h with rfl | rfl <;> decide

theorem handle_offs {p : Nat} (h : Ptr p) : off (handleInfo p) 0 = 0 ∧ off (handleInfo p) 1 = p ∧ off (handleInfo p) 2 = p + 4 := by
  rcases h with rfl | rfl <;> decide

theorem ioStatus_offs {p : Nat} (h : Ptr p) : off (ioStatus p) 0 = 0 ∧ (reprC (ioStatus p)).size = 2 * p ∧ (reprC (ioStatus p)).align = p := by
  rcases h with rfl | rfl <;> decide

theorem block_offs {p : Nat} (h : Ptr p) (d : Lay) (hd : 0 < d.align) :
    off (block p d) 0 = 0 ∧ off (block p d) 1 = 2 * p ∧ off (block p d) 2 = up (2 * p + 1) d.align ∧ 2 * p + 1 ≤ off (block p d) 2 ∧
    off (block p d) 2 + d.size ≤ (reprC (block p d)).size := by
  have hu : up 0 p = 0 := by rcases h with rfl | rfl <;> decide
  have e1 : place (block p d) 0 = ([0, 2 * p, up (2 * p + 1) d.align, up (2 * p + 1) d.align + d.size], up (2 * p + 1) d.align + d.size) := by
    unfold block
    simp only [place, bool, (ioStatus_offs h).2.1, (ioStatus_offs h).2.2, hu, up_one, Nat.zero_add, Nat.add_zero]
  have hge := up_ge (2 * p + 1) d.align hd
  have e2 : off (block p d) 2 = up (2 * p + 1) d.align := by unfold off; rw [e1]; rfl
  refine ⟨by unfold off; rw [e1]; rfl, by unfold off; rw [e1]; rfl, e2, by rw [e2]; exact hge, ?_⟩
  rw [e2]
  unfold reprC
  rw [e1]
  refine up_ge _ _ ?_
  unfold maxAlign block
  simp only [List.foldl_cons, List.foldl_nil]
  omega

/-- What Rust guarantees of the layout: the `AfdPollInfo` is inside of the `PacketInner`, both are aligned for it, and pointers
have 4 or 8 bytes. -/
structure Sound (c : Cfg) : Prop where
  ptr : Ptr c.p
  inside : c.infoOff + infoSize ≤ c.data.size
  align : 0 < c.data.align
  aligned : 8 ∣ c.data.align
  infoAligned : 8 ∣ c.infoOff

theorem infoAddr_eq {c : Cfg} (hc : Sound c) (a : Nat) : a + 2 * c.p + 1 ≤ infoAddr c a ∧
    infoAddr c a + infoSize ≤ a + (reprC (block c.p c.data)).size := by
  obtain ⟨-, -, -, h4, h5⟩ := block_offs hc.ptr c.data hc.align
  have := hc.inside
  unfold infoAddr
  omega

theorem inUse_eq {c : Cfg} (hc : Sound c) (a : Nat) : inUseAddr c a = a + 2 * c.p := by
  unfold inUseAddr
  rw [(block_offs hc.ptr c.data hc.align).2.1]

theorem handleField_eq {p : Nat} (hp : Ptr p) (b : Nat) : handleField p b 0 = b + 16 ∧ handleField p b 1 = b + 16 + p ∧
    handleField p b 2 = b + 20 + p := by
  unfold handleField
  rw [(info_offs hp).2.2.2.1, (handle_offs hp).1, (handle_offs hp).2.1, (handle_offs hp).2.2]
  omega

theorem poll_some {c : Cfg} {m m' : Mem} {a sock : Nat} {ev : Iocp.Mask} {k : Ioctl} (h : poll c m a sock ev = (some k, m')) :
    m (inUseAddr c a) = 0 ∧
    m' = put (fill c.p (put m 1 (inUseAddr c a) 1) (infoAddr c a) sock ev) 4 (iosbAddr a + off (ioStatus c.p) 0) STATUS_PENDING ∧
    k = { iosb := iosbAddr a, context := iosbAddr a, code := IOCTL_AFD_POLL, input := infoAddr c a,
          inputLen := (reprC (info c.p)).size, output := infoAddr c a, outputLen := (reprC (info c.p)).size } := by
  unfold poll tryLock at h
  dsimp only at h
  split at h
  · next hu =>
    rw [Prod.mk.injEq] at h
    exact ⟨of_decide_eq_true hu, h.2.symm, (Option.some.inj h.1).symm⟩
  · cases h

theorem unicode_offs {p : Nat} (h : Ptr p) : off (unicode p) 0 = 0 ∧ off (unicode p) 1 = 2 ∧ off (unicode p) 2 = p ∧ (reprC (unicode p)).size = 2 * p := by
  rcases h with rfl | rfl <;> decide

theorem objAttr_offs {p : Nat} (h : Ptr p) : off (objAttr p) 0 = 0 ∧ off (objAttr p) 1 = p ∧ off (objAttr p) 2 = 2 * p ∧ off (objAttr p) 3 = 3 * p ∧
    off (objAttr p) 4 = 4 * p ∧ off (objAttr p) 5 = 5 * p ∧ (reprC (objAttr p)).size = 6 * p := by
  rcases h with rfl | rfl <;> decide

theorem wide_congr {m m' : Mem} {n a : Nat} (h : ∀ x, Within x a (2 * n) → m' x = m x) : wide m' n a = wide m n a := by
  induction n generalizing a with
  | zero => rfl
  | succ n ih =>
    simp only [wide]
    rw [word_congr (m' := m') (m := m) (n := 2) (a := a) fun x hx => h x ⟨hx.1, by have := hx.2; omega⟩]
    rw [ih fun x hx => h x ⟨by have := hx.1; omega, by have := hx.2; omega⟩]

theorem wide_put_other {m : Mem} {n a k b v : Nat} (h : a + 2 * n ≤ b ∨ b + k ≤ a) : wide (put m k b v) n a = wide m n a :=
  wide_congr fun x hx => put_out (by intro hy; have := hx.1; have := hx.2; have := hy.1; have := hy.2; omega)

theorem wide_putWide {m : Mem} {l : List Nat} {a : Nat} (h : ∀ v ∈ l, v < 2 ^ 16) : wide (putWide m l a) l.length a = l := by
  induction l generalizing a with
  | nil => rfl
  | cons v l ih =>
    simp only [putWide, List.length_cons, wide]
    rw [word_put_same (by have := h v (List.mem_cons_self ..); omega), wide_put_other (by omega), ih fun w hw => h w (List.mem_cons_of_mem _ hw)]

end Polling.Layout
