import Verif.Proof.Layout
import Verif.Model.AfdBytes

/-! The packets of sockets and the kernel: the invariant. -/

namespace Polling.AfdBytes

open WinSpec Layout

/-- The size of a packet. -/
abbrev psize (c : Cfg) : Nat := (reprC (block c.p c.data)).size

/-- Different packets do not overlap. -/
def Apart (c : Cfg) (P : Nat → Prop) : Prop := ∀ a b, P a → P b → a ≠ b → a + psize c ≤ b ∨ b + psize c ≤ a

/-- The arguments for the packet at `a`. -/
def args (c : Cfg) (a : Nat) : Ioctl :=
  { iosb := a, context := a, code := IOCTL_AFD_POLL, input := infoAddr c a, inputLen := infoSize, output := infoAddr c a, outputLen := infoSize }

/-- What is true of a packet. -/
def Fact (c : Cfg) (m : Mem) (tr : List BObs) (a : Nat) : Phase → Prop
  | .idle => m (inUseAddr c a) = 0 ∧ busy a tr = false
  | .kernel k => k = args c a ∧ m (inUseAddr c a) ≠ 0 ∧ busy a tr = true ∧
      ∃ s e, question a tr = some (s, e) ∧ request c.p m (infoAddr c a) = plain s e
  | .port k => k = args c a ∧ m (inUseAddr c a) ≠ 0 ∧ busy a tr = true ∧
      answer a tr = some (handleCount c m a, (events c m a).toNat, status c m a)

/-- The invariant. -/
structure Inv (c : Cfg) (P : Nat → Prop) (s : S) (tr : List BObs) : Prop where
  packet : ∀ a, ¬ P a → s.ph a = .idle
  fact : ∀ a, P a → Fact c s.m tr a (s.ph a)
  right : Right tr

/-- The facts depend on the bytes of the packet only. -/
theorem Fact.frame {c : Cfg} (hc : Sound c) {m m' : Mem} {tr tr' : List BObs} {a : Nat} {p : Phase} (h : Fact c m tr a p)
    (hm : ∀ x, Within x a (psize c) → m' x = m x) (hb : busy a tr' = busy a tr) (hq : question a tr' = question a tr)
    (ha : answer a tr' = answer a tr) : Fact c m' tr' a p := by
  obtain ⟨hb1, hb2⟩ := infoAddr_eq hc a
  have hu := inUse_eq hc a
  have hp : 4 ≤ c.p ∧ c.p ≤ 8 := by rcases hc.ptr with hp | hp <;> omega
  obtain ⟨i0, i1, i2, i3, i4, -⟩ := info_offs hc.ptr
  obtain ⟨-, hf1, -⟩ := handleField_eq hc.ptr (infoAddr c a)
  obtain ⟨s0, -, -⟩ := ioStatus_offs hc.ptr
  unfold infoSize at hb2
  have e1 : m' (inUseAddr c a) = m (inUseAddr c a) := hm _ ⟨by omega, by unfold psize; omega⟩
  have ew : ∀ n b, a ≤ b → b + n ≤ a + psize c → word m' n b = word m n b := fun n b h1 h2 =>
    word_congr fun x hx => hm x ⟨by have := hx.1; omega, by have := hx.2; omega⟩
  unfold psize at ew
  cases p with
  | idle => exact ⟨by rw [e1]; exact h.1, by rw [hb]; exact h.2⟩
  | kernel k =>
    obtain ⟨h1, h2, h3, s, e, h4, h5⟩ := h
    refine ⟨h1, by rw [e1]; exact h2, by rw [hb]; exact h3, s, e, by rw [hq]; exact h4, ?_⟩
    rw [← h5]
    unfold request
    rw [ew _ _ (by omega) (by omega), ew _ _ (by omega) (by omega), ew _ _ (by omega) (by omega), ew _ _ (by omega) (by omega),
      ew _ _ (by omega) (by omega), ew _ _ (by omega) (by omega)]
  | port k =>
    obtain ⟨h1, h2, h3, h4⟩ := h
    refine ⟨h1, by rw [e1]; exact h2, by rw [hb]; exact h3, ?_⟩
    rw [ha, h4]
    unfold handleCount events status iosbAddr
    rw [i1, hf1, s0, ew 4 (infoAddr c a + 8) (by omega) (by omega), ew 4 (infoAddr c a + 16 + c.p) (by omega) (by omega),
      ew 4 (a + 0) (by omega) (by omega)]

/-- A change of the lock alone keeps everything but the lock. -/
theorem words_lock {c : Cfg} (hc : Sound c) (m : Mem) (a v : Nat) :
    request c.p (put m 1 (inUseAddr c a) v) (infoAddr c a) = request c.p m (infoAddr c a) ∧
    handleCount c (put m 1 (inUseAddr c a) v) a = handleCount c m a ∧ events c (put m 1 (inUseAddr c a) v) a = events c m a ∧
    status c (put m 1 (inUseAddr c a) v) a = status c m a := by
  obtain ⟨hb1, hb2⟩ := infoAddr_eq hc a
  have hu := inUse_eq hc a
  have hp : 4 ≤ c.p ∧ c.p ≤ 8 := by rcases hc.ptr with hp | hp <;> omega
  obtain ⟨i0, i1, i2, i3, i4, -⟩ := info_offs hc.ptr
  obtain ⟨-, hf1, -⟩ := handleField_eq hc.ptr (infoAddr c a)
  obtain ⟨s0, -, -⟩ := ioStatus_offs hc.ptr
  refine ⟨?_, ?_, ?_, ?_⟩
  · unfold request
    rw [word_put_other (by omega), word_put_other (by omega), word_put_other (by omega), word_put_other (by omega),
      word_put_other (by omega), word_put_other (by omega)]
  · unfold handleCount
    rw [i1, word_put_other (by omega)]
  · unfold events
    rw [hf1, word_put_other (by omega)]
  · unfold status iosbAddr
    rw [s0, word_put_other (by omega)]

theorem put_lock (m : Mem) (u v : Nat) (hv : v < 256) : (put m 1 u v u).val = v := by
  rw [put_in (Nat.le_refl _) (by omega), Nat.sub_self, Nat.pow_zero, Nat.div_one, Nat.mod_eq_of_lt hv]

end Polling.AfdBytes
