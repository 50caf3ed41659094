import Verif.Proof.AfdBytes

/-! C65: the kernel reads the request that the library means, and the library the kernel's answer, byte by byte; neither
writes outside of what is its own. -/

namespace Polling.C65

open Layout WinSpec

/-- 64-bit Windows: a `PacketInner` of 128 bytes with the info after a tag. -/
def win64 : Cfg := ⟨8, ⟨128, 8⟩, 8⟩
/-- 32-bit Windows. -/
def win32 : Cfg := ⟨4, ⟨96, 8⟩, 8⟩

example : Sound win64 := ⟨.inr rfl, by decide, by decide, by decide, by decide⟩
example : Sound win32 := ⟨.inl rfl, by decide, by decide, by decide, by decide⟩

/-- The request that the kernel reads, at the address and of the size that it is told, is: this socket, these events, no time
limit, not exclusive.  The status block says "pending".  Both are in the memory of the packet, suitably aligned. -/
theorem kernel_reads_request (c : Cfg) (hc : Sound c) (m m' : Mem) (a sock : Nat) (hs : sock < 256 ^ c.p) (ev : Iocp.Mask) (k : Ioctl)
    (h : poll c m a sock ev = (some k, m')) :
    request c.p m' k.input = { timeout := 2 ^ 63 - 1, count := 1, exclusive := 0, handle := sock, events := ev.toNat, status := 0 } ∧
    k.inputLen = infoSize ∧ k.outputLen = infoSize ∧ k.output = k.input ∧ k.code = 0x12024 ∧
    word m' 4 k.iosb = 0x103 ∧ k.iosb = a ∧ k.context = a ∧
    a ≤ k.input ∧ k.input + infoSize ≤ a + (reprC (block c.p c.data)).size ∧
    ((reprC (block c.p c.data)).align ∣ a → c.p ∣ k.iosb ∧ (8 ∣ a → 8 ∣ k.input)) := by
  obtain ⟨-, rfl, rfl⟩ := poll_some h
  obtain ⟨i0, i1, i2, i3, i4, -⟩ := info_offs hc.ptr
  obtain ⟨s0, s1, s2⟩ := ioStatus_offs hc.ptr
  obtain ⟨hf0, hf1, hf2⟩ := handleField_eq hc.ptr (infoAddr c a)
  obtain ⟨hb1, hb2⟩ := infoAddr_eq hc a
  have hev : ev.toNat < 256 ^ 4 := ev.isLt
  have hal : 8 ∣ a → 8 ∣ infoAddr c a := by
    intro h8
    unfold infoAddr
    rw [(block_offs hc.ptr c.data hc.align).2.2.1]
    exact Nat.dvd_add (Nat.dvd_add h8 (Nat.dvd_trans hc.aligned (up_dvd _ _))) hc.infoAligned
  have hp : 1 ≤ c.p ∧ 4 ≤ 2 * c.p := by rcases hc.ptr with hp | hp <;> omega
  dsimp only
  unfold iosbAddr
  unfold infoSize at hb2
  refine ⟨?_, i4, i4, rfl, rfl, ?_, rfl, rfl, by omega, hb2, ?_⟩
  · unfold request fill
    dsimp only
    rw [i0, i1, i2, hf0, hf1, hf2, s0]
    generalize infoAddr c a = b at *
    rw [Request.mk.injEq]
    refine ⟨?_, ?_, ?_, ?_, ?_, ?_⟩
    · rw [word_put_other (by omega), word_put_other (by omega), word_put_other (by omega), word_put_other (by omega)]
      exact word_put_same (by decide)
    · rw [word_put_other (by omega), word_put_other (by omega), word_put_other (by omega), word_put_other (by omega),
        word_put_other (by omega), word_put_same (by decide)]
    · rw [word_put_other (by omega), word_put_other (by omega), word_put_other (by omega), word_put_other (by omega),
        word_put_other (by omega), word_put_other (by omega), word_put_same (by decide)]
    · rw [word_put_other (by omega), word_put_other (by omega), word_put_other (by omega), word_put_same hs]
    · rw [word_put_other (by omega), word_put_same hev]
    · rw [word_put_other (by omega), word_put_other (by omega), word_put_same (by decide)]
  · rw [s0]
    exact word_put_same (by decide)
  · intro hd
    refine ⟨Nat.dvd_trans ?_ hd, hal⟩
    unfold reprC maxAlign block
    dsimp only
    simp only [List.foldl_cons, List.foldl_nil, s2, Layout.bool]
    have h8 := hc.aligned
    have hpos := hc.align
    have hp8 : c.p ∣ 8 := by rcases hc.ptr with hp | hp <;> rw [hp] <;> decide
    have hle : c.p ≤ c.data.align := Nat.le_trans (Nat.le_of_dvd (by decide) hp8) (Nat.le_of_dvd hpos h8)
    have e : max (max (max (max 1 c.p) 1) c.data.align) 1 = c.data.align := by omega
    rw [e]
    exact Nat.dvd_trans hp8 h8

/-- The bytes that `poll` changes are the status, the lock and the request, all in the packet. -/
theorem poll_confined (c : Cfg) (hc : Sound c) (m : Mem) (a sock : Nat) (ev : Iocp.Mask) (x : Nat)
    (hx : (poll c m a sock ev).2 x ≠ m x) :
    Within x a 4 ∨ x = inUseAddr c a ∨ Within x (infoAddr c a) infoSize := by
  obtain ⟨i0, i1, i2, i3, i4, -⟩ := info_offs hc.ptr
  obtain ⟨hf0, hf1, hf2⟩ := handleField_eq hc.ptr (infoAddr c a)
  have hp : c.p ≤ 8 := by rcases hc.ptr with hp | hp <;> omega
  refine Classical.byContradiction fun hno => hx ?_
  rw [not_or, not_or] at hno
  obtain ⟨n1, n2, n3⟩ := hno
  unfold Within infoSize at n3
  have hl : put m 1 (inUseAddr c a) 1 x = m x := put_out fun hw => n2 (by have := hw.1; have := hw.2; omega)
  unfold poll tryLock
  dsimp only
  split
  · unfold fill iosbAddr
    dsimp only
    rw [(ioStatus_offs hc.ptr).1, Nat.add_zero, put_out n1, i0, i1, i2, hf0, hf1, hf2]
    generalize infoAddr c a = b at *
    rw [put_out, put_out, put_out, put_out, put_out, put_out, hl] <;>
    · intro hw
      have := hw.1; have := hw.2
      omega
  · exact hl

/-- The kernel does not touch the lock, nor anything else of the packet but the status block and the request: what it changes
is one of these. -/
theorem kernel_confined (c : Cfg) (hc : Sound c) (m m' m2 : Mem) (a sock : Nat) (ev : Iocp.Mask) (k : Ioctl) (n e st : Nat)
    (h : poll c m a sock ev = (some k, m')) (hk : Completes c.p k n e st m' m2) :
    m2 (inUseAddr c a) = m' (inUseAddr c a) ∧
    ∀ x, m2 x ≠ m' x → Within x a (reprC (block c.p c.data)).size ∧
      (Within x a (2 * c.p) ∨ Within x (infoAddr c a) infoSize) := by
  obtain ⟨-, -, rfl⟩ := poll_some h
  obtain ⟨-, -, -, hk⟩ := hk
  dsimp only at hk
  obtain ⟨hb1, hb2⟩ := infoAddr_eq hc a
  rw [(info_offs hc.ptr).2.2.2.2.1] at hk
  unfold iosbAddr at hk
  unfold infoSize at hb2 ⊢
  refine ⟨hk _ ?_ ?_, ?_⟩
  · rw [inUse_eq hc]
    intro hw
    have := hw.1
    omega
  · rw [inUse_eq hc]
    intro hw
    have := hw.2
    omega
  · intro x hx
    have hor : Within x a (2 * c.p) ∨ Within x (infoAddr c a) 32 := by
      refine Classical.byContradiction fun hno => hx ?_
      rw [not_or] at hno
      exact hk x hno.2 hno.1
    refine ⟨?_, hor⟩
    rcases hor with hw | hw
    · exact ⟨hw.1, by have := hw.2; omega⟩
    · exact ⟨by have := hw.1; omega, by have := hw.2; omega⟩

/-- A packet that the kernel has is not given to it again, whatever the kernel writes in the meantime, until the entry for it
was taken from the port; then it can be. -/
theorem polled_once (c : Cfg) (hc : Sound c) (m m' m2 : Mem) (a sock : Nat) (ev : Iocp.Mask) (k : Ioctl) (n e st : Nat)
    (h : poll c m a sock ev = (some k, m')) (hk : Completes c.p k n e st m' m2) (sock' : Nat) (ev' : Iocp.Mask) :
    (poll c m' a sock' ev').1 = none ∧ (poll c m2 a sock' ev').1 = none ∧
    (fromEntry c m2 k.context).1 = a ∧ (poll c (fromEntry c m2 k.context).2 a sock' ev').1 ≠ none := by
  have hu := (kernel_confined c hc m m' m2 a sock ev k n e st h hk).1
  obtain ⟨-, rfl, rfl⟩ := poll_some h
  obtain ⟨hb1, hb2⟩ := infoAddr_eq hc a
  obtain ⟨i0, i1, i2, i3, i4, -⟩ := info_offs hc.ptr
  obtain ⟨hf0, hf1, hf2⟩ := handleField_eq hc.ptr (infoAddr c a)
  have hp : 4 ≤ c.p ∧ c.p ≤ 8 := by rcases hc.ptr with hp | hp <;> omega
  have h1 : ∀ (v : Nat), v < 256 → (put m 1 (inUseAddr c a) v (inUseAddr c a)).val = v := by
    intro v hv
    rw [put_in (Nat.le_refl _) (by omega), Nat.sub_self, Nat.pow_zero, Nat.div_one, Nat.mod_eq_of_lt hv]
  have hset : (put (fill c.p (put m 1 (inUseAddr c a) 1) (infoAddr c a) sock ev) 4 (iosbAddr a + off (ioStatus c.p) 0) STATUS_PENDING)
      (inUseAddr c a) ≠ 0 := by
    have e1 := h1 1 (by decide)
    unfold fill iosbAddr
    dsimp only
    rw [(ioStatus_offs hc.ptr).1, i0, i1, i2, hf0, hf1, hf2]
    rw [put_out, put_out, put_out, put_out, put_out, put_out, put_out]
    · intro h0
      rw [h0] at e1
      cases e1
    all_goals
      rw [inUse_eq hc]
      intro hw
      have := hw.1; have := hw.2
      omega
  have hlocked : ∀ {m0 : Mem}, m0 (inUseAddr c a) ≠ 0 → (poll c m0 a sock' ev').1 = none := by
    intro m0 h0
    unfold poll tryLock
    dsimp only
    rw [if_neg (by rw [decide_eq_true_eq]; exact h0)]
  refine ⟨hlocked hset, hlocked (by rw [hu]; exact hset), rfl, ?_⟩
  unfold fromEntry unlock poll tryLock iosbAddr
  dsimp only
  rw [if_pos]
  · nofun
  · rw [decide_eq_true_eq]
    apply Fin.ext
    rw [put_in (Nat.le_refl _) (by omega), Nat.zero_div]
    rfl

/-- The library reads the kernel's answer: the number of handles and the events that were stored; and `cancel` finds the
operation pending exactly if the status still says so: before the kernel completes it, it does. -/
theorem library_reads_answer (c : Cfg) (hc : Sound c) (m m' m2 : Mem) (a sock : Nat) (ev : Iocp.Mask) (k : Ioctl) (n st : Nat)
    (e : Iocp.Mask) (h : poll c m a sock ev = (some k, m')) (hk : Completes c.p k n e.toNat st m' m2) :
    handleCount c m2 a = n ∧ events c m2 a = e ∧ pending c m' a = true ∧ (pending c m2 a = true ↔ st = 0x103) := by
  obtain ⟨-, rfl, rfl⟩ := poll_some h
  obtain ⟨h1, h2, h3, -⟩ := hk
  dsimp only at h1 h2 h3
  obtain ⟨i0, i1, i2, i3, i4, -⟩ := info_offs hc.ptr
  obtain ⟨hf0, hf1, hf2⟩ := handleField_eq hc.ptr (infoAddr c a)
  refine ⟨?_, ?_, ?_, ?_⟩
  · unfold handleCount
    rw [i1]
    exact h1
  · unfold events
    rw [hf1, h2]
    exact BitVec.ofNat_toNat 32 e ▸ BitVec.setWidth_eq e
  · unfold pending
    rw [decide_eq_true_eq]
    exact word_put_same (by decide)
  · unfold pending
    rw [decide_eq_true_eq, (ioStatus_offs hc.ptr).1, Nat.add_zero, h3]
    exact Iff.rfl

/-- Polls of different packets do not disturb each other: what `poll` does to one packet changes no byte of another. -/
theorem packets_apart (c : Cfg) (hc : Sound c) (m : Mem) (a a2 sock : Nat) (ev : Iocp.Mask)
    (hap : a + (reprC (block c.p c.data)).size ≤ a2 ∨ a2 + (reprC (block c.p c.data)).size ≤ a) (x : Nat)
    (hx : Within x a2 (reprC (block c.p c.data)).size) : (poll c m a sock ev).2 x = m x := by
  refine Decidable.byContradiction fun hne => ?_
  obtain ⟨hb1, hb2⟩ := infoAddr_eq hc a
  have hu := inUse_eq hc a
  have hp : 4 ≤ c.p := by rcases hc.ptr with hp | hp <;> omega
  unfold infoSize at hb2
  have hx1 := hx.1
  have hx2 := hx.2
  rcases poll_confined c hc m a sock ev x hne with hw | hw | hw
  · have := hw.1; have := hw.2
    omega
  · omega
  · have := hw.1; have := hw.2
    unfold infoSize at this
    omega

/-- The name of the device as the kernel reads it (`Length` bytes): a name below `\Device\Afd`, with the terminating zero as a
part of the name. -/
theorem device_name : afdName.take (afdNameLength / 2) = ("\\Device\\Afd\\".toList ++ "Smol".toList).map Char.toNat ++ [0] := by
  decide

/-- What the kernel reads when the device is opened, with its own offsets: the attributes have the size that it expects, the name of
the device is not relative to a directory, and no flags or security descriptors are given.  The three pieces of memory only have to be
apart. -/
theorem kernel_reads_name (p : Nat) (hp : p = 4 ∨ p = 8) (m : Mem) (n u o : Nat) (hn : n < 256 ^ p) (hu : u < 256 ^ p)
    (h1 : n + 34 ≤ u ∨ u + 2 * p ≤ n) (h2 : n + 34 ≤ o ∨ o + 6 * p ≤ n) (h3 : u + 2 * p ≤ o ∨ o + 6 * p ≤ u) :
    attributes p (openAttr p m n u o) o =
      { length := 6 * p, root := 0, flags := 0, security := 0, quality := 0, name := "\\Device\\Afd\\Smol\x00".toList.map Char.toNat } := by
  obtain ⟨u0, u1, u2, -⟩ := unicode_offs hp
  obtain ⟨o0, o1, o2, o3, o4, o5, os⟩ := objAttr_offs hp
  have hl : afdNameLength % 2 ^ 16 = 34 := by decide
  have hs : 6 * p % 2 ^ 32 = 6 * p ∧ 6 * p < 256 ^ 4 := by rcases hp with rfl | rfl <;> decide
  have hp4 : 4 ≤ p := by omega
  have hz : 0 < 256 ^ p := Nat.pow_pos (by decide)
  have hU : word (openAttr p m n u o) p (o + 2 * p) = u := by
    unfold openAttr; dsimp only
    rw [o0, o1, o2, o3, o4, o5, os]
    rw [word_put_other (by omega), word_put_other (by omega), word_put_other (by omega), word_put_same hu]
  have hL : word (openAttr p m n u o) 2 u = 34 := by
    unfold openAttr; dsimp only
    rw [u0, u1, u2, o0, o1, o2, o3, o4, o5, os, hl]
    rw [word_put_other (by omega), word_put_other (by omega), word_put_other (by omega), word_put_other (by omega), word_put_other (by omega),
      word_put_other (by omega), word_put_other (by omega), word_put_other (by omega), Nat.add_zero, word_put_same (by decide)]
  have hB : word (openAttr p m n u o) p (u + p) = n := by
    unfold openAttr; dsimp only
    rw [u0, u1, u2, o0, o1, o2, o3, o4, o5, os]
    rw [word_put_other (by omega), word_put_other (by omega), word_put_other (by omega), word_put_other (by omega), word_put_other (by omega),
      word_put_other (by omega), word_put_same hn]
  unfold attributes
  dsimp only
  rw [hU, hL, hB]
  rw [Attributes.mk.injEq]
  unfold openAttr; dsimp only
  rw [u0, u1, u2, o0, o1, o2, o3, o4, o5, os, hl, hs.1]
  refine ⟨?_, ?_, ?_, ?_, ?_, ?_⟩
  · rw [word_put_other (by omega), word_put_other (by omega), word_put_other (by omega), word_put_other (by omega), word_put_other (by omega)]
    exact word_put_same hs.2
  · rw [word_put_other (by omega), word_put_other (by omega), word_put_other (by omega), word_put_other (by omega), word_put_same hz]
  · rw [word_put_other (by omega), word_put_other (by omega), word_put_same (by decide)]
  · rw [word_put_other (by omega), word_put_same hz]
  · rw [word_put_same hz]
  · rw [wide_put_other (by omega), wide_put_other (by omega), wide_put_other (by omega), wide_put_other (by omega), wide_put_other (by omega),
      wide_put_other (by omega), wide_put_other (by omega), wide_put_other (by omega), wide_put_other (by omega)]
    exact wide_putWide (l := afdName) (by decide)

/-- Both sizes of pointers. -/
example : attributes 8 (openAttr 8 (fun _ => 7) 100 200 300) 300 = ⟨48, 0, 0, 0, 0, afdName⟩ ∧
    attributes 4 (openAttr 4 (fun _ => 7) 100 200 300) 300 = ⟨24, 0, 0, 0, 0, afdName⟩ := by decide +kernel

/-! ### A run -/

/-- A packet at 1000 is polled for reading on socket 77; the kernel answers "one handle, readable". -/
def exPoll : Option Ioctl × Mem := poll win64 (fun _ => 0) 1000 77 Iocp.RECEIVE

/-- What the kernel stores. -/
def exDone : Mem := put (put (put exPoll.2 4 (1032 + 8) 1) 4 (1032 + 24) 1) 4 1000 0

example : exPoll.1 = some ⟨1000, 1000, 0x12024, 1032, 32, 1032, 32⟩ := by decide +kernel
example : request 8 exPoll.2 1032 = ⟨2 ^ 63 - 1, 1, 0, 77, 1, 0⟩ := by decide +kernel
example : handleCount win64 exDone 1000 = 1 ∧ events win64 exDone 1000 = Iocp.RECEIVE ∧ pending win64 exDone 1000 = false := by decide +kernel
/-- and it is an answer as `Completes` demands -/
example : Completes 8 ⟨1000, 1000, 0x12024, 1032, 32, 1032, 32⟩ 1 1 0 exPoll.2 exDone := by
  refine ⟨by decide +kernel, by decide +kernel, by decide +kernel, fun x h1 h2 => ?_⟩
  unfold exDone
  unfold Within at h1 h2
  dsimp only at h1 h2
  rw [put_out, put_out, put_out] <;>
  · intro hw
    have := hw.1; have := hw.2
    omega

end Polling.C65
