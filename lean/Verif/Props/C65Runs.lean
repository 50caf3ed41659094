import Verif.Props.C65

/-! C65, for whole runs: any number of packets and operations at the same time. -/

namespace Polling.C65

open Layout WinSpec AfdBytes

theorem args_eq {c : Cfg} (hc : Sound c) {m m' : Mem} {a sock : Nat} {ev : Iocp.Mask} {k : Ioctl}
    (h : poll c m a sock ev = (some k, m')) : k = args c a := by
  obtain ⟨-, -, rfl⟩ := poll_some h
  rw [(info_offs hc.ptr).2.2.2.2.1]
  rfl

theorem poll_none {c : Cfg} {m m' : Mem} {a sock : Nat} {ev : Iocp.Mask} (h : poll c m a sock ev = (none, m')) :
    m (inUseAddr c a) ≠ 0 ∧ m' = put m 1 (inUseAddr c a) 1 := by
  unfold poll tryLock at h
  dsimp only at h
  split at h
  · cases h
  · next hu =>
    rw [Prod.mk.injEq] at h
    exact ⟨fun h0 => hu (decide_eq_true h0), h.2.symm⟩

theorem set_same (f : Nat → Phase) (a : Nat) (p : Phase) : set f a p a = p := if_pos rfl
theorem set_other (f : Nat → Phase) (a : Nat) (p : Phase) {x : Nat} (h : x ≠ a) : set f a p x = f x := if_neg h

/-- An answer of the kernel with the packet at `a` changes no byte of another packet, and not the lock. -/
theorem completes_frame {c : Cfg} (hc : Sound c) {m m' : Mem} {a n e st : Nat} (h : Completes c.p (args c a) n e st m m') :
    m' (inUseAddr c a) = m (inUseAddr c a) ∧
    ∀ b, a + psize c ≤ b ∨ b + psize c ≤ a → ∀ x, Within x b (psize c) → m' x = m x := by
  obtain ⟨-, -, -, h4⟩ := h
  obtain ⟨hb1, hb2⟩ := infoAddr_eq hc a
  have hu := inUse_eq hc a
  unfold infoSize at hb2
  have hp : 4 ≤ c.p := by rcases hc.ptr with hp | hp <;> omega
  dsimp only [args] at h4
  unfold infoSize at h4
  refine ⟨h4 _ ?_ ?_, fun b hab x hx => h4 _ ?_ ?_⟩
  all_goals
    intro hw
    have := hw.1
    have := hw.2
  · omega
  · omega
  · unfold psize at hab hx
    have := hx.1; have := hx.2
    omega
  · unfold psize at hab hx
    have := hx.1; have := hx.2
    omega

theorem inv_step {c : Cfg} (hc : Sound c) {P : Nat → Prop} (hap : Apart c P) {s s' : S} {tr : List BObs} {o : BObs}
    (h : Inv c P s tr) (hs : Step c P s o s') : Inv c P s' (o :: tr) := by
  cases hs with
  | @poll a sock ev k m' ha hsock hpoll =>
    have hu0 := (poll_some hpoll).1
    have hidle : Fact c s.m tr a (s.ph a) := h.fact a ha
    have hb : busy a tr = false := by
      cases hph : s.ph a with
      | idle => rw [hph] at hidle; exact hidle.2
      | kernel k => rw [hph] at hidle; exact absurd hu0 hidle.2.1
      | port k => rw [hph] at hidle; exact absurd hu0 hidle.2.1
    have hk := args_eq hc hpoll
    have hreq := kernel_reads_request c hc s.m m' a sock hsock ev k hpoll
    have hlock : m' (inUseAddr c a) ≠ 0 := by
      obtain ⟨-, em, -⟩ := poll_some hpoll
      intro h0
      have := (polled_once c hc s.m m' m' a sock ev k (word m' 4 (k.output + 8)) (word m' 4 (k.output + 16 + c.p)) (word m' 4 k.iosb)
        hpoll ⟨rfl, rfl, rfl, fun _ _ _ => rfl⟩ 0 0).1
      unfold Layout.poll tryLock at this
      dsimp only at this
      rw [if_pos (by rw [decide_eq_true_eq]; exact h0)] at this
      cases this
    refine ⟨fun b hb' => ?_, fun b hb' => ?_, ⟨hb, h.right⟩⟩
    · dsimp only
      rw [set_other _ _ _ (show b ≠ a from fun e => hb' (by rw [e]; exact ha))]
      exact h.packet b hb'
    · by_cases hba : b = a
      · subst hba
        dsimp only
        rw [set_same]
        refine ⟨hk, hlock, by simp only [busy, if_true], sock, ev.toNat, by simp only [question, if_true], ?_⟩
        have := hreq.1
        rw [hk] at this
        exact this
      · dsimp only
        rw [set_other _ _ _ hba]
        refine (h.fact b hb').frame hc (fun x hx => ?_) ?_ ?_ ?_
        · have := packets_apart c hc s.m a b sock ev (hap a b ha hb' (Ne.symm hba)) x hx
          rw [hpoll] at this
          exact this
        · simp only [busy, if_neg (Ne.symm hba)]
        · simp only [question, if_neg (Ne.symm hba)]
        · simp only [answer]
  | @refuse a sock ev m' ha hpoll =>
    obtain ⟨hne, rfl⟩ := poll_none hpoll
    have hf : Fact c s.m tr a (s.ph a) := h.fact a ha
    have hw := words_lock hc s.m a 1
    have hl : put s.m 1 (inUseAddr c a) 1 (inUseAddr c a) ≠ 0 := by
      intro h0
      have := put_lock s.m (inUseAddr c a) 1 (by decide)
      rw [h0] at this
      cases this
    refine ⟨h.packet, fun b hb' => ?_, ?_⟩
    · by_cases hba : b = a
      · subst hba
        dsimp only
        cases hph : s.ph b with
        | idle => rw [hph] at hf; exact absurd hf.1 hne
        | kernel k =>
          rw [hph] at hf
          obtain ⟨h1, -, h3, sk, e, h4, h5⟩ := hf
          exact ⟨h1, hl, h3, sk, e, h4, by rw [hw.1]; exact h5⟩
        | port k =>
          rw [hph] at hf
          obtain ⟨h1, -, h3, h4⟩ := hf
          exact ⟨h1, hl, h3, by rw [hw.2.1, hw.2.2.1, hw.2.2.2]; exact h4⟩
      · refine (h.fact b hb').frame hc (fun x hx => ?_) rfl rfl rfl
        have := packets_apart c hc s.m a b sock ev (hap a b ha hb' (Ne.symm hba)) x hx
        rw [hpoll] at this
        exact this
    · refine ⟨?_, h.right⟩
      cases hph : s.ph a with
      | idle => rw [hph] at hf; exact absurd hf.1 hne
      | kernel k => rw [hph] at hf; exact hf.2.2.1
      | port k => rw [hph] at hf; exact hf.2.2.1
  | @complete a k n st e m' hph hcomp =>
    have ha : P a := Classical.byContradiction fun hn => by
      have := h.packet a hn
      rw [hph] at this
      cases this
    have hf : Fact c s.m tr a (s.ph a) := h.fact a ha
    rw [hph] at hf
    obtain ⟨rfl, h2, h3, sk, ev, h4, h5⟩ := hf
    obtain ⟨hlk, hfr⟩ := completes_frame hc hcomp
    obtain ⟨c1, c2, c3, -⟩ := hcomp
    obtain ⟨i0, i1, i2, i3, i4, -⟩ := info_offs hc.ptr
    obtain ⟨-, hf1, -⟩ := handleField_eq hc.ptr (infoAddr c a)
    obtain ⟨s0, -, -⟩ := ioStatus_offs hc.ptr
    refine ⟨fun b hb' => ?_, fun b hb' => ?_, ⟨⟨sk, ev, h4, h5⟩, h3, h.right⟩⟩
    · dsimp only
      rw [set_other _ _ _ (show b ≠ a from fun e => hb' (by rw [e]; exact ha))]
      exact h.packet b hb'
    · by_cases hba : b = a
      · subst hba
        dsimp only
        rw [set_same]
        refine ⟨rfl, by rw [hlk]; exact h2, h3, ?_⟩
        simp only [answer, if_true]
        unfold handleCount events status iosbAddr
        dsimp only [args] at c1 c2 c3
        rw [i1, hf1, s0, c1, c2, Nat.add_zero b, c3, BitVec.ofNat_toNat, BitVec.setWidth_eq]
      · dsimp only
        rw [set_other _ _ _ hba]
        refine (h.fact b hb').frame hc (hfr b (hap a b ha hb' (Ne.symm hba))) ?_ ?_ ?_
        · simp only [busy]
        · simp only [question]
        · simp only [answer, if_neg (Ne.symm hba)]
  | @take a k hph =>
    have ha : P a := Classical.byContradiction fun hn => by
      have := h.packet a hn
      rw [hph] at this
      cases this
    have hf : Fact c s.m tr a (s.ph a) := h.fact a ha
    rw [hph] at hf
    obtain ⟨rfl, h2, h3, h4⟩ := hf
    have hw := words_lock hc s.m a 0
    have e1 : (fromEntry c s.m (args c a).context).1 = a := rfl
    have e2 : (fromEntry c s.m (args c a).context).2 = put s.m 1 (inUseAddr c a) 0 := rfl
    rw [e1, e2, hw.2.1, hw.2.2.1, hw.2.2.2]
    refine ⟨fun b hb' => ?_, fun b hb' => ?_, ⟨h4, h3, h.right⟩⟩
    · dsimp only
      rw [set_other _ _ _ (show b ≠ a from fun e => hb' (by rw [e]; exact ha))]
      exact h.packet b hb'
    · by_cases hba : b = a
      · subst hba
        dsimp only
        rw [set_same]
        refine ⟨Fin.ext ?_, by simp only [busy, if_true]⟩
        rw [put_lock _ _ _ (by decide)]
        rfl
      · dsimp only
        rw [set_other _ _ _ hba]
        refine (h.fact b hb').frame hc (fun x hx => put_out fun hw' => ?_) ?_ ?_ ?_
        · have h6 := hap a b ha hb' (Ne.symm hba)
          have h7 := hw'.1
          have h8 := hw'.2
          have h9 := hx.1
          have h10 := hx.2
          obtain ⟨hb1, hb2⟩ := infoAddr_eq hc a
          rw [inUse_eq hc] at h7 h8
          unfold infoSize at hb2
          unfold psize at h6 h10
          omega
        · simp only [busy, if_neg (Ne.symm hba)]
        · simp only [question]
        · simp only [answer]

theorem reach_inv {c : Cfg} (hc : Sound c) {P : Nat → Prop} (hap : Apart c P) {s : S} {tr : List BObs} (h : Reach c P s tr) : Inv c P s tr := by
  induction h with
  | init hi =>
    refine ⟨fun a _ => hi.2 a, fun a ha => ?_, trivial⟩
    rw [hi.2 a]
    exact ⟨hi.1 a ha, rfl⟩
  | step _ hs ih => exact inv_step hc hap ih hs

/-- In every run: a packet is given to the kernel only if it is not there yet; when the kernel completes an operation, it finds
the request that was made last with the packet, in its own layout; and what the library reads when it takes the packet is
what the kernel has answered last with it. -/
theorem requests_and_answers (c : Cfg) (hc : Sound c) (P : Nat → Prop) (hap : Apart c P) (s : S) (tr : List BObs) (h : Reach c P s tr) :
    Right tr := (reach_inv hc hap h).right

/-- While the kernel has a packet, the request in it stays as it was made, whatever is done with other packets. -/
theorem request_stays (c : Cfg) (hc : Sound c) (P : Nat → Prop) (hap : Apart c P) (s : S) (tr : List BObs) (h : Reach c P s tr)
    (a : Nat) (k : Ioctl) (hk : s.ph a = .kernel k) :
    ∃ sock ev, question a tr = some (sock, ev) ∧ request c.p s.m k.input = plain sock ev := by
  have hi := reach_inv hc hap h
  have ha : P a := Classical.byContradiction fun hn => by
    have := hi.packet a hn
    rw [hk] at this
    cases this
  have hf := hi.fact a ha
  rw [hk] at hf
  obtain ⟨rfl, -, -, sk, ev, h4, h5⟩ := hf
  exact ⟨sk, ev, h4, h5⟩

/-! ### A run: two packets, both polled; the second is answered and taken. -/

/-- Packets at 1000 and at 2000. -/
def exP : Nat → Prop := fun a => a = 1000 ∨ a = 2000

example : Apart win64 exP := by
  have e : psize win64 = 152 := by decide
  intro a b ha hb hne
  rw [e]
  unfold exP at ha hb
  omega

example : ∃ s tr, Reach win64 exP s tr ∧ tr = [.taken 2000 1 4 0, .answered 2000 (plain 78 4) 1 4 0, .refused 2000, .asked 2000 78 4, .asked 1000 77 1] := by
  have e1 : ∀ m, poll win64 m 1000 77 1 = (some (args win64 1000), (poll win64 m 1000 77 1).2) ∨ m (inUseAddr win64 1000) ≠ 0 := by
    intro m
    by_cases h : m (inUseAddr win64 1000) = 0
    · left
      unfold poll tryLock
      dsimp only
      rw [if_pos (decide_eq_true h)]
      rfl
    · exact .inr h
  let m0 : Mem := fun _ => 0
  let m1 := (poll win64 m0 1000 77 1).2
  let m2 := (poll win64 m1 2000 78 4).2
  let m3 := (poll win64 m2 2000 78 4).2
  let m4 := put (put (put m3 4 (2032 + 8) 1) 4 (2032 + 24) 4) 4 2000 0
  have r0 : Reach win64 exP ⟨m0, fun _ => .idle⟩ [] := .init ⟨fun _ _ => rfl, fun _ => rfl⟩
  have r1 : Reach win64 exP ⟨m1, set (fun _ => .idle) 1000 (.kernel (args win64 1000))⟩ [.asked 1000 77 1] :=
    .step r0 (.poll (ev := 1) (.inl rfl) (by decide) (by
      rcases e1 m0 with h | h
      · exact h
      · exact absurd rfl h))
  have h2 : (poll win64 m1 2000 78 4).1 = some (args win64 2000) := by decide +kernel
  have r2 : Reach win64 exP ⟨m2, set (set (fun _ => .idle) 1000 (.kernel (args win64 1000))) 2000 (.kernel (args win64 2000))⟩
      [.asked 2000 78 4, .asked 1000 77 1] :=
    .step r1 (.poll (ev := 4) (.inr rfl) (by decide) (Prod.ext h2 rfl))
  have h3 : (poll win64 m2 2000 78 4).1 = none := by decide +kernel
  have r3 : Reach win64 exP ⟨m3, set (set (fun _ => .idle) 1000 (.kernel (args win64 1000))) 2000 (.kernel (args win64 2000))⟩
      [.refused 2000, .asked 2000 78 4, .asked 1000 77 1] :=
    .step r2 (.refuse (sock := 78) (ev := 4) (.inr rfl) (Prod.ext h3 rfl))
  have h4 : request 8 m3 2032 = plain 78 4 := by decide +kernel
  have r4 := Reach.step r3 (.complete (a := 2000) (k := args win64 2000) (n := 1) (st := 0) (e := 4) (m' := m4) rfl (by
    refine ⟨by decide +kernel, by decide +kernel, by decide +kernel, fun x h1 h2 => ?_⟩
    have e5 : (args win64 2000).output = 2032 := by decide
    have e6 : (args win64 2000).iosb = 2000 := rfl
    rw [e5] at h1
    rw [e6] at h2
    unfold Within at h1 h2
    change ¬ (_ ∧ x < 2032 + 32) at h1
    change ¬ (_ ∧ x < 2000 + 2 * 8) at h2
    show put _ _ _ _ x = _
    rw [put_out, put_out, put_out] <;>
    · intro hw
      have := hw.1; have := hw.2
      omega))
  have r5 := Reach.step r4 (.take (a := 2000) (k := args win64 2000) rfl)
  refine ⟨_, _, r5, ?_⟩
  have h5 : (BObs.taken (fromEntry win64 m4 2000).1 (handleCount win64 (fromEntry win64 m4 2000).2 2000)
    (events win64 (fromEntry win64 m4 2000).2 2000).toNat (status win64 (fromEntry win64 m4 2000).2 2000)) = .taken 2000 1 4 0 := by decide +kernel
  have h6 : request win64.p m3 (args win64 2000).input = plain 78 4 := h4
  dsimp only
  rw [h6]
  exact congrArg (· :: _) h5

end Polling.C65
