import Verif.Proof.PollTable
import Verif.Proof.Bits

/-! One round of the loop of `wait` on the table, in terms of the map. -/

namespace Polling.PollB
open PollFlags PollSpec

theorem inter4 (f a b c d : Flags) :
    intersects f (a ||| b ||| c ||| d) = decide (∃ x ∈ [a, b, c, d], f &&& x ≠ 0#16) := by
  rw [Bool.eq_iff_iff, decide_eq_true_iff]
  unfold intersects
  rw [bne_iff_ne, bv_ne_zero_iff]
  constructor
  · rintro ⟨i, hi, h⟩
    simp only [BitVec.getLsbD_and, BitVec.getLsbD_or, Bool.and_eq_true, Bool.or_eq_true] at h
    obtain ⟨hf, h⟩ := h
    rcases h with ((h | h) | h) | h
    · exact ⟨a, by simp, (bv_ne_zero_iff _).2 ⟨i, hi, by rw [BitVec.getLsbD_and, hf, h]; rfl⟩⟩
    · exact ⟨b, by simp, (bv_ne_zero_iff _).2 ⟨i, hi, by rw [BitVec.getLsbD_and, hf, h]; rfl⟩⟩
    · exact ⟨c, by simp, (bv_ne_zero_iff _).2 ⟨i, hi, by rw [BitVec.getLsbD_and, hf, h]; rfl⟩⟩
    · exact ⟨d, by simp, (bv_ne_zero_iff _).2 ⟨i, hi, by rw [BitVec.getLsbD_and, hf, h]; rfl⟩⟩
  · rintro ⟨x, hx, h⟩
    obtain ⟨i, hi, h⟩ := (bv_ne_zero_iff _).1 h
    refine ⟨i, hi, ?_⟩
    simp only [BitVec.getLsbD_and, Bool.and_eq_true] at h
    simp only [List.mem_cons, List.not_mem_nil, or_false] at hx
    rcases hx with rfl | rfl | rfl | rfl <;> simp [h]

theorem toEvent_report (r : Reg) (f : Flags) : toEvent r.key f = r.report f := by
  unfold toEvent Reg.report
  rw [readEvents, writeEvents, inter4, inter4]

/-- The table after `poll(2)`. -/
abbrev polled (os : Fd → Flags → Flags) (fds : Fds) : Fds :=
  { fds with pollFds := (osPoll os fds.pollFds).1 }

theorem polled_get (os : Fd → Flags → Flags) (fds : Fds) (i : Nat) :
    (polled os fds).pollFds[i]? = (fds.pollFds[i]?).map fun p => { p with revents := os p.fd p.events } := by
  simp [osPoll]

theorem polled_inv {n fds} (h : Inv n fds) (os : Fd → Flags → Flags) : Inv n (polled os fds) := by
  refine ⟨?_, ?_, ?_, h.internal⟩
  · obtain ⟨p, hp, hf⟩ := h.zero
    exact ⟨{ p with revents := os p.fd p.events }, by rw [polled_get, hp]; rfl, hf⟩
  · intro fd d hd
    obtain ⟨h1, p, hp, hf⟩ := h.fwd fd d hd
    exact ⟨h1, { p with revents := os p.fd p.events }, by rw [polled_get, hp]; rfl, hf⟩
  · intro i p hi hp
    rw [polled_get, Option.map_eq_some_iff] at hp
    obtain ⟨q, hq, rfl⟩ := hp
    exact h.bwd i q hi hq

theorem polled_rel {fds m} (hr : Rel fds m) (os : Fd → Flags → Flags) : Rel (polled os fds) m := by
  intro fd
  rcases hr fd with h | ⟨d, r, p, h1, h2, h3, h4, h5, h6⟩
  · exact .inl h
  · exact .inr ⟨d, r, { p with revents := os p.fd p.events }, h1, h2, by rw [polled_get, h3]; rfl, h4, h5, h6⟩

theorem rev_polled {n fds m} (h : Inv n fds) (hr : Rel fds m) (os : Fd → Flags → Flags) (fd : Fd) :
    rev (polled os fds) fd = result os m fd := by
  unfold rev result
  rcases hr fd with ⟨h1, h2⟩ | ⟨d, r, p, h1, h2, h3, h4, h5, h6⟩
  · simp only [h1, h2]
  · obtain ⟨_, p', hp', hf⟩ := h.fwd fd d h1
    rw [h3] at hp'; obtain rfl := Option.some.inj hp'
    simp only [h1, h2]
    rw [polled_get, h3]
    simp [hf, h6]

theorem tail_nodup {n fds} (h : Inv n fds) : (fds.pollFds.tail.map PollFd.fd).Nodup := by
  unfold List.Nodup
  rw [List.pairwise_iff_getElem]
  intro i j hi hj hij heq
  simp only [List.getElem_map, List.getElem_tail] at heq
  simp only [List.length_map, List.length_tail] at hi hj
  obtain ⟨d, hd, hdi⟩ := h.bwd (i + 1) _ (by omega) (List.getElem?_eq_getElem (by omega))
  obtain ⟨d', hd', hdi'⟩ := h.bwd (j + 1) _ (by omega) (List.getElem?_eq_getElem (by omega))
  rw [heq, hd'] at hd
  obtain rfl := Option.some.inj hd
  omega

theorem tail_mem {n fds} (h : Inv n fds) (fd : Fd) :
    fd ∈ fds.pollFds.tail.map PollFd.fd ↔ (fds.fdData fd).isSome = true := by
  rw [List.mem_map]
  constructor
  · rintro ⟨p, hp, rfl⟩
    obtain ⟨i, hi, hip⟩ := List.getElem_of_mem hp
    rw [List.getElem_tail] at hip
    rw [List.length_tail] at hi
    obtain ⟨d, hd, _⟩ := h.bwd (i + 1) p (by omega) (by rw [List.getElem?_eq_getElem (by omega), hip])
    simp [hd]
  · intro hs
    obtain ⟨d, hd⟩ := Option.isSome_iff_exists.1 hs
    obtain ⟨h1, p, hp, hf⟩ := h.fwd fd d hd
    refine ⟨p, ?_, hf⟩
    obtain ⟨k, hk⟩ : ∃ k, d.index = k + 1 := ⟨d.index - 1, by omega⟩
    rw [hk, ← List.getElem?_tail] at hp
    exact List.mem_of_getElem? hp

/-- The count returned by `poll(2)` is the number of ready registered descriptors plus the pipe. -/
theorem osPoll_count {n fds m} (h : Inv n fds) (hr : Rel fds m) (os : Fd → Flags → Flags) (order : List Fd)
    (ho : Enumerates order fds) :
    (osPoll os fds.pollFds).2 =
      (if os n.readFd n.flags ≠ 0#16 then 1 else 0) + (order.filter fun fd => result os m fd != 0#16).length := by
  have hcnt : (osPoll os fds.pollFds).2 = ((polled os fds).pollFds.filter fun p => p.revents != 0#16).length := rfl
  have hi := polled_inv h os
  obtain ⟨p0, hp0, hf0, he0⟩ := h.zero
  have h0 : (polled os fds).pollFds[0]? = some { p0 with revents := os n.readFd n.flags } := by
    rw [polled_get, hp0]; simp [hf0, he0]
  have hcons : (polled os fds).pollFds = { p0 with revents := os n.readFd n.flags } :: (polled os fds).pollFds.tail := by
    cases hl : (polled os fds).pollFds with
    | nil => rw [hl] at h0; simp at h0
    | cons a l => rw [hl] at h0; simp at h0; simp [h0]
  have hperm : ((polled os fds).pollFds.tail.map PollFd.fd).Perm order :=
    (List.perm_ext_iff_of_nodup (tail_nodup hi) ho.1).2 fun fd => by
      rw [tail_mem hi, ho.2]
  have hrevs : ∀ p ∈ (polled os fds).pollFds.tail, p.revents = result os m p.fd := by
    intro p hp
    obtain ⟨i, hil, hip⟩ := List.getElem_of_mem hp
    rw [List.getElem_tail] at hip
    rw [List.length_tail] at hil
    have hg : (polled os fds).pollFds[i + 1]? = some p := by rw [List.getElem?_eq_getElem (by omega), hip]
    obtain ⟨d, hd, hdi⟩ := hi.bwd (i + 1) p (by omega) hg
    rw [← rev_polled h hr, rev]
    have hd' : fds.fdData p.fd = some d := hd
    have hg' : (osPoll os fds.pollFds).1[i + 1]? = some p := hg
    simp only [hd', hdi, hg']
  rw [hcnt, hcons, List.filter_cons]
  have hlen : ((polled os fds).pollFds.tail.filter fun p => p.revents != 0#16).length =
      (order.filter fun fd => result os m fd != 0#16).length := by
    rw [← (hperm.filter _).length_eq, List.filter_map, List.length_map]
    congr 1
    apply List.filter_congr
    intro p hp
    simp [hrevs p hp]
  by_cases hz : os n.readFd n.flags = 0#16
  · simp [hz, hlen]
  · simp [hz, hlen, Nat.add_comm]

theorem events_eq {n fds m} (h : Inv n fds) (hr : Rel fds m) (os : Fd → Flags → Flags) (order : List Fd) :
    (order.filter fun fd => rev (polled os fds) fd != 0#16).map (evOf (polled os fds)) = waitEvents os m order := by
  unfold waitEvents
  induction order with
  | nil => rfl
  | cons fd order ih =>
    rw [List.filter_cons, List.filterMap_cons]
    rcases hr fd with ⟨h1, h2⟩ | ⟨d, r, p, h1, h2, h3, h4, h5, h6⟩
    · have : rev (polled os fds) fd = 0#16 := by rw [rev_polled h hr, result, h2]
      simp only [this, h2, Option.bind_none]
      simpa using ih
    · have hres : rev (polled os fds) fd = os fd r.ask := by rw [rev_polled h hr, result, h2]
      have hev : evOf (polled os fds) fd = r.report (os fd r.ask) := by
        rw [evOf]
        simp only [h1, hres]
        rw [← h4, toEvent_report]
      by_cases hz : os fd r.ask = 0#16
      · simp only [hres, hz, h2, Option.bind_some]
        simpa using ih
      · have hb : (os fd r.ask != 0#16) = true := by simp [hz]
        simp only [hres, hb, if_true, List.map_cons, hev, h2, Option.bind_some, ne_eq, hz, not_false_eq_true]
        rw [ih]

theorem afterWait_rel {n fds m} (h : Inv n fds) (hr : Rel fds m) (os : Fd → Flags → Flags) (order : List Fd)
    (ho : Enumerates order fds) :
    Rel { (polled os fds) with pollFds := (polled os fds).pollFds.map (upd fds.fdData order) } (afterWait os m) := by
  intro fd
  rcases hr fd with ⟨h1, h2⟩ | ⟨d, r, p, h1, h2, h3, h4, h5, h6⟩
  · exact .inl ⟨h1, by simp [afterWait, h2]⟩
  · obtain ⟨_, p', hp', hf⟩ := h.fwd fd d h1
    rw [h3] at hp'; obtain rfl := Option.some.inj hp'
    refine .inr ⟨d, if r.oneshot ∧ os fd r.ask ≠ 0#16 then { r with readable := false, writable := false } else r, upd fds.fdData order { p with revents := os p.fd p.events }, h1, ?_, ?_, ?_, ?_, ?_⟩
    · simp only [afterWait, h2, Option.map_some]
    · rw [List.getElem?_map, polled_get, h3]; rfl
    · split <;> exact h4
    · split <;> exact h5
    · have hmem : p.fd ∈ order := by rw [hf, ho.2, h1]; rfl
      unfold upd
      simp only [hf] at hmem
      simp only [hf, h1, Option.any_some, h6]
      by_cases hc : r.oneshot = true ∧ os fd r.ask ≠ 0#16
      · rw [if_pos ⟨hmem, hc.2, by rw [← h5]; exact hc.1⟩, if_pos hc]
        simp [PollFd.new, Reg.ask]
      · rw [if_neg (by rw [← h5]; exact fun ⟨_, a, b⟩ => hc ⟨b, a⟩), if_neg hc]

theorem events_nil_iff {os : Fd → Flags → Flags} {m : Map} {order : List Fd} (hmem : ∀ fd, fd ∈ order ↔ (m fd).isSome = true) :
    (order.filter fun fd => result os m fd != 0#16).length = 0 ↔ ∀ fd, result os m fd = 0#16 := by
  rw [List.length_eq_zero_iff, List.filter_eq_nil_iff]
  constructor
  · intro h fd
    by_cases hs : (m fd).isSome = true
    · have := h fd ((hmem fd).2 hs)
      simpa using this
    · simp at hs; simp [result, hs]
  · intro h fd _
    simp [h fd]

theorem afterWait_quiet {os : Fd → Flags → Flags} {m : Map} (h : ∀ fd, result os m fd = 0#16) : afterWait os m = m := by
  funext fd
  have := h fd
  unfold afterWait
  unfold result at this
  cases hm : m fd with
  | none => rfl
  | some r =>
    simp only [hm] at this
    simp [this]

theorem events_quiet {os : Fd → Flags → Flags} {m : Map} {order : List Fd} (h : ∀ fd, result os m fd = 0#16) : waitEvents os m order = [] := by
  unfold waitEvents
  rw [List.filterMap_eq_nil_iff]
  intro fd _
  have := h fd
  unfold result at this
  cases hm : m fd with
  | none => rfl
  | some r =>
    simp only [hm] at this
    simp [this]

/-- One round never panics, reports what the map says and leaves a table that represents the map after it. -/
theorem round_spec {n fds m} (h : Inv n fds) (hr : Rel fds m) (os : Fd → Flags → Flags) (order : List Fd)
    (ho : Enumerates order fds) (sysNotified : Bool) :
    ∃ fds', Inv n fds' ∧ Rel fds' (afterWait os m) ∧
      round os order sysNotified fds = some (fds',
        if sysNotified = false ∧ os n.readFd n.flags ≠ 0#16 ∧ (∀ fd ∈ order, result os m fd = 0#16) then .again
        else .done (waitEvents os m order)) := by
  have hi := polled_inv h os
  have hr' := polled_rel hr os
  have hcnt := osPoll_count h hr os order ho
  have hmem : ∀ fd, fd ∈ order ↔ (m fd).isSome = true := by
    intro fd
    rw [ho.2]
    have := hr.none_iff fd
    cases h1 : fds.fdData fd <;> cases h2 : m fd <;> simp_all
  obtain ⟨p0, hp0, hf0, he0⟩ := h.zero
  have h0 : (osPoll os fds.pollFds).1[0]? = some { p0 with revents := os n.readFd n.flags } := by
    rw [show (osPoll os fds.pollFds).1 = (polled os fds).pollFds from rfl, polled_get, hp0]; simp [hf0, he0]
  have hquiet := @events_nil_iff os m order hmem
  have hall : (∀ fd ∈ order, result os m fd = 0#16) ↔ ∀ fd, result os m fd = 0#16 := by
    refine ⟨fun hx fd => ?_, fun hx fd _ => hx fd⟩
    by_cases hs : (m fd).isSome = true
    · exact hx fd ((hmem fd).2 hs)
    · simp at hs; simp [result, hs]
  unfold round
  simp only [h0]
  generalize hk : (osPoll os fds.pollFds).2 = k at hcnt
  have hnum : (if (os n.readFd n.flags != 0#16) = true then k - 1 else k) =
      (order.filter fun fd => result os m fd != 0#16).length := by
    by_cases hz : os n.readFd n.flags = 0#16
    · simp [hz] at hcnt ⊢; omega
    · simp [hz] at hcnt ⊢; omega
  have hnopanic : ((os n.readFd n.flags != 0#16) && k == 0) = false := by
    by_cases hz : os n.readFd n.flags = 0#16
    · simp [hz]
    · simp [hz] at hcnt ⊢; omega
  rw [if_neg (by rw [hnopanic]; simp), hnum]
  by_cases hq : ∀ fd, result os m fd = 0#16
  · have hlen := hquiet.2 hq
    rw [hlen, afterWait_quiet hq, events_quiet hq]
    refine ⟨polled os fds, hi, hr', ?_⟩
    by_cases hz : os n.readFd n.flags = 0#16
    · simp [hz]
    · cases sysNotified
      · simp [hz]; exact fun fd _ => hq fd
      · simp
  · have hlen : (order.filter fun fd => result os m fd != 0#16).length ≠ 0 := fun hc => hq (hquiet.1 hc)
    have hcol := collect_spec (n := n) (order.filter fun fd => result os m fd != 0#16).length order (polled os fds) []
      hi ho.1 (fun fd hfd => (ho.2 fd).1 hfd) (by simp only [List.length_nil, Nat.zero_add, rev_polled h hr])
    rw [if_neg (by simp; intro _ hl; exact absurd (by simpa using hl) hlen), if_pos (Nat.pos_of_ne_zero hlen)]
    rw [hcol, events_eq h hr, List.nil_append]
    refine ⟨_, map_upd_inv hi order, afterWait_rel h hr os order ho, ?_⟩
    rw [if_neg (fun hc => hq (hall.1 hc.2.2))]

end Polling.PollB
