import Verif.Proof.EpollRun

/-! C03 (epoll): an event carries the key of the latest registration. -/

namespace Polling.C03
open EpollM Epoll Spec

/-- Every `usize` of at most 64 bits survives the trip through the kernel's 64-bit user data. -/
theorem key_round_trip (w : Nat) (hw : w ≤ 64) (k : BitVec w) : u64ToKey w (keyToU64 k) = k := by
  unfold u64ToKey keyToU64
  apply BitVec.eq_of_toNat_eq
  simp only [BitVec.toNat_setWidth]
  have h1 : k.toNat < 2 ^ w := k.isLt
  have h2 : 2 ^ w ≤ 2 ^ 64 := Nat.pow_le_pow_right (by decide) hw
  rw [Nat.mod_eq_of_lt (a := k.toNat) (b := 2 ^ 64) (by omega), Nat.mod_eq_of_lt h1]

example : u64ToKey 32 (keyToU64 (0xFFFFFFFE#32)) = 0xFFFFFFFE#32 := by decide
/-- The bound is needed: a 64-bit key read back at 32 bits is truncated. -/
example : u64ToKey 32 (keyToU64 (0x100000001#64)) = 0x1#32 := by decide

/-- In every history of the epoll poller, with any interleaving of threads, each delivered event belongs to a source
registered at that moment, and has the key of the latest `add` or `modify` of that source. -/
theorem epoll_right_key (c : Cfg) (hok : c.Ok) (s : S) (tr : List (Obs EventExtra)) (h : Reach c s tr) :
    EveryDelivery RightKey tr := by
  refine everyDelivery_of ?_ h
  intro s tr a s' evs hr hs fd e hm
  obtain ⟨_, dl, cap, to, t0, _, _, _, rfl⟩ := deliver_inv hs
  obtain ⟨_, cu, hc, _, _, rfl⟩ := (delivery (reach_kinv hok hr) cap).sound fd e hm
  exact ⟨cu, hc, by simp [eventOf, toEvent, key_roundtrip]⟩

/-- The events a user can hand to `add`/`modify` never contain epoll option bits: events built by the API do not, and
neither do received ones, so feeding back a received event is covered by the model's `buildable`. -/
theorem received_is_buildable (c : Cfg) (hok : c.Ok) (s : S) (tr : List (Obs EventExtra)) (h : Reach c s tr) :
    EveryDelivery (fun _ evs => ∀ fd e, (fd, e) ∈ evs → buildable e = true) tr := by
  refine everyDelivery_of ?_ h
  intro s tr a s' evs hr hs fd e hm
  obtain ⟨_, dl, cap, to, t0, _, _, _, rfl⟩ := deliver_inv hs
  obtain ⟨_, cu, hc, _, _, rfl⟩ := (delivery (reach_kinv hok hr) cap).sound fd e hm
  simp only [buildable, eventOf, toEvent, beq_iff_eq]
  rw [BitVec.and_assoc]
  simp

/-- Setters and constructors keep events buildable. -/
theorem api_is_buildable (e : Event EventExtra) (b : Bool) (key : Key) (r w : Bool) :
    buildable (Event.new key r w : Event EventExtra) = true ∧
    (buildable e = true → buildable (e.setInterrupt b) = true ∧ buildable (e.setPriority b) = true) ∧
    buildable e.withNoExtra = true := by
  have key1 : ∀ f bit : Flags, bit &&& PRIVATE = 0#32 → f &&& PRIVATE = 0#32 → setBit f bit b &&& PRIVATE = 0#32 := by
    intro f bit hb hf
    unfold setBit
    split
    · rw [and_or_r, hb, hf]; rfl
    · rw [BitVec.and_comm f, BitVec.and_assoc, hf]; simp
  refine ⟨by simp [buildable, Event.new, Extra.empty], ?_, by simp [buildable, Event.withNoExtra, Event.clearExtra, Extra.empty]⟩
  intro h
  simp only [buildable, beq_iff_eq] at h ⊢
  exact ⟨key1 _ _ (by decide) h, key1 _ _ (by decide) h⟩

/-- Two sources; the second is modified to a large key while the first is reported, and reported with it. -/
def exKeys : List Act :=
  [.add 7 (Event.onlyReadable 11) .oneshot none, .add 8 (Event.all 12) .level none, .setReady 7 IN IN] ++ waitActs 8 ++
  [.modify 8 (Event.all 0xFFFFFFFFFFFFFFFE) .level none, .setReady 8 (IN ||| OUT) (IN ||| OUT)] ++ waitActs 8

example : (exTrace exCfg (fun _ => 0#32) exKeys).map (fun tr => tr.filterMap fun o => match o with
      | .waitOk n evs => some (n, evs.map fun e => (e.key, e.readable, e.writable))
      | _ => none) =
    some [(1, [(0xFFFFFFFFFFFFFFFE, true, true)]), (1, [(11, true, false)])] := by decide

end Polling.C03
