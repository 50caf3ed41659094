import Verif.Proof.EpollDeliver
import Verif.Spec.EpollWatch
import Verif.Props.C20

/-! What the user of the epoll machine sees. -/

namespace Polling.EpollM
open Epoll Spec

theorem private_bits : ∀ i, i < 32 → PRIVATE.getLsbD i = decide (28 ≤ i) := by decide

theorem asked_bits (cu : Current EventExtra) (c : Nat) (hc : c < 28) : (asked cu).getLsbD c = true ↔ EpollWatches cu.ev c := by
  have h := C20.epoll_asked_iff cu.ev cu.mode c (by omega)
  have he := epoll_err_bit c (by omega)
  have hh := epoll_hup_bit c (by omega)
  unfold asked EpollWatches
  rw [BitVec.getLsbD_or, BitVec.getLsbD_or, he, hh]
  simp only [Bool.or_eq_true, decide_eq_true_eq]
  unfold Reported at h ⊢
  rw [h]
  simp only [cIn, cPri, cErr, cHup, cOut, cOneshot, cEt]
  have h1 : c ≠ 30 := by omega
  have h2 : c ≠ 31 := by omega
  simp only [h1, h2, and_false, false_or]
  grind

theorem pending_iff (cu : Current EventExtra) (now : Flags) :
    now &&& asked cu &&& ~~~PRIVATE ≠ 0#32 ↔ EpollPending cu.ev now := by
  rw [bv_ne_zero_iff]
  unfold EpollPending
  constructor
  · rintro ⟨i, hi, h⟩
    simp only [BitVec.getLsbD_and, BitVec.getLsbD_not, private_bits i hi, hi, decide_true, Bool.true_and,
      Bool.and_eq_true, Bool.not_eq_true', decide_eq_false_iff_not] at h
    exact ⟨i, by omega, h.1.1, (asked_bits cu i (by omega)).1 h.1.2⟩
  · rintro ⟨i, hi, hr, hw⟩
    refine ⟨i, by omega, ?_⟩
    simp only [BitVec.getLsbD_and, BitVec.getLsbD_not, private_bits i (by omega), (by omega : i < 32), decide_true, Bool.true_and,
      Bool.and_eq_true, Bool.not_eq_true', decide_eq_false_iff_not]
    exact ⟨⟨hr, (asked_bits cu i hi).2 hw⟩, by omega⟩

theorem eventOf_flag (cu : Current EventExtra) (now : Flags) (c : Nat) (hc : c < 28) :
    Reported (now &&& asked cu &&& ~~~PRIVATE) c ↔ Reported now c ∧ EpollWatches cu.ev c := by
  unfold Reported
  simp only [BitVec.getLsbD_and, BitVec.getLsbD_not, private_bits c (by omega), (by omega : c < 32), decide_true, Bool.true_and,
      Bool.and_eq_true, Bool.not_eq_true', decide_eq_false_iff_not, asked_bits cu c hc]
  constructor
  · exact fun h => h.1
  · exact fun h => ⟨h, by omega⟩

/-- Keys survive the kernel, in both directions. -/
theorem key_roundtrip (k : Key) : u64ToKey 64 (keyToU64 k) = k := by simp [u64ToKey, keyToU64]

theorem visible_user {c : Cfg} {k : Kern} {tr : List (Obs EventExtra)} (h : KInv c k tr) (cap : Nat) :
    visible (harvest c k cap).1 =
      (((harvest c k cap).1.filter fun e => !c.internal e.1).map fun e => (e.1, toEvent e.2)).map Prod.snd := by
  obtain ⟨pre, rest, h1, h2, h3, h4, h5⟩ := harvest_spec h.l cap
  unfold visible
  rw [List.filter_map, List.map_map]
  congr 1
  apply List.filter_congr
  intro e he
  rw [h2, List.mem_map] at he
  obtain ⟨x, hx, rfl⟩ := he
  have hhot := (List.mem_filter.1 hx).2
  show ((toEvent (rawOf (ready c k) k.items x).2).key != NOTIFY_KEY) = !c.internal x
  cases hi : c.internal x with
  | false =>
    obtain ⟨cu, hc, hl, hne⟩ := (hot_user h hi).1 hhot
    rw [raw_user h hi hc hl]
    have := (h.r.curOk x cu hc).2.1
    simp only [toEvent, key_roundtrip]
    simpa using this
  | true =>
    rcases internal_cases hi with rfl | ⟨ht, rfl⟩
    · rcases h.r.notif with hn | hn <;> simp [rawOf, hn, toEvent, NK, key_roundtrip]
    · rcases h.r.timer ht with hn | hn | hn <;> simp [rawOf, hn, toEvent, NK, key_roundtrip]

/-- After `epoll_wait` returned: the raw events are those delivered. -/
def D (tr : List (Obs EventExtra)) : Phase → Prop
  | .clearing _ cap evs | .cleared _ cap evs | .rearmed _ cap evs =>
    evs.length ≤ cap ∧ ∃ ds, lastDelivery tr = some ds ∧ visible evs = ds.map Prod.snd ∧ ds.length ≤ cap
  | _ => True

theorem D.obs {tr p} {o : Obs EventExtra} (h : D tr p) (ho : lastDelivery (o :: tr) = lastDelivery tr) : D (o :: tr) p := by
  cases p <;> simp only [D, ho] at h ⊢ <;> exact h

theorem waitFail_D {s dl cap e s' o} {tr : List (Obs EventExtra)} (heq : waitFail s dl cap e = (s', o)) : D (o :: tr) s'.phase := by
  unfold waitFail at heq
  split at heq <;> cases heq <;> trivial

theorem step_D {c : Cfg} {s : S} {tr : List (Obs EventExtra)} {a : Act} {s' : S} {o : Obs EventExtra}
    (hk : KInv c s.k tr) (h : D tr s.phase) (hs : step c s a = some (s', o)) : D (o :: tr) s'.phase := by
  cases a with
  | add fd ev mode fault =>
    simp only [step] at hs
    repeat' split at hs
    all_goals first | (cases hs; done) | (cases hs; exact h.obs rfl)
  | modify fd ev mode fault =>
    simp only [step] at hs
    repeat' split at hs
    all_goals first | (cases hs; done) | (cases hs; exact h.obs rfl)
  | delete fd fault =>
    simp only [step] at hs
    repeat' split at hs
    all_goals first | (cases hs; done) | (cases hs; exact h.obs rfl)
  | notifyCas =>
    simp only [step] at hs
    repeat' split at hs
    all_goals first | (cases hs; done) | (cases hs; exact h.obs rfl)
  | notifyWrite =>
    simp only [step] at hs
    repeat' split at hs
    all_goals first | (cases hs; done) | (cases hs; exact h.obs rfl)
  | waitBusy =>
    simp only [step] at hs
    repeat' split at hs
    all_goals first | (cases hs; done) | (cases hs; exact h.obs rfl)
  | setReady fd flags key =>
    simp only [step] at hs
    repeat' split at hs
    all_goals first | (cases hs; done) | (cases hs; exact h.obs rfl)
  | tick dt =>
    simp only [step] at hs
    repeat' split at hs
    all_goals first | (cases hs; done) | (cases hs; exact h.obs rfl)
  | waitBegin timeout cap =>
    simp only [step] at hs
    repeat' split at hs
    all_goals first | (cases hs; done) | (cases hs; trivial)
  | compute =>
    simp only [step] at hs
    repeat' split at hs
    all_goals first | (cases hs; done) | (cases hs; trivial)
  | settime fault =>
    simp only [step] at hs
    repeat' split at hs
    all_goals first | (cases hs; done) | (exact waitFail_D (Option.some.inj hs)) | (cases hs; trivial)
  | armTimer fault =>
    simp only [step] at hs
    repeat' split at hs
    all_goals first | (cases hs; done) | (exact waitFail_D (Option.some.inj hs)) | (cases hs; trivial)
  | epollFail e =>
    simp only [step] at hs
    repeat' split at hs
    all_goals first | (cases hs; done) | (exact waitFail_D (Option.some.inj hs)) | (cases hs; trivial)
  | epollReturn =>
    obtain ⟨evs, rfl⟩ : ∃ evs, o = .deliver evs := by
      simp only [step] at hs
      repeat' split at hs
      all_goals first | (cases hs; done) | (cases hs; exact ⟨_, rfl⟩)
    obtain ⟨_, dl, cap, to, t0, hph, _, rfl, rfl⟩ := deliver_inv hs
    have hd := (delivery hk cap).le
    exact ⟨hd.2, _, rfl, visible_user hk cap, Nat.le_trans hd.1 hd.2⟩
  | clearRead =>
    simp only [step] at hs
    split at hs
    · next dl cap evs hph =>
      split at hs
      · injection hs with hs; injection hs with h1 h2; subst h1 h2
        exact h.obs rfl
      · injection hs with hs; injection hs with h1 h2; subst h1 h2
        rw [hph] at h; exact h
    · cases hs
  | rearm fault =>
    simp only [step] at hs
    split at hs
    · next dl cap evs hph =>
      rw [hph] at h
      repeat' split at hs
      all_goals first | (cases hs; done) | (exact waitFail_D (Option.some.inj hs)) | (cases hs; exact h)
    · cases hs
  | finish =>
    simp only [step] at hs
    repeat' split at hs
    all_goals first | (cases hs; done) | (cases hs; trivial)

theorem reach_D {c : Cfg} (hok : c.Ok) {s tr} (h : Reach c s tr) : D tr s.phase := by
  induction h with
  | init user => trivial
  | step hr hs ih => exact step_D (reach_kinv hok hr) ih hs

theorem waitOk_inv {c : Cfg} {s : S} {a : Act} {s' : S} {n evs} (hs : step c s a = some (s', .waitOk n evs)) :
    ∃ dl cap raw, s.phase = .rearmed dl cap raw ∧ evs = visible raw ∧ n = (visible raw).length ∧
      s' = { s with notified := false, phase := .idle } := by
  have hwf : ∀ s dl cap e, (waitFail s dl cap e).2 ≠ .waitOk n evs := by
    intro s dl cap e; unfold waitFail; split <;> simp
  cases a with
  | finish =>
    simp only [step] at hs
    split at hs
    · next dl cap raw hph => cases hs; exact ⟨dl, cap, raw, hph, rfl, rfl, rfl⟩
    · cases hs
  | clearRead =>
    simp only [step] at hs
    repeat' split at hs
    all_goals first | (cases hs; done) | (injection hs with hs; injection hs with h1 h2; cases h2)
  | _ =>
    simp only [step] at hs
    repeat' split at hs
    all_goals first | (cases hs; done) | (injection hs with hs; exact absurd (congrArg Prod.snd hs) (hwf _ _ _ _)) | (simp at hs; done)

end Polling.EpollM
