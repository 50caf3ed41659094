import Verif.Proof.EpollQueue
import Verif.Proof.EpollRun

/-! What one step of the epoll machine does to one source of the user: its place in the ready list and its conditions. -/

namespace Polling.EpollM
open Epoll Spec

/-- `link` adds the descriptor to the ready list: a condition of its interest is among `key`. -/
def Hits (k : Kern) (fd : Fd) (key : Flags) : Prop := ∃ it, k.items fd = some it ∧ key &&& it.events &&& ~~~PRIVATE ≠ 0#32

/-- The effect of a step on the source `fd`. -/
inductive Eff (fd : Fd) (s s' : S) (a : Act) (o : Obs EventExtra) : Prop
  | same (hr : fd ∈ s'.k.rdl ↔ fd ∈ s.k.rdl) (hu : s'.k.user fd = s.k.user fd) (ha : ∀ f k, a ≠ .setReady fd f k)
      (h1 : ∀ ev m, o ≠ .reg fd ev m) (h2 : o ≠ .unreg fd) (h3 : ∀ evs, o ≠ .deliver evs)
  | reg (ev : Event EventExtra) (m : PollMode) (ho : o = .reg fd ev m) (hu : s'.k.user fd = s.k.user fd)
      (ha : ∀ g f k, a ≠ .setReady g f k) (hr : fd ∈ s'.k.rdl ↔ fd ∈ s.k.rdl ∨ Hits s'.k fd (s'.k.user fd))
  | unreg (ho : o = .unreg fd) (ha : ∀ g f k, a ≠ .setReady g f k)
  | ready (f key : Flags) (ha : a = .setReady fd f key) (ho : o = .tau) (hu : s'.k.user fd = f)
      (hnew : f &&& ~~~(s.k.user fd) &&& ~~~key = 0#32) (hr : fd ∈ s'.k.rdl ↔ fd ∈ s.k.rdl ∨ Hits s.k fd key)
  | deliver (evs : List (Fd × Event EventExtra)) (ho : o = .deliver evs) (ha : a = .epollReturn)
      (hu : s'.k.user fd = s.k.user fd)

theorem link_mem_ne (k : Kern) {x fd : Fd} (key : Flags) (h : x ≠ fd) : fd ∈ (link k x key).rdl ↔ fd ∈ k.rdl := by
  rw [link_mem]
  constructor
  · rintro (h1 | ⟨rfl, _⟩)
    · exact h1
    · exact absurd rfl h
  · exact .inl

theorem link_user (k : Kern) (x : Fd) (key : Flags) : (link k x key).user = k.user := by rw [link_eq]

theorem step_eff {c : Cfg} {s s' : S} {a : Act} {o : Obs EventExtra} {fd : Fd} (hf : c.internal fd = false)
    (hs : step c s a = some (s', o)) : Eff fd s s' a o := by
  have nn : c.notifFd ≠ fd := ne_notif hf
  have mod : ∀ {fault x ev mode r k}, EpollM.modify c fault s.k x ev mode = (r, k) → x ≠ fd →
      (fd ∈ k.rdl ↔ fd ∈ s.k.rdl) ∧ k.user fd = s.k.user fd := by
    intro fault x ev mode r k h hx
    rcases ctlMod_cases h with ⟨_, _, rfl⟩ | ⟨_, rfl⟩
    · exact ⟨link_mem_ne _ _ hx, by rw [link_user]; rfl⟩
    · exact ⟨Iff.rfl, rfl⟩
  have wf : ∀ {s1 : S} {dl cap e}, (fd ∈ s1.k.rdl ↔ fd ∈ s.k.rdl) → s1.k.user fd = s.k.user fd →
      (∀ f k, a ≠ .setReady fd f k) → waitFail s1 dl cap e = (s', o) → Eff fd s s' a o := by
    intro s1 dl cap e h1 h2 h3 he
    unfold waitFail at he
    split at he <;> cases he <;> exact .same h1 h2 h3 nofun nofun nofun
  cases a with
  | add x ev mode fault =>
    simp only [step] at hs
    split at hs
    · cases hs
    · split at hs
      · cases hs
      · split at hs
        · cases hs; exact .same Iff.rfl rfl nofun nofun nofun nofun
        · rcases h : EpollM.add c fault s.k x ev mode with ⟨r, k⟩
          rw [h] at hs
          rcases ctlAdd_cases h with ⟨rfl, _, rfl⟩ | ⟨⟨e, rfl⟩, rfl⟩
          · cases hs
            by_cases hx : x = fd
            · subst hx
              refine .reg ev mode rfl (by rw [link_user]; rfl) nofun ?_
              rw [link_mem, link_user, ready_user hf]
              unfold Hits
              rw [link_items]
              simp only [true_and]
              rfl
            · refine .same (link_mem_ne _ _ hx) (by rw [link_user]; rfl) nofun ?_ nofun nofun
              rintro _ _ h; cases h; exact hx rfl
          · cases hs; exact .same Iff.rfl rfl nofun nofun nofun nofun
  | modify x ev mode fault =>
    simp only [step] at hs
    split at hs
    · cases hs
    · split at hs
      · cases hs
      · split at hs
        · cases hs; exact .same Iff.rfl rfl nofun nofun nofun nofun
        · rcases h : EpollM.modify c fault s.k x ev mode with ⟨r, k⟩
          rw [h] at hs
          rcases ctlMod_cases h with ⟨rfl, _, rfl⟩ | ⟨⟨e, rfl⟩, rfl⟩
          · cases hs
            by_cases hx : x = fd
            · subst hx
              refine .reg ev mode rfl (by rw [link_user]; rfl) nofun ?_
              rw [link_mem, link_user, ready_user hf]
              unfold Hits
              rw [link_items]
              simp only [true_and]
              rfl
            · refine .same (link_mem_ne _ _ hx) (by rw [link_user]; rfl) nofun ?_ nofun nofun
              rintro _ _ h; cases h; exact hx rfl
          · cases hs; exact .same Iff.rfl rfl nofun nofun nofun nofun
  | delete x fault =>
    simp only [step] at hs
    split at hs
    · cases hs
    · rcases h : EpollM.delete fault s.k x with ⟨r, k⟩
      rw [h] at hs
      rcases ctlDel_cases h with ⟨rfl, _, rfl⟩ | ⟨⟨e, rfl⟩, rfl⟩
      · cases hs
        by_cases hx : x = fd
        · subst hx; exact .unreg rfl nofun
        · refine .same ?_ rfl nofun nofun ?_ nofun
          · have hx' : fd ≠ x := fun h => hx h.symm
            simp [List.mem_filter, hx']
          · rintro h; cases h; exact hx rfl
      · cases hs; exact .same Iff.rfl rfl nofun nofun nofun nofun
  | notifyCas =>
    simp only [step] at hs
    repeat' split at hs
    all_goals first | (cases hs; done) | (cases hs; exact .same Iff.rfl rfl nofun nofun nofun nofun)
  | notifyWrite =>
    simp only [step] at hs
    split at hs
    · cases hs; exact .same (link_mem_ne _ _ nn) (by simp only [link_user]) nofun nofun nofun nofun
    · cases hs
  | waitBegin timeout cap =>
    simp only [step] at hs
    repeat' split at hs
    all_goals first | (cases hs; done) | (cases hs; exact .same Iff.rfl rfl nofun nofun nofun nofun)
  | waitBusy =>
    simp only [step] at hs
    repeat' split at hs
    all_goals first | (cases hs; done) | (cases hs; exact .same Iff.rfl rfl nofun nofun nofun nofun)
  | compute =>
    simp only [step] at hs
    repeat' split at hs
    all_goals first | (cases hs; done) | (cases hs; exact .same Iff.rfl rfl nofun nofun nofun nofun)
  | settime fault =>
    simp only [step] at hs
    repeat' split at hs
    all_goals first
      | (cases hs; done)
      | (exact wf Iff.rfl rfl nofun (Option.some.inj hs))
      | (cases hs; exact .same Iff.rfl rfl nofun nofun nofun nofun)
  | armTimer fault =>
    simp only [step] at hs
    split at hs
    · split at hs
      · next ht =>
        rcases h : EpollM.modify c fault s.k c.timerFd (Event.onlyReadable NOTIFY_KEY) .oneshot with ⟨r, k⟩
        rw [h] at hs
        have hm := mod h (ne_timer hf ht)
        cases r with
        | ok => cases hs; exact .same hm.1 hm.2 nofun nofun nofun nofun
        | err e => exact wf hm.1 hm.2 nofun (Option.some.inj hs)
      · cases hs; exact .same Iff.rfl rfl nofun nofun nofun nofun
    · cases hs
  | epollReturn =>
    simp only [step] at hs
    repeat' split at hs
    all_goals first | (cases hs; done) | skip
    cases hs
    exact .deliver _ rfl rfl rfl
  | epollFail e =>
    simp only [step] at hs
    repeat' split at hs
    all_goals first | (cases hs; done) | (exact wf Iff.rfl rfl nofun (Option.some.inj hs))
  | clearRead =>
    simp only [step] at hs
    repeat' split at hs
    all_goals first
      | (cases hs; done)
      | (injection hs with hs; injection hs with h1 h2; subst h1 h2; exact .same Iff.rfl rfl nofun nofun nofun nofun)
  | rearm fault =>
    simp only [step] at hs
    split at hs
    · rcases h : EpollM.modify c fault s.k c.notifFd (Event.onlyReadable NOTIFY_KEY) .oneshot with ⟨r, k⟩
      rw [h] at hs
      have hm := mod h nn
      cases r with
      | ok => cases hs; exact .same hm.1 hm.2 nofun nofun nofun nofun
      | err e => exact wf hm.1 hm.2 nofun (Option.some.inj hs)
    · cases hs
  | finish =>
    simp only [step] at hs
    repeat' split at hs
    all_goals first | (cases hs; done) | (cases hs; exact .same Iff.rfl rfl nofun nofun nofun nofun)
  | setReady x flags key =>
    simp only [step] at hs
    split at hs
    · cases hs
    · split at hs
      · cases hs
      · next hk =>
        cases hs
        by_cases hx : x = fd
        · subst hx
          refine .ready flags key rfl rfl (by simp [link_user]) (by simpa using hk) ?_
          rw [link_mem]
          simp only [true_and]
          rfl
        · refine .same (link_mem_ne _ _ hx) ?_ ?_ nofun nofun nofun
          · have hx' : fd ≠ x := fun h => hx h.symm
            simp [link_user, hx']
          · rintro _ _ h; cases h; exact hx rfl
  | tick dt =>
    simp only [step] at hs
    split at hs
    · cases hs; exact .same Iff.rfl rfl nofun nofun nofun nofun
    · split at hs
      · cases hs
        split
        · next ht => exact .same (link_mem_ne _ _ (ne_timer hf ht)) (by simp only [link_user]) nofun nofun nofun nofun
        · exact .same Iff.rfl rfl nofun nofun nofun nofun
      · cases hs; exact .same Iff.rfl rfl nofun nofun nofun nofun

/-- The mode is edge-triggered. -/
def edgy : PollMode → Bool
  | .edge | .edgeOneshot => true
  | .level | .oneshot => false

/-- `Hits` for a registered source of the user. -/
theorem hits_iff {c : Cfg} {k : Kern} {tr : List (Obs EventExtra)} (h : KInv c k tr) {fd : Fd} (hf : c.internal fd = false)
    (key : Flags) : Hits k fd key ↔ ∃ cu, current tr fd = some cu ∧ live cu = true ∧ EpollPending cu.ev key := by
  unfold Hits
  rw [h.r.user fd hf]
  cases hc : current tr fd with
  | none => simp
  | some cu =>
    simp only [Option.map_some, Option.some.injEq, exists_eq_left']
    cases hl : live cu with
    | true => rw [itemOf_live cu hl]; simp only [true_and]; exact pending_iff cu key
    | false => rw [itemOf_dead cu hl]; simp

/-- An edge-triggered source that was taken into a batch is no longer in the ready list; one that was not is still in
it if it was and a watched condition of it holds. -/
theorem batch_edge {c : Cfg} {s s' : S} {tr : List (Obs EventExtra)} {a : Act} {evs} (h : KInv c s.k tr) {fd : Fd}
    (hs : step c s a = some (s', .deliver evs)) {cu} (hc : current tr fd = some cu) (hm : edgy cu.mode = true) :
    (fd ∈ evs.map Prod.fst → fd ∈ s.k.rdl ∧ fd ∉ s'.k.rdl) ∧
    (fd ∈ s'.k.rdl → fd ∈ s.k.rdl) ∧
    (fd ∉ evs.map Prod.fst → live cu = true → EpollPending cu.ev (s.k.user fd) → fd ∈ s.k.rdl → fd ∈ s'.k.rdl) := by
  obtain ⟨_, dl, cap, to, t0, _, _, rfl, rfl⟩ := deliver_inv hs
  have hf := (h.r.curOk fd cu hc).1
  obtain ⟨pre, rest, h1, h2, h3, h4, h5⟩ := harvest_spec h.l cap
  have hnd := h.l.nodup
  rw [h1, List.nodup_append] at hnd
  have hl : lvl s.k.items fd = false := by
    unfold lvl
    rw [h.r.user fd hf, hc]
    have he := itemOf_et cu (h.r.curOk fd cu hc).2.2
    have : (cu.mode == .edge || cu.mode == .edgeOneshot) = true := by cases hcm : cu.mode <;> simp_all [edgy]
    rw [this] at he
    simp [he]
  have hin : fd ∈ (((harvest c s.k cap).1.filter fun e => !c.internal e.1).map fun e => (e.1, toEvent e.2)).map Prod.fst ↔
      fd ∈ pre ∧ hot (ready c s.k) s.k.items fd = true := by
    rw [← List.mem_filter (p := hot (ready c s.k) s.k.items), ← mem_evs h2]
    simp only [List.map_map, List.mem_map, List.mem_filter, Function.comp]
    constructor
    · rintro ⟨e, ⟨he, _⟩, rfl⟩; exact ⟨e, he, rfl⟩
    · rintro ⟨e, he, rfl⟩; exact ⟨e, ⟨he, by simp [hf]⟩, rfl⟩
  rw [hin]
  simp only [h5]
  refine ⟨?_, ?_, ?_⟩
  · rintro ⟨hp, _⟩
    refine ⟨by rw [h1]; exact List.mem_append_left _ hp, ?_⟩
    rw [List.mem_append, List.mem_filter]
    rintro (hr | ⟨_, hr⟩)
    · exact hnd.2.2 fd hp fd hr rfl
    · rw [hl] at hr; cases hr
  · rw [List.mem_append, List.mem_filter, h1, List.mem_append]
    rintro (hr | ⟨_, hr⟩)
    · exact .inr hr
    · rw [hl] at hr; cases hr
  · intro hno hlv hp hr
    have hhot := (hot_user h hf).2 ⟨cu, hc, hlv, (pending_iff cu _).2 hp⟩
    rw [h1, List.mem_append] at hr
    rcases hr with hr | hr
    · exact absurd ⟨hr, hhot⟩ hno
    · exact List.mem_append_left _ hr

end Polling.EpollM
