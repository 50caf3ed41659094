import Verif.Model.PortM

/-! Invariants of the event port model. -/

namespace Polling.PortM
open Port Spec PollFlags

/-- What an association of the kernel looks like for a registration of the history. -/
def Matches : Option (Current EventExtra) → Option Assoc → Prop
  | none, a => a = none
  | some cu, a => cu.ev.key ≠ NOTIFY_KEY ∧ cu.mode = .oneshot ∧
      a = if cu.fired then none else some ⟨assocFlags cu.ev, keyToU64 cu.ev.key⟩

/-- Kernel invariants; `cur` is the history's table. -/
structure KI (cur : Fd → Option (Current EventExtra)) (k : Kern) : Prop where
  reg : ∀ fd, Matches (cur fd) (k.assoc fd)
  fds : ∀ fd, .fd fd ∈ k.queue → ∃ a, k.assoc fd = some a ∧ k.pend fd ≠ 0#16 ∧ k.pend fd &&& ~~~(a.events ||| ALWAYS) = 0#16
  once : ∀ fd, k.queue.count (.fd fd) ≤ 1
  live : ∀ fd a, k.assoc fd = some a → .fd fd ∉ k.queue → k.cond fd &&& (a.events ||| ALWAYS) = 0#16
  users : ∀ e d, .user e d ∈ k.queue → Entry.user e d = notification

theorem wake_env (k : Kern) (fd : Fd) (key : Flags) :
    (wake k fd key).assoc = k.assoc ∧ (wake k fd key).cond = k.cond ∧ (wake k fd key).time = k.time ∧
    (wake k fd key).queue.filter (· ≠ .fd fd) = k.queue.filter (· ≠ .fd fd) ∧ k.queue <+: (wake k fd key).queue := by
  unfold wake
  split
  · exact ⟨rfl, rfl, rfl, rfl, List.prefix_refl _⟩
  · dsimp only
    split
    · exact ⟨rfl, rfl, rfl, rfl, List.prefix_refl _⟩
    · split
      · exact ⟨rfl, rfl, rfl, rfl, List.prefix_refl _⟩
      · exact ⟨rfl, rfl, rfl, by simp, List.prefix_append _ _⟩

theorem bv_masked (key m : Flags) : (key &&& m) &&& ~~~m = 0#16 := by
  rw [BitVec.and_assoc, BitVec.and_not_self]; simp

theorem bv_or_masked {a b m : Flags} (ha : a &&& ~~~m = 0#16) (hb : b &&& ~~~m = 0#16) : (a ||| b) &&& ~~~m = 0#16 := by
  ext i hi
  have h1 : (a &&& ~~~m).getLsbD i = false := by rw [ha]; simp
  have h2 : (b &&& ~~~m).getLsbD i = false := by rw [hb]; simp
  simp [hi] at h1 h2 ⊢
  rintro (h | h)
  · exact h1 h
  · exact h2 h

theorem bv_or_ne {a b : Flags} (ha : a ≠ 0#16) : a ||| b ≠ 0#16 := by
  intro h
  apply ha
  ext i hi
  have : (a ||| b).getLsbD i = false := by rw [h]; simp
  simp [hi] at this ⊢
  exact this.1

/-- A wake-up keeps the invariants; `hnew`: the conditions that hold are among those woken for, or were already accounted for. -/
theorem ki_wake {cur k} {fd : Fd} {key : Flags}
    (h1 : ∀ x, Matches (cur x) (k.assoc x))
    (h2 : ∀ x, .fd x ∈ k.queue → ∃ a, k.assoc x = some a ∧ k.pend x ≠ 0#16 ∧ k.pend x &&& ~~~(a.events ||| ALWAYS) = 0#16)
    (h3 : ∀ x, k.queue.count (.fd x) ≤ 1)
    (h4 : ∀ x a, x ≠ fd → k.assoc x = some a → .fd x ∉ k.queue → k.cond x &&& (a.events ||| ALWAYS) = 0#16)
    (h5 : ∀ a, k.assoc fd = some a → .fd fd ∉ k.queue → key &&& (a.events ||| ALWAYS) = 0#16 → k.cond fd &&& (a.events ||| ALWAYS) = 0#16)
    (h6 : ∀ e d, .user e d ∈ k.queue → Entry.user e d = notification) : KI cur (wake k fd key) := by
  unfold wake
  cases ha : k.assoc fd with
  | none =>
    refine ⟨h1, h2, h3, ?_, h6⟩
    intro x a hx
    by_cases e : x = fd
    · subst e; rw [ha] at hx; cases hx
    · exact h4 x a e hx
  | some a =>
    dsimp only
    by_cases hr : key &&& (a.events ||| ALWAYS) = 0#16
    · rw [if_pos hr]
      refine ⟨h1, h2, h3, ?_, h6⟩
      intro x b hx hq
      by_cases e : x = fd
      · subst e
        rw [ha] at hx; cases hx
        exact h5 a ha hq hr
      · exact h4 x b e hx hq
    · rw [if_neg hr]
      by_cases hq : Entry.fd fd ∈ k.queue
      · rw [if_pos hq]
        refine ⟨h1, ?_, h3, ?_, h6⟩
        · intro x hx
          dsimp only
          by_cases e : x = fd
          · subst e
            obtain ⟨b, hb, hp, hm⟩ := h2 x hx
            rw [ha] at hb; cases hb
            rw [if_pos rfl]
            exact ⟨a, ha, bv_or_ne hp, bv_or_masked hm (bv_masked _ _)⟩
          · rw [if_neg e]; exact h2 x hx
        · intro x b hx hxq
          by_cases e : x = fd
          · subst e; exact absurd hq hxq
          · exact h4 x b e hx hxq
      · rw [if_neg hq]
        refine ⟨h1, ?_, ?_, ?_, ?_⟩
        · intro x hx
          dsimp only at hx ⊢
          rw [List.mem_append, List.mem_singleton] at hx
          by_cases e : x = fd
          · subst e
            rw [if_pos rfl]
            exact ⟨a, ha, hr, bv_masked _ _⟩
          · rw [if_neg e]
            rcases hx with hx | hx
            · exact h2 x hx
            · injection hx with hx; exact absurd hx e
        · intro x
          dsimp only
          rw [List.count_append, List.count_singleton]
          by_cases e : x = fd
          · subst e
            rw [List.count_eq_zero.2 hq]
            split <;> omega
          · have : (Entry.fd fd == Entry.fd x) = false := by
              rw [beq_eq_false_iff_ne]; intro h; injection h with h; exact e h.symm
            rw [this]
            have := h3 x
            simp; exact this
        · intro x b hx hxq
          dsimp only at hx hxq ⊢
          rw [List.mem_append, List.mem_singleton, not_or] at hxq
          by_cases e : x = fd
          · subst e; exact absurd rfl hxq.2
          · exact h4 x b e hx hxq.1
        · intro e d hm
          rw [List.mem_append, List.mem_singleton] at hm
          rcases hm with hm | hm
          · exact h6 e d hm
          · cases hm

theorem ki_associate {cur k k'} {fd : Fd} {ev : Event EventExtra} (h : KI cur k) (hk : ev.key ≠ NOTIFY_KEY)
    (ha : associate none k fd (assocFlags ev) (keyToU64 ev.key) = (.ok, k')) :
    KI (fun x => if x = fd then some ⟨ev, .oneshot, false⟩ else cur x) k' := by
  unfold associate at ha
  injection ha with _ ha
  subst ha
  apply ki_wake
  · intro x
    dsimp only [drop]
    by_cases e : x = fd
    · simp only [if_pos e]; exact ⟨hk, rfl, rfl⟩
    · simp only [if_neg e]; exact h.reg x
  · intro x hx
    dsimp only [drop] at hx ⊢
    rw [List.mem_filter] at hx
    have e : x ≠ fd := by rintro rfl; simp at hx
    simp only [if_neg e]
    exact h.fds x hx.1
  · intro x
    dsimp only [drop]
    exact Nat.le_trans (List.Sublist.count_le _ List.filter_sublist) (h.once x)
  · intro x a e hx hq
    dsimp only [drop] at hx hq ⊢
    simp only [if_neg e] at hx
    refine h.live x a hx ?_
    intro hm
    exact hq (List.mem_filter.2 ⟨hm, by simp [e]⟩)
  · intro a _ _ h0
    exact h0
  · intro e d hm
    dsimp only [drop] at hm
    exact h.users e d (List.mem_filter.1 hm).1

theorem ki_drop {cur k} {fd : Fd} (h : KI cur k) : KI (fun x => if x = fd then none else cur x) (drop k fd) := by
  unfold drop
  refine ⟨?_, ?_, ?_, ?_, ?_⟩
  · intro x
    dsimp only
    by_cases e : x = fd
    · simp only [if_pos e]; rfl
    · simp only [if_neg e]; exact h.reg x
  · intro x hx
    dsimp only at hx ⊢
    rw [List.mem_filter] at hx
    have e : x ≠ fd := by rintro rfl; simp at hx
    simp only [if_neg e]
    exact h.fds x hx.1
  · intro x
    exact Nat.le_trans (List.Sublist.count_le _ List.filter_sublist) (h.once x)
  · intro x a hx hq
    dsimp only at hx hq ⊢
    by_cases e : x = fd
    · rw [if_pos e] at hx; cases hx
    · rw [if_neg e] at hx
      refine h.live x a hx ?_
      intro hm
      exact hq (List.mem_filter.2 ⟨hm, by simp [e]⟩)
  · intro e d hm
    exact h.users e d (List.mem_filter.1 hm).1

/-- The sources of a batch. -/
theorem sources_fsts (k : Kern) (l : List Entry) :
    (sources (l.map (rawOf k))).map Prod.fst = l.filterMap fun e => match e with | .fd fd => some fd | .user _ _ => none := by
  induction l with
  | nil => rfl
  | cons e l ih =>
    cases e with
    | user ev d => simpa [sources, rawOf] using ih
    | fd fd =>
      simp only [sources, List.map_cons, rawOf, List.filterMap_cons, Option.map_some] at ih ⊢
      rw [ih]

theorem mem_sources (k : Kern) (l : List Entry) (fd : Fd) :
    fd ∈ (sources (l.map (rawOf k))).map Prod.fst ↔ .fd fd ∈ l := by
  rw [sources_fsts, List.mem_filterMap]
  constructor
  · rintro ⟨e, he, h⟩
    cases e with
    | user => cases h
    | fd x => injection h with h; subst h; exact he
  · intro h; exact ⟨_, h, rfl⟩

theorem count_sources (k : Kern) (l : List Entry) (fd : Fd) :
    ((sources (l.map (rawOf k))).map Prod.fst).count fd = l.count (.fd fd) := by
  rw [sources_fsts]
  induction l with
  | nil => rfl
  | cons e l ih =>
    cases e with
    | user ev d =>
      have : (Entry.user ev d == Entry.fd fd) = false := by simp
      simp only [List.filterMap_cons, List.count_cons, this, ih]; simp
    | fd x =>
      simp only [List.filterMap_cons, List.count_cons, ih]
      congr 1
      by_cases e : x = fd <;> simp [e]

theorem ki_getn {cur k} {max : Nat} (h : KI cur k) :
    KI (fun x => (cur x).map fun c => if x ∈ (sources (getn k max).1).map Prod.fst then { c with fired := true } else c) (getn k max).2 := by
  unfold getn
  dsimp only
  have hsplit : ∀ fd, Entry.fd fd ∈ k.queue.take max → Entry.fd fd ∉ k.queue.drop max := by
    intro fd h1 h2
    have := h.once fd
    rw [← List.take_append_drop max k.queue, List.count_append] at this
    have h1 := List.count_pos_iff.2 h1
    have h2 := List.count_pos_iff.2 h2
    omega
  refine ⟨?_, ?_, ?_, ?_, ?_⟩
  · intro x
    dsimp only
    have hm := h.reg x
    cases hc : cur x with
    | none =>
      rw [hc] at hm
      have hm : k.assoc x = none := hm
      show (if _ then none else k.assoc x) = none
      split
      · rfl
      · exact hm
    | some cu =>
      rw [hc] at hm
      obtain ⟨h1, h2, h3⟩ := hm
      rw [Option.map_some]
      by_cases hx : Entry.fd x ∈ k.queue.take max
      · rw [if_pos ((mem_sources k _ x).2 hx), if_pos hx]
        exact ⟨h1, h2, rfl⟩
      · rw [if_neg (fun h => hx ((mem_sources k _ x).1 h)), if_neg hx]
        exact ⟨h1, h2, h3⟩
  · intro x hx
    dsimp only at hx ⊢
    rw [if_neg (fun h => hsplit x h hx)]
    exact h.fds x (List.mem_of_mem_drop hx)
  · intro x
    exact Nat.le_trans (List.Sublist.count_le _ (List.drop_sublist _ _)) (h.once x)
  · intro x a hx hq
    dsimp only at hx hq ⊢
    split at hx
    · cases hx
    · next hn =>
      refine h.live x a hx ?_
      intro hm
      rw [← List.take_append_drop max k.queue, List.mem_append] at hm
      exact hm.elim hn hq
  · intro e d hm
    exact h.users e d (List.mem_of_mem_drop hm)

theorem current_deliver_nil (tr : List (Obs EventExtra)) : current (.deliver [] :: tr) = current tr := by
  funext x
  simp only [current, List.map_nil, List.not_mem_nil, if_false]
  cases current tr x <;> rfl

/-- The effect of the kernel calls. -/
theorem add_cases {fault k fd ev mode r k'} (h : modify fault k fd ev mode = (r, k')) :
    (r = .ok ∧ mode = .oneshot ∧ associate none k fd (assocFlags ev) (keyToU64 ev.key) = (.ok, k')) ∨ ((∃ e, r = .err e) ∧ k' = k) := by
  unfold modify at h
  dsimp only at h
  split at h
  · cases h; exact .inr ⟨⟨_, rfl⟩, rfl⟩
  · next hm =>
    cases fault with
    | some e => unfold associate at h; cases h; exact .inr ⟨⟨_, rfl⟩, rfl⟩
    | none =>
      have := h
      unfold associate at h
      injection h with h1 h2
      refine .inl ⟨h1.symm, ?_, by rw [this, h1]⟩
      simpa using hm

theorem delete_cases {fault k fd r k'} (h : delete fault k fd = (r, k')) :
    (r = .ok ∧ (k' = drop k fd ∨ (k' = k ∧ (k.assoc fd = none ∨ fault = some .notFound)))) ∨ ((∃ e, r = .err e) ∧ k' = k) := by
  unfold delete at h
  rcases hd : dissociate fault k fd with ⟨r', k1⟩
  rw [hd] at h
  unfold dissociate at hd
  cases fault with
  | some e =>
    cases hd
    by_cases he : e = .notFound
    · subst he; cases h; exact .inl ⟨rfl, .inr ⟨rfl, .inr rfl⟩⟩
    · have : (Res.err e, k) = (r, k') := by
        rw [← h]
        split
        · next heq => injection heq with h1 h2; injection h1 with h1; exact absurd h1 he
        · rfl
      cases this
      exact .inr ⟨⟨_, rfl⟩, rfl⟩
  | none =>
    dsimp only at hd
    cases ha : k.assoc fd with
    | none => rw [ha] at hd; cases hd; cases h; exact .inl ⟨rfl, .inr ⟨rfl, .inl rfl⟩⟩
    | some a => rw [ha] at hd; cases hd; cases h; exact .inl ⟨rfl, .inl rfl⟩

theorem reach_ki {n P s tr} (h : Reach n P s tr) : KI (current tr) s.k := by
  induction h with
  | init cond =>
    refine ⟨fun _ => rfl, ?_, ?_, ?_, ?_⟩
    · intro fd h; cases h
    · intro fd; exact Nat.zero_le _
    · intro fd a h; cases h
    · intro e d h; cases h
  | @step s tr a s' o hr hp hs ih =>
    cases a with
    | add fd ev mode fault =>
      simp only [step] at hs
      split at hs
      · cases hs; exact ih
      · next hk =>
        rcases hm : PortM.add fault s.k fd ev mode with ⟨r, k⟩
        rw [hm] at hs
        rcases add_cases hm with ⟨rfl, rfl, ha⟩ | ⟨⟨e, rfl⟩, rfl⟩ <;> cases hs
        · exact ki_associate ih hk ha
        · exact ih
    | modify fd ev mode fault =>
      simp only [step] at hs
      split at hs
      · cases hs; exact ih
      · next hk =>
        rcases hm : PortM.modify fault s.k fd ev mode with ⟨r, k⟩
        rw [hm] at hs
        rcases add_cases hm with ⟨rfl, rfl, ha⟩ | ⟨⟨e, rfl⟩, rfl⟩ <;> cases hs
        · exact ki_associate ih hk ha
        · exact ih
    | delete fd fault =>
      simp only [step] at hs
      split at hs
      · cases hs
      next hnf =>
      rcases hm : PortM.delete fault s.k fd with ⟨r, k⟩
      rw [hm] at hs
      rcases delete_cases hm with ⟨rfl, rfl | ⟨rfl, hx⟩⟩ | ⟨⟨e, rfl⟩, rfl⟩ <;> cases hs
      · exact ki_drop ih
      · rcases hx with hx | rfl
        · have hd := ki_drop (fd := fd) ih
          refine ⟨?_, ih.fds, ih.once, ih.live, ih.users⟩
          intro x
          simp only [current]
          by_cases e : x = fd
          · rw [if_pos e, e]; exact hx
          · rw [if_neg e]; exact ih.reg x
        · exact absurd rfl hnf
      · exact ih
    | notifyCas =>
      simp only [step] at hs
      split at hs
      · cases hs; exact ih
      · split at hs <;> cases hs; exact ih
    | notifySend fault =>
      simp only [step] at hs
      split at hs
      rotate_left
      · cases hs
      cases fault with
      | some e => cases hs; exact ih
      | none =>
        cases hs
        refine ⟨ih.reg, ?_, ?_, ?_, ?_⟩
        · intro fd hm
          rw [List.mem_append, List.mem_singleton] at hm
          rcases hm with hm | hm
          · exact ih.fds fd hm
          · cases hm
        · intro fd
          rw [List.count_append]
          have : List.count (Entry.fd fd) [notification] = 0 := by rw [List.count_eq_zero]; simp [notification]
          rw [this]
          exact ih.once fd
        · intro fd a ha hm
          rw [List.mem_append, not_or] at hm
          exact ih.live fd a ha hm.1
        · intro e d hm
          rw [List.mem_append, List.mem_singleton] at hm
          rcases hm with hm | hm
          · exact ih.users e d hm
          · exact hm
    | waitBegin timeout cap =>
      simp only [step] at hs
      repeat' split at hs
      all_goals cases hs
      exact ih
    | waitBusy =>
      simp only [step] at hs
      split at hs <;> cases hs
      exact ih
    | compute =>
      simp only [step] at hs
      split at hs <;> cases hs
      exact ih
    | getn =>
      simp only [step] at hs
      split at hs
      rotate_left
      · cases hs
      split at hs
      · cases hs; exact ki_getn ih
      · split at hs <;> cases hs
        rw [current_deliver_nil]; exact ih
    | getnFail e =>
      simp only [step] at hs
      split at hs
      rotate_left
      · cases hs
      split at hs <;> cases hs <;> exact ih
    | finish =>
      simp only [step] at hs
      split at hs <;> cases hs
      exact ih
    | setReady fd flags key =>
      simp only [step] at hs
      split at hs
      · cases hs
      · next hnew =>
        cases hs
        have hnew : flags &&& ~~~(s.k.cond fd) &&& ~~~key = 0#16 := Classical.not_not.1 hnew
        refine ki_wake (cur := current tr) ih.reg ih.fds ih.once ?_ ?_ ih.users
        · intro x a e hx hq
          dsimp only
          rw [if_neg e]; exact ih.live x a hx hq
        · intro a ha hq hkey
          dsimp only
          rw [if_pos rfl]
          have hold := ih.live fd a ha hq
          ext i hi
          have h1 : (flags &&& ~~~(s.k.cond fd) &&& ~~~key).getLsbD i = false := by rw [hnew]; simp
          have h2 : (key &&& (a.events ||| ALWAYS)).getLsbD i = false := by rw [hkey]; simp
          have h3 : (s.k.cond fd &&& (a.events ||| ALWAYS)).getLsbD i = false := by rw [hold]; simp
          simp [hi] at h1 h2 h3 ⊢
          intro hf
          cases hc : (s.k.cond fd)[i] with
          | true => exact h3 hc
          | false => exact h2 (h1 hf hc)
    | tick dt =>
      simp only [step] at hs
      cases hs
      exact ⟨ih.reg, ih.fds, ih.once, ih.live, ih.users⟩

/-- The notification invariant and the capacity of the buffer. -/
structure NI (s : S) (tr : List (Obs EventExtra)) : Prop where
  chan : (s.notified = true ∨ owed tr = true) → notification ∈ s.k.queue ∨ s.inflight > 0 ∨ ∃ evs, s.phase = .taken evs
  cap : ∀ dl cap, s.phase = .top dl cap → cap > 0
  cap' : ∀ dl cap to t0, s.phase = .polling dl cap to t0 → cap > 0

theorem drop_notif (k : Kern) (fd : Fd) : notification ∈ (drop k fd).queue ↔ notification ∈ k.queue := by
  unfold drop
  dsimp only
  rw [List.mem_filter]
  constructor
  · exact fun h => h.1
  · intro h; exact ⟨h, by simp [notification]⟩

theorem wake_notif (k : Kern) (fd : Fd) (key : Flags) : notification ∈ (wake k fd key).queue ↔ notification ∈ k.queue := by
  unfold wake
  split
  · exact Iff.rfl
  · dsimp only
    split
    · exact Iff.rfl
    · split
      · exact Iff.rfl
      · rw [List.mem_append, List.mem_singleton]
        exact ⟨fun h => h.elim id (fun h => by simp [notification] at h), .inl⟩

theorem associate_notif {k k' : Kern} {fd : Fd} {ev u} (h : associate none k fd ev u = (.ok, k')) : notification ∈ k'.queue ↔ notification ∈ k.queue := by
  unfold associate at h
  injection h with _ h
  subst h
  rw [wake_notif]
  exact drop_notif k fd

theorem owed_reg {o : Obs EventExtra} {tr : List (Obs EventExtra)} (h1 : o ≠ .notified) (h2 : ∀ n evs, o ≠ .waitOk n evs) :
    owed (o :: tr) = owed tr := by
  cases o with
  | notified => exact absurd rfl h1
  | waitOk n evs => exact absurd rfl (h2 n evs)
  | _ => rfl

theorem reach_ni {n P s tr} (hP : ∀ s a, P s a → SendWorks s a) (h : Reach n P s tr) : NI s tr := by
  induction h with
  | init cond =>
    refine ⟨?_, ?_, ?_⟩
    · rintro (h | h) <;> cases h
    · intro dl cap h; cases h
    · intro dl cap to t0 h; cases h
  | @step s tr a s' o hr hp hs ih =>
    cases a with
    | add fd ev mode fault =>
      simp only [step] at hs
      split at hs
      · cases hs; exact ⟨ih.chan, ih.cap, ih.cap'⟩
      · rcases hm : PortM.add fault s.k fd ev mode with ⟨r, k⟩
        rw [hm] at hs
        rcases add_cases hm with ⟨rfl, rfl, ha⟩ | ⟨⟨e, rfl⟩, rfl⟩ <;> cases hs
        · exact ⟨fun h => by dsimp only; rw [associate_notif ha]; exact ih.chan h, ih.cap, ih.cap'⟩
        · exact ⟨ih.chan, ih.cap, ih.cap'⟩
    | modify fd ev mode fault =>
      simp only [step] at hs
      split at hs
      · cases hs; exact ⟨ih.chan, ih.cap, ih.cap'⟩
      · rcases hm : PortM.modify fault s.k fd ev mode with ⟨r, k⟩
        rw [hm] at hs
        rcases add_cases hm with ⟨rfl, rfl, ha⟩ | ⟨⟨e, rfl⟩, rfl⟩ <;> cases hs
        · exact ⟨fun h => by dsimp only; rw [associate_notif ha]; exact ih.chan h, ih.cap, ih.cap'⟩
        · exact ⟨ih.chan, ih.cap, ih.cap'⟩
    | delete fd fault =>
      simp only [step] at hs
      split at hs
      · cases hs
      next hnf =>
      rcases hm : PortM.delete fault s.k fd with ⟨r, k⟩
      rw [hm] at hs
      rcases delete_cases hm with ⟨rfl, rfl | ⟨rfl, hx⟩⟩ | ⟨⟨e, rfl⟩, rfl⟩ <;> cases hs
      · exact ⟨fun h => by dsimp only; rw [drop_notif]; exact ih.chan h, ih.cap, ih.cap'⟩
      · exact ⟨ih.chan, ih.cap, ih.cap'⟩
      · exact ⟨ih.chan, ih.cap, ih.cap'⟩
    | notifyCas =>
      simp only [step] at hs
      split at hs
      · next hn => cases hs; exact ⟨fun _ => ih.chan (.inl hn), ih.cap, ih.cap'⟩
      · split at hs <;> cases hs
        exact ⟨fun _ => .inr (.inl (by dsimp only; omega)), ih.cap, ih.cap'⟩
    | notifySend fault =>
      simp only [step] at hs
      split at hs
      rotate_left
      · cases hs
      cases fault with
      | some e => exact absurd (hP _ _ hp) id
      | none => cases hs; exact ⟨fun _ => .inl (by simp), ih.cap, ih.cap'⟩
    | waitBegin timeout cap =>
      simp only [step] at hs
      split at hs
      rotate_left
      · cases hs
      next hph =>
      split at hs
      · cases hs
      next hc =>
      cases hs
      refine ⟨fun h => ?_, ?_, ?_⟩
      · rcases ih.chan h with h | h | ⟨evs, h⟩
        · exact .inl h
        · exact .inr (.inl h)
        · rw [hph] at h; cases h
      · intro dl c h; cases h; omega
      · intro dl c to t0 h; cases h
    | waitBusy =>
      simp only [step] at hs
      split at hs <;> cases hs
      exact ⟨ih.chan, ih.cap, ih.cap'⟩
    | compute =>
      simp only [step] at hs
      split at hs
      rotate_left
      · cases hs
      next hph =>
      cases hs
      refine ⟨fun h => ?_, nofun, ?_⟩
      · rcases ih.chan h with h | h | ⟨evs, h⟩
        · exact .inl h
        · exact .inr (.inl h)
        · rw [hph] at h; cases h
      · intro dl c to t0 h; injection h with h1 h2; subst h2; exact ih.cap _ _ hph
    | getn =>
      simp only [step] at hs
      split at hs
      rotate_left
      · cases hs
      split at hs
      · cases hs; exact ⟨fun _ => .inr (.inr ⟨_, rfl⟩), nofun, nofun⟩
      · split at hs <;> cases hs
        exact ⟨fun _ => .inr (.inr ⟨_, rfl⟩), nofun, nofun⟩
    | getnFail e =>
      simp only [step] at hs
      split at hs
      rotate_left
      · cases hs
      next hph =>
      have key : (s.notified = true ∨ owed tr = true) → notification ∈ s.k.queue ∨ s.inflight > 0 := by
        intro h
        rcases ih.chan h with h | h | ⟨evs, h⟩
        · exact .inl h
        · exact .inr h
        · rw [hph] at h; cases h
      split at hs <;> cases hs
      · refine ⟨fun h => ?_, ?_, nofun⟩
        · exact (key h).elim .inl fun h => .inr (.inl h)
        · intro dl c h; cases h; exact ih.cap' _ _ _ _ hph
      · exact ⟨fun h => (key h).elim .inl fun h => .inr (.inl h), nofun, nofun⟩
    | finish =>
      simp only [step] at hs
      split at hs <;> cases hs
      refine ⟨?_, nofun, nofun⟩
      rintro (h | h) <;> cases h
    | setReady fd flags key =>
      simp only [step] at hs
      split at hs
      · cases hs
      · cases hs
        exact ⟨fun h => by dsimp only; rw [wake_notif]; exact ih.chan h, ih.cap, ih.cap'⟩
    | tick dt =>
      simp only [step] at hs
      cases hs
      exact ⟨ih.chan, ih.cap, ih.cap'⟩

/-- Any point of a history. -/
theorem reach_split {n P s tr} (h : Reach n P s tr) : ∀ later o earlier, tr = later ++ o :: earlier →
    ∃ s0 a s1, Reach n P s0 earlier ∧ P s0 a ∧ step n s0 a = some (s1, o) := by
  induction h with
  | init => intro later o earlier he; simp at he
  | @step s tr a s' o' hr hp hs ih =>
    intro later o earlier he
    cases later with
    | nil =>
      injection he with h1 h2
      subst h1 h2
      exact ⟨s, a, s', hr, hp, hs⟩
    | cons x later =>
      injection he with h1 h2
      exact ih later o earlier h2

/-- A delivery step. -/
theorem deliver_inv {n s a s' evs} (hs : step n s a = some (s', .deliver evs)) :
    a = .getn ∧ ∃ dl cap to t0, s.phase = .polling dl cap to t0 ∧
      ((s.k.queue ≠ [] ∧ s' = { s with k := (PortM.getn s.k cap).2, phase := .taken (PortM.getn s.k cap).1 } ∧
        evs = sources (PortM.getn s.k cap).1) ∨
       (s.k.queue = [] ∧ timeUp to t0 s.k.time = true ∧ s' = { s with phase := .taken [] } ∧ evs = [])) := by
  cases a with
  | getn =>
    refine ⟨rfl, ?_⟩
    simp only [step] at hs
    split at hs
    rotate_left
    · cases hs
    next dl cap to t0 hph =>
    refine ⟨dl, cap, to, t0, hph, ?_⟩
    split at hs
    · next hq => cases hs; exact .inl ⟨hq, rfl, rfl⟩
    · next hq =>
      split at hs <;> cases hs
      next ht =>
      exact .inr ⟨Classical.not_not.1 hq, ht, rfl, rfl⟩
  | _ =>
    simp only [step] at hs
    repeat' split at hs
    all_goals first | cases hs | (injection hs with hs; injection hs with h1 h2; cases h2)

/-- A delivered event. -/
theorem delivered {n s a s' evs cur} (hk : KI cur s.k) (hs : step n s a = some (s', .deliver evs)) {fd : Fd} {e : Event EventExtra}
    (he : (fd, e) ∈ evs) :
    ∃ cu, cur fd = some cu ∧ cu.fired = false ∧ e.key = cu.ev.key ∧ e.key ≠ NOTIFY_KEY ∧
      s.k.pend fd ≠ 0#16 ∧ s.k.pend fd &&& ~~~(assocFlags cu.ev ||| ALWAYS) = 0#16 ∧
      e = toEvent ⟨(s.k.pend fd).setWidth 32, keyToU64 cu.ev.key⟩ := by
  obtain ⟨_, dl, cap, to, t0, hph, ⟨hq, rfl, rfl⟩ | ⟨_, _, _, rfl⟩⟩ := deliver_inv hs
  rotate_left
  · cases he
  unfold getn sources at he
  dsimp only at he
  rw [List.mem_filterMap] at he
  obtain ⟨raw, hr, he⟩ := he
  rw [List.mem_map] at hr
  obtain ⟨en, hen, rfl⟩ := hr
  cases en with
  | user => cases he
  | fd x =>
    simp only [rawOf, Option.map_some, Option.some.injEq, Prod.mk.injEq] at he
    obtain ⟨rfl, he⟩ := he
    obtain ⟨a, ha, hp, hm⟩ := hk.fds x (List.mem_of_mem_take hen)
    have hreg := hk.reg x
    cases hc : cur x with
    | none => rw [hc, ha] at hreg; cases hreg
    | some cu =>
      rw [hc, ha] at hreg
      obtain ⟨h1, h2, h3⟩ := hreg
      split at h3
      · cases h3
      · next hf =>
        injection h3 with h3
        subst h3
        have hkey : e.key = cu.ev.key := by
          rw [← he, ha]
          simp [toEvent, u64ToKey, keyToU64]
        refine ⟨cu, rfl, by simpa using hf, hkey, by rw [hkey]; exact h1, hp, hm, ?_⟩
        rw [← he, ha]; rfl

/-- Runs and histories. -/
theorem run_reach {n P s tr} (h : Reach n P s tr) {acts : List Act} : ∀ {s' obs}, (∀ s, ∀ a ∈ acts, P s a) → runActs n s acts = some (s', obs) →
    Reach n P s' (obs ++ tr) := by
  induction acts generalizing s tr with
  | nil => intro s' obs _ hr; cases hr; exact h
  | cons a acts ih =>
    intro s' obs hP hr
    simp only [runActs, Option.bind_eq_some_iff, Option.map_eq_some_iff] at hr
    obtain ⟨⟨s1, o⟩, hs, ⟨s2, obs2⟩, hr2, he⟩ := hr
    injection he with h1 h2
    subst h1 h2
    have := ih (h.step (hP _ a (by simp)) hs) (fun s a ha => hP s a (by simp [ha])) hr2
    simpa using this

end Polling.PortM
