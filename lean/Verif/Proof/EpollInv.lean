import Verif.Proof.EpollScan

/-! Invariants of the epoll machine: kernel tables against the observed history. -/

namespace Polling.EpollM
open Epoll Spec

theorem and_or_r {n : Nat} (a b p : BitVec n) : (a ||| b) &&& p = (a &&& p) ||| (b &&& p) := by
  apply BitVec.eq_of_getLsbD_eq
  intro i hi
  simp only [BitVec.getLsbD_and, BitVec.getLsbD_or]
  cases a.getLsbD i <;> cases b.getLsbD i <;> simp

/-- The item of a registration. -/
def itemOf (cu : Current EventExtra) : Item :=
  ⟨if cu.fired && oneshot cu.mode then modeFlags cu.mode else ctlFlags cu.ev cu.mode ||| ERR ||| HUP, keyToU64 cu.ev.key⟩

theorem ctl_private (ev : Event EventExtra) (mode : PollMode) (h : buildable ev = true) :
    (ctlFlags ev mode ||| ERR ||| HUP) &&& PRIVATE = modeFlags mode := by
  have he : ev.extra.flags &&& PRIVATE = 0#32 := by simpa [buildable] using h
  unfold ctlFlags
  rw [and_or_r, and_or_r, and_or_r, he]
  unfold epollFlags
  cases mode <;> cases ev.readable <;> cases ev.writable <;> decide

theorem inter_private {f p q : Flags} (h : q &&& p = q) (h' : f &&& p = g) : intersects f q = intersects g q := by
  unfold intersects
  rw [← h, ← h']
  congr 1
  apply BitVec.eq_of_getLsbD_eq
  intro i hi
  simp only [BitVec.getLsbD_and]
  cases f.getLsbD i <;> cases q.getLsbD i <;> cases p.getLsbD i <;> rfl

theorem itemOf_private (cu : Current EventExtra) (h : buildable cu.ev = true) :
    (itemOf cu).events &&& PRIVATE = modeFlags cu.mode := by
  unfold itemOf
  simp only
  split
  · cases cu.mode <;> decide
  · exact ctl_private _ _ h

theorem itemOf_oneshot (cu : Current EventExtra) (h : buildable cu.ev = true) :
    intersects (itemOf cu).events ONESHOT = oneshot cu.mode := by
  rw [inter_private (by decide) (itemOf_private cu h)]
  cases cu.mode <;> decide

theorem itemOf_et (cu : Current EventExtra) (h : buildable cu.ev = true) :
    intersects (itemOf cu).events ET = (cu.mode == .edge || cu.mode == .edgeOneshot) := by
  rw [inter_private (by decide) (itemOf_private cu h)]
  cases cu.mode <;> decide

theorem disarm_itemOf (cu : Current EventExtra) (h : buildable cu.ev = true) :
    disarm (itemOf cu) = itemOf { cu with fired := true } := by
  unfold disarm
  rw [itemOf_oneshot cu h, itemOf_private cu h]
  by_cases ho : oneshot cu.mode = true
  · rw [if_pos ho]; simp [itemOf, ho]
  · rw [if_neg ho]; simp [itemOf, ho]

/-- Read interest of the poller's own descriptors. -/
def ARMED : Flags := ctlFlags (Event.onlyReadable NOTIFY_KEY) .oneshot ||| ERR ||| HUP
def UNARMED : Flags := ctlFlags (Event.none NOTIFY_KEY) .oneshot ||| ERR ||| HUP
def NK : BitVec 64 := keyToU64 NOTIFY_KEY

/-- The interest list against the registrations. -/
structure R (c : Cfg) (items : Fd → Option Item) (cur : Fd → Option (Current EventExtra)) : Prop where
  user : ∀ fd, c.internal fd = false → items fd = (cur fd).map itemOf
  curOk : ∀ fd cu, cur fd = some cu → c.internal fd = false ∧ cu.ev.key ≠ NOTIFY_KEY ∧ buildable cu.ev = true
  notif : items c.notifFd = some ⟨ARMED, NK⟩ ∨ items c.notifFd = some ⟨ONESHOT, NK⟩
  timer : c.hasTimer = true →
    items c.timerFd = some ⟨ARMED, NK⟩ ∨ items c.timerFd = some ⟨ONESHOT, NK⟩ ∨ items c.timerFd = some ⟨UNARMED, NK⟩

/-- The ready list. -/
structure L (c : Cfg) (k : Kern) : Prop where
  nodup : k.rdl.Nodup
  sub : ∀ fd ∈ k.rdl, (k.items fd).isSome = true
  linked : ∀ fd it, k.items fd = some it → intersects it.events ET = false →
    ready c k fd &&& it.events &&& ~~~PRIVATE ≠ 0#32 → fd ∈ k.rdl

/-- The timer is distinct from the notifier. -/
def Cfg.Ok (c : Cfg) : Prop := c.hasTimer = true → c.timerFd ≠ c.notifFd

theorem internal_notif (c : Cfg) : c.internal c.notifFd = true := by simp [Cfg.internal]
theorem internal_timer (c : Cfg) (h : c.hasTimer = true) : c.internal c.timerFd = true := by simp [Cfg.internal, h]

theorem internal_cases {c : Cfg} {fd : Fd} (h : c.internal fd = true) :
    fd = c.notifFd ∨ (c.hasTimer = true ∧ fd = c.timerFd) := by
  simpa [Cfg.internal] using h

/-- `ready` only looks at these fields. -/
theorem ready_congr {c : Cfg} {k k' : Kern} (h1 : k'.count = k.count) (h2 : k'.ticks = k.ticks) (h3 : k'.user = k.user) :
    ready c k' = ready c k := by
  funext fd; simp [ready, h1, h2, h3]

theorem link_items (k : Kern) (fd : Fd) (key : Flags) : (link k fd key).items = k.items := by rw [link_eq]
theorem link_ready (c : Cfg) (k : Kern) (fd : Fd) (key : Flags) : ready c (link k fd key) = ready c k :=
  ready_congr (by rw [link_eq]) (by rw [link_eq]) (by rw [link_eq])

/-- Linking keeps the ready list well-formed, and repairs a missing entry. -/
theorem link_L {c : Cfg} {k : Kern} {fd : Fd} {key : Flags} (h1 : k.rdl.Nodup)
    (h2 : ∀ x ∈ k.rdl, (k.items x).isSome = true)
    (h3 : ∀ x it, k.items x = some it → intersects it.events ET = false →
      ready c k x &&& it.events &&& ~~~PRIVATE ≠ 0#32 →
      x ∈ k.rdl ∨ (x = fd ∧ key &&& it.events &&& ~~~PRIVATE ≠ 0#32)) : L c (link k fd key) := by
  refine ⟨link_nodup _ _ _ h1, ?_, ?_⟩
  · intro x hx
    rw [link_items]
    rcases (link_mem _ _ _ _).1 hx with hx | ⟨rfl, it, hi, _⟩
    · exact h2 x hx
    · simp [hi]
  · intro x it hi het hr
    rw [link_items] at hi
    rw [link_ready] at hr
    rw [link_mem]
    rcases h3 x it hi het hr with hx | ⟨rfl, hk⟩
    · exact .inl hx
    · exact .inr ⟨rfl, it, hi, hk⟩

/-- Setting an item and linking it if ready. -/
theorem setlink_L {c : Cfg} {k : Kern} (h : L c k) (fd : Fd) (it : Item) :
    L c (link (setItem k fd (some it)) fd (ready c (setItem k fd (some it)) fd)) := by
  refine link_L h.nodup ?_ ?_
  · intro x hx
    show ((if x = fd then some it else k.items x)).isSome = true
    split
    · rfl
    · exact h.sub x hx
  · intro x it' hi het hr
    have hi' : (if x = fd then some it else k.items x) = some it' := hi
    by_cases hx : x = fd
    · subst hx
      exact .inr ⟨rfl, hr⟩
    · rw [if_neg hx] at hi'
      exact .inl (h.linked x it' hi' het hr)

theorem ctlAdd_cases {c : Cfg} {fault k fd flags data res k'} (h : ctlAdd c fault k fd flags data = (res, k')) :
    (res = .ok ∧ k.items fd = none ∧
      k' = link (setItem k fd (some ⟨flags ||| ERR ||| HUP, data⟩)) fd
        (ready c (setItem k fd (some ⟨flags ||| ERR ||| HUP, data⟩)) fd)) ∨
    ((∃ e, res = .err e) ∧ k' = k) := by
  unfold ctlAdd at h
  cases fault with
  | some e => simp at h; exact .inr ⟨⟨e, h.1.symm⟩, h.2.symm⟩
  | none =>
    simp only at h
    cases hi : k.items fd with
    | some _ => simp [hi] at h; exact .inr ⟨⟨_, h.1.symm⟩, h.2.symm⟩
    | none => simp [hi] at h; exact .inl ⟨h.1.symm, rfl, h.2.symm⟩

theorem ctlMod_cases {c : Cfg} {fault k fd flags data res k'} (h : ctlMod c fault k fd flags data = (res, k')) :
    (res = .ok ∧ (k.items fd).isSome = true ∧
      k' = link (setItem k fd (some ⟨flags ||| ERR ||| HUP, data⟩)) fd
        (ready c (setItem k fd (some ⟨flags ||| ERR ||| HUP, data⟩)) fd)) ∨
    ((∃ e, res = .err e) ∧ k' = k) := by
  unfold ctlMod at h
  cases fault with
  | some e => simp at h; exact .inr ⟨⟨e, h.1.symm⟩, h.2.symm⟩
  | none =>
    simp only at h
    cases hi : k.items fd with
    | none => simp [hi] at h; exact .inr ⟨⟨_, h.1.symm⟩, h.2.symm⟩
    | some _ => simp [hi] at h; exact .inl ⟨h.1.symm, rfl, h.2.symm⟩

theorem ctlDel_cases {fault k fd res k'} (h : ctlDel fault k fd = (res, k')) :
    (res = .ok ∧ (k.items fd).isSome = true ∧
      k' = { setItem k fd none with rdl := k.rdl.filter (· ≠ fd) }) ∨
    ((∃ e, res = .err e) ∧ k' = k) := by
  unfold ctlDel at h
  cases fault with
  | some e => simp at h; exact .inr ⟨⟨e, h.1.symm⟩, h.2.symm⟩
  | none =>
    simp only at h
    cases hi : k.items fd with
    | none => simp [hi] at h; exact .inr ⟨⟨_, h.1.symm⟩, h.2.symm⟩
    | some _ => simp [hi] at h; exact .inl ⟨h.1.symm, rfl, by rw [← h.2]; simp [setItem]⟩

theorem del_L {c : Cfg} {k : Kern} (h : L c k) (fd : Fd) :
    L c { setItem k fd none with rdl := k.rdl.filter (· ≠ fd) } := by
  refine ⟨h.nodup.filter _, ?_, ?_⟩
  · intro x hx
    rw [List.mem_filter] at hx
    show ((if x = fd then none else k.items x)).isSome = true
    have : x ≠ fd := by simpa using hx.2
    rw [if_neg this]; exact h.sub x hx.1
  · intro x it hi het hr
    have hi' : (if x = fd then none else k.items x) = some it := hi
    by_cases hx : x = fd
    · simp [hx] at hi'
    · rw [if_neg hx] at hi'
      exact List.mem_filter.2 ⟨h.linked x it hi' het hr, by simpa using hx⟩

/-- A registration of a user's descriptor. -/
theorem R_reg {c items} {tr : List (Obs EventExtra)} (h : R c items (current tr)) {fd : Fd} {ev mode}
    (hf : c.internal fd = false) (hb : buildable ev = true) (hk : ev.key ≠ NOTIFY_KEY) :
    R c (fun x => if x = fd then some ⟨ctlFlags ev mode ||| ERR ||| HUP, keyToU64 ev.key⟩ else items x)
      (current (.reg fd ev mode :: tr)) := by
  have hne : ∀ x, c.internal x = true → x ≠ fd := by
    rintro x hx rfl; rw [hf] at hx; cases hx
  refine ⟨?_, ?_, ?_, ?_⟩
  · intro x hx
    simp only [current]
    split
    · simp [itemOf]
    · exact h.user x hx
  · intro x cu hc
    simp only [current] at hc
    split at hc
    · next hx => simp at hc; subst hc; subst hx; exact ⟨hf, hk, hb⟩
    · exact h.curOk x cu hc
  · simp only [if_neg (hne _ (internal_notif c))]; exact h.notif
  · intro ht
    simp only [if_neg (hne _ (internal_timer c ht))]; exact h.timer ht

theorem R_unreg {c items} {tr : List (Obs EventExtra)} (h : R c items (current tr)) {fd : Fd}
    (hf : c.internal fd = false) :
    R c (fun x => if x = fd then none else items x) (current (.unreg fd :: tr)) := by
  have hne : ∀ x, c.internal x = true → x ≠ fd := by
    rintro x hx rfl; rw [hf] at hx; cases hx
  refine ⟨?_, ?_, ?_, ?_⟩
  · intro x hx
    simp only [current]
    split
    · rfl
    · exact h.user x hx
  · intro x cu hc
    simp only [current] at hc
    split at hc
    · simp at hc
    · exact h.curOk x cu hc
  · simp only [if_neg (hne _ (internal_notif c))]; exact h.notif
  · intro ht
    simp only [if_neg (hne _ (internal_timer c ht))]; exact h.timer ht

theorem R_internal {c items cur} (h : R c items cur) {fd : Fd} (hf : c.internal fd = true) :
    R c (fun x => if x = fd then some ⟨ARMED, NK⟩ else items x) cur := by
  refine ⟨?_, h.curOk, ?_, ?_⟩
  · intro x hx
    have : x ≠ fd := by rintro rfl; rw [hf] at hx; cases hx
    simp only [if_neg this]; exact h.user x hx
  · by_cases hx : c.notifFd = fd
    · simp [hx]
    · simp only [if_neg hx]; exact h.notif
  · intro ht
    by_cases hx : c.timerFd = fd
    · simp [hx]
    · simp only [if_neg hx]; exact h.timer ht

/-! The harvest -/

theorem harvest_spec {c : Cfg} {k : Kern} (h : L c k) (n : Nat) :
    ∃ pre rest, k.rdl = pre ++ rest ∧
      (harvest c k n).1 = (pre.filter (hot (ready c k) k.items)).map (rawOf (ready c k) k.items) ∧
      (pre.filter (hot (ready c k) k.items)).length ≤ n ∧
      (rest = [] ∨ (pre.filter (hot (ready c k) k.items)).length = n) ∧
      (harvest c k n).2 = { k with
        items := fun x => if x ∈ pre.filter (hot (ready c k) k.items) then (k.items x).map disarm else k.items x
        rdl := rest ++ (pre.filter (hot (ready c k) k.items)).filter (lvl k.items) } := by
  obtain ⟨pre, h1, h2, h3, h4, h5, h6⟩ := scan_spec (ready c k) n k.rdl k.items h.nodup
  refine ⟨pre, _, h1, h2, h3, h4, ?_⟩
  unfold harvest
  simp only [h5, h6]

theorem mem_evs {c : Cfg} {k : Kern} {pre : List Fd} {evs} 
    (h : evs = (pre.filter (hot (ready c k) k.items)).map (rawOf (ready c k) k.items)) :
    evs.map Prod.fst = pre.filter (hot (ready c k) k.items) := by
  subst h
  rw [List.map_map]
  apply Eq.trans (List.map_congr_left (g := id) _) (List.map_id _)
  intro x _; rfl

theorem disarmed_quiet (f : Flags) (it : Item) (h : intersects it.events ONESHOT = true) :
    f &&& (disarm it).events &&& ~~~PRIVATE = 0#32 := by
  unfold disarm
  rw [if_pos h]
  apply BitVec.eq_of_getLsbD_eq
  intro i hi
  simp only [BitVec.getLsbD_and, BitVec.getLsbD_not, hi, BitVec.getLsbD_zero]
  cases f.getLsbD i <;> cases it.events.getLsbD i <;> cases PRIVATE.getLsbD i <;> rfl

theorem disarm_et (it : Item) : intersects (disarm it).events ET = intersects it.events ET := by
  unfold disarm
  split
  · exact (inter_private (by decide) rfl).symm
  · rfl

theorem harvest_L {c : Cfg} {k : Kern} (h : L c k) (n : Nat) : L c (harvest c k n).2 := by
  obtain ⟨pre, rest, h1, h2, h3, h4, h5⟩ := harvest_spec h n
  rw [h5]
  have hnd := h.nodup
  rw [h1, List.nodup_append] at hnd
  refine ⟨?_, ?_, ?_⟩
  · simp only
    rw [List.nodup_append]
    refine ⟨hnd.2.1, (hnd.1.filter _).filter _, ?_⟩
    intro a ha b hb hab
    subst hab
    exact hnd.2.2 a (List.mem_filter.1 (List.mem_filter.1 hb).1).1 a ha rfl
  · intro x hx
    simp only [List.mem_append, List.mem_filter] at hx
    have hs : (k.items x).isSome = true := by
      apply h.sub
      rw [h1, List.mem_append]
      rcases hx with hx | ⟨⟨hx, _⟩, _⟩
      · exact .inr hx
      · exact .inl hx
    simp only
    split
    · simpa using hs
    · exact hs
  · intro x it hi het hr
    have hr' : ready c k x &&& it.events &&& ~~~PRIVATE ≠ 0#32 := hr
    simp only at hi ⊢
    split at hi
    · next hm =>
      rw [Option.map_eq_some_iff] at hi
      obtain ⟨it0, hi0, rfl⟩ := hi
      by_cases ho : intersects it0.events ONESHOT = true
      · exact absurd (disarmed_quiet _ it0 ho) hr'
      · rw [disarm_et] at het
        rw [List.mem_append]
        right
        rw [List.mem_filter]
        refine ⟨hm, ?_⟩
        simp [lvl, hi0, ho, het]
    · next hm =>
      have hx := h.linked x it hi het hr'
      rw [h1, List.mem_append] at hx
      rw [List.mem_append]
      rcases hx with hx | hx
      · exact absurd (List.mem_filter.2 ⟨hx, by simp [hot, rev, hi]; exact hr'⟩) hm
      · exact .inl hx

theorem harvest_R {c : Cfg} {k : Kern} {tr : List (Obs EventExtra)} (hl : L c k) (h : R c k.items (current tr)) (n : Nat) :
    R c (harvest c k n).2.items
      (current (.deliver (((harvest c k n).1.filter fun e => !c.internal e.1).map fun e => (e.1, toEvent e.2)) :: tr)) := by
  obtain ⟨pre, rest, h1, h2, h3, h4, h5⟩ := harvest_spec hl n
  have hmem : ∀ x, c.internal x = false →
      (x ∈ (((harvest c k n).1.filter fun e => !c.internal e.1).map fun e => (e.1, toEvent e.2)).map Prod.fst ↔
        x ∈ pre.filter (hot (ready c k) k.items)) := by
    intro x hx
    rw [← mem_evs h2]
    simp only [List.map_map, List.mem_map, List.mem_filter, Function.comp]
    constructor
    · rintro ⟨e, ⟨he, _⟩, rfl⟩; exact ⟨e, he, rfl⟩
    · rintro ⟨e, he, rfl⟩; exact ⟨e, ⟨he, by simp [hx]⟩, rfl⟩
  refine ⟨?_, ?_, ?_, ?_⟩
  · intro x hx
    rw [h5]
    simp only [current, hmem x hx]
    have hu := h.user x hx
    split
    · rw [hu, Option.map_map, Option.map_map]
      cases hc : current tr x with
      | none => rfl
      | some cu => simp [disarm_itemOf cu (h.curOk x cu hc).2.2]
    · rw [hu]; simp
  · intro x cu hc
    simp only [current, Option.map_eq_some_iff] at hc
    obtain ⟨cu0, hc0, hcu⟩ := hc
    have := h.curOk x cu0 hc0
    split at hcu <;> (subst hcu; exact this)
  · rw [h5]
    simp only
    rcases h.notif with hn | hn <;> rw [hn]
    · split
      · exact .inr (by decide)
      · exact .inl rfl
    · split
      · exact .inr (by decide)
      · exact .inr rfl
  · intro ht
    rw [h5]
    simp only
    rcases h.timer ht with hn | hn | hn <;> rw [hn] <;> split
    · exact .inr (.inl (by decide))
    · exact .inl rfl
    · exact .inr (.inl (by decide))
    · exact .inr (.inl rfl)
    · exact .inr (.inl (by decide))
    · exact .inr (.inr rfl)

end Polling.EpollM
