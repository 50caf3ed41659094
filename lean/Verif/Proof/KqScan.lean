import Verif.Proof.KqNext

/-! The kernel part of the kqueue machine: changes, the queue of active knotes and its scan. -/

namespace Polling.KqM
open Kqueue KqSpec

/-- The active knote would be reported. -/
def hot (c : Cfg) (rdy : Filter → Option Bool) (kn : Filter → Option Knote) (f : Filter) : Bool :=
  (kn f).any fun n => (rdy f).isSome || (n.oneshot && !c.recheck)

/-- The event of a knote. -/
def eventOf (rdy : Filter → Option Bool) (kn : Filter → Option Knote) (f : Filter) : KEvent :=
  { filter := f
    flags := { oneshot := (kn f).any Knote.oneshot, clear := (kn f).any Knote.clear, eof := rdy f == some true }
    udata := ((kn f).map Knote.udata).getD 0#64 }

/-- Level-triggered. -/
def lvl (kn : Filter → Option Knote) (f : Filter) : Bool := (kn f).any fun n => !n.oneshot && !n.clear

/-- A knote after it has been reported once. -/
def reported (n : Option Knote) : Option Knote := n.filter fun n => !n.oneshot

theorem hot_congr {c rdy kn kn'} {f : Filter} (h : kn' f = kn f) :
    hot c rdy kn' f = hot c rdy kn f ∧ eventOf rdy kn' f = eventOf rdy kn f ∧ lvl kn' f = lvl kn f := by
  simp [hot, eventOf, lvl, h]

theorem scan_spec (c : Cfg) (rdy : Filter → Option Bool) (room : Nat) (l : List Filter) (kn : Filter → Option Knote) (hnd : l.Nodup) :
    ∃ pre, l = pre ++ (scan c rdy room l kn).rest ∧
      (scan c rdy room l kn).evs = (pre.filter (hot c rdy kn)).map (eventOf rdy kn) ∧
      (pre.filter (hot c rdy kn)).length ≤ room ∧
      ((scan c rdy room l kn).rest = [] ∨ (pre.filter (hot c rdy kn)).length = room) ∧
      (scan c rdy room l kn).back = (pre.filter (hot c rdy kn)).filter (lvl kn) ∧
      (scan c rdy room l kn).knotes =
        fun x => if x ∈ pre.filter (hot c rdy kn) then reported (kn x) else kn x := by
  induction l generalizing room kn with
  | nil => refine ⟨[], ?_⟩; cases room <;> simp [scan]
  | cons f l ih =>
    obtain ⟨hnin, hnd'⟩ := List.nodup_cons.1 hnd
    cases room with
    | zero => exact ⟨[], by simp [scan]⟩
    | succ room =>
      unfold scan
      cases hi : kn f with
      | none =>
        obtain ⟨pre, h1, h2, h3, h4, h5, h6⟩ := ih (room + 1) kn hnd'
        have hh : hot c rdy kn f = false := by simp [hot, hi]
        refine ⟨f :: pre, ?_⟩
        rw [List.filter_cons_of_neg (by simp [hh])]
        exact ⟨by rw [List.cons_append, ← h1], h2, h3, h4, h5, h6⟩
      | some n =>
        simp only
        cases hz : ((rdy f).isSome || (n.oneshot && !c.recheck)) with
        | false =>
          obtain ⟨pre, h1, h2, h3, h4, h5, h6⟩ := ih (room + 1) kn hnd'
          have hh : hot c rdy kn f = false := by simp only [hot, hi, Option.any_some]; exact hz
          refine ⟨f :: pre, ?_⟩
          rw [if_neg (by simp), List.filter_cons_of_neg (by simp [hh])]
          exact ⟨by rw [List.cons_append, ← h1], h2, h3, h4, h5, h6⟩
        | true =>
          have hh : hot c rdy kn f = true := by simp only [hot, hi, Option.any_some]; exact hz
          rw [if_pos rfl]
          generalize hit : (if n.oneshot = true then fun x => if x = f then none else kn x else kn) = kn'
          have hx : ∀ x, x ≠ f → kn' x = kn x := by
            intro x hx; rw [← hit]; split <;> simp [hx]
          have hf : kn' f = reported (some n) := by
            rw [← hit, reported]
            cases ho : n.oneshot <;> simp [hi, ho, Option.filter]
          obtain ⟨pre, h1, h2, h3, h4, h5, h6⟩ := ih room kn' hnd'
          have hpl : ∀ x ∈ pre, x ∈ l := by
            intro x hxp; rw [h1]; exact List.mem_append_left _ hxp
          have hne : ∀ x ∈ pre, x ≠ f := by
            intro x hxp he; subst he; exact hnin (hpl x hxp)
          have hfil : pre.filter (hot c rdy kn') = pre.filter (hot c rdy kn) :=
            List.filter_congr fun x hxp => (hot_congr (hx x (hne x hxp))).1
          have hnfil : f ∉ pre.filter (hot c rdy kn) := by
            intro hm; exact hnin (hpl _ (List.mem_filter.1 hm).1)
          refine ⟨f :: pre, ?_⟩
          rw [List.filter_cons_of_pos hh]
          rw [hfil] at h2 h3 h4 h5 h6
          refine ⟨by rw [List.cons_append, ← h1], ?_, by simp; omega, ?_, ?_, ?_⟩
          · simp only [List.map_cons]
            rw [h2]
            congr 1
            · simp [eventOf, hi]
            · apply List.map_congr_left
              intro x hxf
              exact (hot_congr (c := c) (hx x (hne x (List.mem_filter.1 hxf).1))).2.1
          · rcases h4 with h4 | h4
            · exact .inl h4
            · exact .inr (by simp [h4])
          · rw [List.filter_cons]
            have : (List.filter (lvl kn') (List.filter (hot c rdy kn) pre)) =
                (List.filter (lvl kn) (List.filter (hot c rdy kn) pre)) :=
              List.filter_congr fun x hxf => (hot_congr (c := c) (rdy := rdy) (hx x (hne x (List.mem_filter.1 hxf).1))).2.2
            rw [h5, this]
            have hl : lvl kn f = (!n.oneshot && !n.clear) := by simp [lvl, hi]
            rw [hl]
          · rw [h6]
            funext x
            by_cases hxe : x = f
            · subst hxe
              rw [if_neg hnfil, if_pos (by simp), hf, hi]
            · by_cases hm : x ∈ pre.filter (hot c rdy kn)
              · rw [if_pos hm, if_pos (by simp [hm]), hx x hxe]
              · rw [if_neg hm, if_neg (by simp only [List.mem_cons, not_or]; exact ⟨hxe, hm⟩), hx x hxe]

/-! `activate` -/

theorem activate_eq (k : Kern) (f : Filter) : activate k f = { k with queue := (activate k f).queue } := by
  unfold activate; split <;> rfl

theorem activate_knotes (k : Kern) (f : Filter) : (activate k f).knotes = k.knotes := by rw [activate_eq]
theorem activate_cond (k : Kern) (f : Filter) : (activate k f).cond = k.cond := by rw [activate_eq]
theorem activate_chan (k : Kern) (f : Filter) : (activate k f).chan = k.chan := by rw [activate_eq]

theorem activate_mem (k : Kern) (f x : Filter) : x ∈ (activate k f).queue ↔ x ∈ k.queue ∨ (x = f ∧ (k.knotes f).isSome = true) := by
  unfold activate
  split
  · next h => simp [h.1]
  · next h =>
    constructor
    · exact .inl
    · rintro (hx | ⟨rfl, hs⟩)
      · exact hx
      · exact Classical.byContradiction fun hc => h ⟨hs, hc⟩

theorem activate_nodup {k : Kern} (f : Filter) (h : k.queue.Nodup) : (activate k f).queue.Nodup := by
  unfold activate
  split
  · next hc =>
    rw [List.nodup_append]
    refine ⟨h, by simp, ?_⟩
    intro a ha b hb
    simp only [List.mem_singleton] at hb
    rintro rfl
    exact hc.2 (hb ▸ ha)
  · exact h

theorem activate_prefix (k : Kern) (f : Filter) : k.queue <+: (activate k f).queue := by
  unfold activate
  split
  · exact List.prefix_append _ _
  · exact List.prefix_refl _

theorem ready_congr {c : Cfg} {k k' : Kern} (h1 : k'.cond = k.cond) (h2 : k'.chan = k.chan) : ready c k' = ready c k := by
  funext f; unfold ready; rw [h1, h2]

/-! `register` -/

/-- One constructor per outcome of a change. -/
inductive Reg (c : Cfg) (fault : Option Nat) (k : Kern) (ev : KEvent) : Nat → Kern → Prop where
  | fault {e} : fault = some e → Reg c fault k ev e k
  | add : fault = none → ev.flags.add = true → fires c k ev = true →
      Reg c fault k ev 0 (activate (setKnote k ev.filter (some (added c (k.knotes ev.filter) ev))) ev.filter)
  | addIdle : fault = none → ev.flags.add = true → fires c k ev = false →
      Reg c fault k ev 0 (setKnote k ev.filter (some (added c (k.knotes ev.filter) ev)))
  | missing : fault = none → ev.flags.add = false → ev.flags.delete = true → k.knotes ev.filter = none →
      Reg c fault k ev ENOENT k
  | delete : fault = none → ev.flags.add = false → ev.flags.delete = true → (k.knotes ev.filter).isSome = true →
      Reg c fault k ev 0 { setKnote k ev.filter none with queue := k.queue.filter (· ≠ ev.filter) }
  | nothing : fault = none → ev.flags.add = false → ev.flags.delete = false → Reg c fault k ev 0 k

theorem register_reg {c fault k ev errno k'} (h : register c fault k ev = (errno, k')) : Reg c fault k ev errno k' := by
  unfold register at h
  cases fault with
  | some e => injection h with h1 h2; subst h1 h2; exact .fault rfl
  | none =>
    simp only at h
    cases ha : ev.flags.add with
    | true =>
      simp only [ha, if_true] at h
      have he : fires c (setKnote k ev.filter (some (added c (k.knotes ev.filter) ev))) ev = fires c k ev := rfl
      cases hf : fires c k ev with
      | true =>
        rw [he, hf] at h
        injection h with h1 h2; subst h1 h2
        exact .add rfl ha hf
      | false =>
        rw [he, hf] at h
        injection h with h1 h2; subst h1 h2
        exact .addIdle rfl ha hf
    | false =>
      simp only [ha, Bool.false_eq_true, if_false] at h
      cases hd : ev.flags.delete with
      | false =>
        simp only [hd, Bool.false_eq_true, if_false] at h
        injection h with h1 h2; subst h1 h2; exact .nothing rfl ha hd
      | true =>
        simp only [hd, if_true] at h
        cases hk : k.knotes ev.filter with
        | none => rw [hk] at h; injection h with h1 h2; subst h1 h2; exact .missing rfl ha hd hk
        | some n => rw [hk] at h; injection h with h1 h2; subst h1 h2; exact .delete rfl ha hd (by rw [hk]; rfl)

/-- What users and the channel do is not touched. -/
theorem reg_env {c fault k ev errno k'} (h : Reg c fault k ev errno k') : k'.cond = k.cond ∧ k'.chan = k.chan := by
  cases h <;> first | exact ⟨rfl, rfl⟩ | (rw [activate_eq]; exact ⟨rfl, rfl⟩)

/-- Only the knote of the filter is touched. -/
theorem reg_other {c fault k ev errno k'} (h : Reg c fault k ev errno k') {f : Filter} (hf : f ≠ ev.filter) :
    k'.knotes f = k.knotes f ∧ (f ∈ k'.queue ↔ f ∈ k.queue) := by
  cases h with
  | fault => exact ⟨rfl, Iff.rfl⟩
  | add => rw [activate_knotes, activate_mem]; simp [setKnote, hf]
  | addIdle => simp [setKnote, hf]
  | missing => exact ⟨rfl, Iff.rfl⟩
  | delete => simp [setKnote, hf]
  | nothing => exact ⟨rfl, Iff.rfl⟩

/-! The consistency of the kernel's tables. -/

def isUser : Filter → Bool
  | .user _ => true
  | _ => false

structure KI (c : Cfg) (k : Kern) : Prop where
  nodup : k.queue.Nodup
  known : ∀ f, f ∈ k.queue → (k.knotes f).isSome = true
  live : ∀ f n, k.knotes f = some n → n.clear = false → isUser f = false → (ready c k f).isSome = true → f ∈ k.queue

theorem fires_eq {c : Cfg} {k : Kern} {ev : KEvent} (h : isUser ev.filter = false) : fires c k ev = (ready c k ev.filter).isSome := by
  unfold fires
  split
  · next h' => rw [h'] at h; cases h
  · rfl

theorem ki_env {c : Cfg} {k k' : Kern} (h : KI c k) (h1 : k'.knotes = k.knotes) (h2 : k'.queue = k.queue)
    (h3 : ∀ f, (ready c k' f).isSome = true → (ready c k f).isSome = true) : KI c k' := by
  refine ⟨h2 ▸ h.nodup, ?_, ?_⟩
  · rw [h1, h2]; exact h.known
  · rw [h1, h2]; exact fun f n hn hc hu hr => h.live f n hn hc hu (h3 f hr)

/-- A knote is activated and conditions change for no other. -/
theorem ki_activate {c : Cfg} {k k' : Kern} {f : Filter} (h : KI c k) (h1 : k'.knotes = k.knotes) (h2 : k'.queue = k.queue)
    (h3 : ∀ x, x ≠ f → (ready c k' x).isSome = true → (ready c k x).isSome = true) : KI c (activate k' f) := by
  refine ⟨activate_nodup _ (h2 ▸ h.nodup), ?_, ?_⟩
  · intro x hx
    rw [activate_mem] at hx
    rw [activate_knotes, h1]
    rcases hx with hx | ⟨rfl, hx⟩
    · exact h.known x (h2 ▸ hx)
    · rw [← h1]; exact hx
  · intro x n hn hc hu hr
    rw [activate_knotes, h1] at hn
    rw [ready_congr (activate_cond k' f) (activate_chan k' f)] at hr
    rw [activate_mem, h2]
    by_cases hx : x = f
    · right; subst hx; exact ⟨rfl, by rw [h1, hn]; rfl⟩
    · exact .inl (h.live x n hn hc hu (h3 x hx hr))

theorem ki_reg {c fault k ev errno k'} (h : KI c k) (hr : Reg c fault k ev errno k') : KI c k' := by
  have hrdy : ready c k' = ready c k := ready_congr (reg_env hr).1 (reg_env hr).2
  have hother := fun f hf => @reg_other c fault k ev errno k' hr f hf
  cases hr with
  | fault => exact h
  | add hfl ha hf =>
    refine ⟨activate_nodup _ h.nodup, ?_, ?_⟩
    · intro x hx
      by_cases hxe : x = ev.filter
      · subst hxe; rw [activate_knotes]; simp [setKnote]
      · obtain ⟨h1, h2⟩ := hother x hxe
        rw [h1]; exact h.known x (h2.1 hx)
    · intro x n hn hc hu hr
      by_cases hxe : x = ev.filter
      · subst hxe; rw [activate_mem]; right; simp [setKnote]
      · obtain ⟨h1, h2⟩ := hother x hxe
        rw [hrdy] at hr; rw [h1] at hn
        exact h2.2 (h.live x n hn hc hu hr)
  | addIdle hfl ha hf =>
    refine ⟨h.nodup, ?_, ?_⟩
    · intro x hx
      by_cases hxe : x = ev.filter
      · subst hxe; simp [setKnote]
      · obtain ⟨h1, h2⟩ := hother x hxe
        rw [h1]; exact h.known x (h2.1 hx)
    · intro x n hn hc hu hr
      by_cases hxe : x = ev.filter
      · subst hxe; rw [fires_eq hu] at hf; rw [hrdy, hf] at hr; cases hr
      · obtain ⟨h1, h2⟩ := hother x hxe
        rw [hrdy] at hr; rw [h1] at hn
        exact h2.2 (h.live x n hn hc hu hr)
  | missing => exact h
  | delete hfl ha hd hs =>
    refine ⟨h.nodup.filter _, ?_, ?_⟩
    · intro x hx
      have hxe : x ≠ ev.filter := by simp only [List.mem_filter, decide_eq_true_eq] at hx; exact hx.2
      obtain ⟨h1, h2⟩ := hother x hxe
      rw [h1]; exact h.known x (h2.1 hx)
    · intro x n hn hc hu hr
      by_cases hxe : x = ev.filter
      · subst hxe; simp [setKnote] at hn
      · obtain ⟨h1, h2⟩ := hother x hxe
        rw [hrdy] at hr; rw [h1] at hn
        exact h2.2 (h.live x n hn hc hu hr)
  | nothing => exact h

/-! `harvest` -/

/-- What one `kevent` takes and leaves. -/
structure Batch (c : Cfg) (k : Kern) (cap : Nat) (evs : List KEvent) (k' : Kern) (took : List Filter) : Prop where
  evs : evs = took.map (eventOf (ready c k) k.knotes)
  nodup : took.Nodup
  queued : ∀ f ∈ took, f ∈ k.queue ∧ hot c (ready c k) k.knotes f = true
  room : took.length ≤ cap
  complete : took.length < cap → ∀ f ∈ k.queue, hot c (ready c k) k.knotes f = true → f ∈ took
  knotes : k'.knotes = fun x => if x ∈ took then reported (k.knotes x) else k.knotes x
  queue : ∀ f, f ∈ k'.queue → f ∈ k.queue ∧ (f ∈ took → lvl k.knotes f = true)
  stays : ∀ f ∈ k.queue, hot c (ready c k) k.knotes f = true → f ∉ took ∨ lvl k.knotes f = true → f ∈ k'.queue
  qnodup : k'.queue.Nodup
  env : k'.cond = k.cond ∧ k'.chan = k.chan

theorem harvest_batch {c : Cfg} {k k' : Kern} {cap : Nat} {evs : List KEvent} (hnd : k.queue.Nodup)
    (h : harvest c k cap = (evs, k')) : ∃ pre rest, k.queue = pre ++ rest ∧
      k'.queue = rest ++ (pre.filter (hot c (ready c k) k.knotes)).filter (lvl k.knotes) ∧
      (rest = [] ∨ (pre.filter (hot c (ready c k) k.knotes)).length = cap) ∧
      Batch c k cap evs k' (pre.filter (hot c (ready c k) k.knotes)) := by
  obtain ⟨pre, h1, h2, h3, h4, h5, h6⟩ := scan_spec c (ready c k) cap k.queue k.knotes hnd
  unfold harvest at h
  injection h with ha hb
  subst ha hb
  refine ⟨pre, _, h1, by simp only; rw [h5], h4, ?_⟩
  have hndp : pre.Nodup := by rw [h1] at hnd; exact (List.nodup_append.1 hnd).1
  generalize hr : (scan c (ready c k) cap k.queue k.knotes).rest = rest at h1 h4
  have hsub : ∀ f ∈ pre.filter (hot c (ready c k) k.knotes), f ∈ k.queue := by
    intro f hf; rw [h1]; exact List.mem_append_left _ (List.mem_filter.1 hf).1
  refine ⟨h2, hndp.filter _, fun f hf => ⟨hsub f hf, (List.mem_filter.1 hf).2⟩, h3, ?_, h6, ?_, ?_, ?_, ⟨rfl, rfl⟩⟩
  · intro hlt f hf hh
    rcases h4 with h4 | h4
    · subst h4; rw [List.append_nil] at h1; rw [h1] at hf; exact List.mem_filter.2 ⟨hf, hh⟩
    · omega
  · intro f hf
    simp only [h5, List.mem_append] at hf
    rcases hf with hf | hf
    · refine ⟨by rw [h1]; exact List.mem_append_right _ hf, fun hm => ?_⟩
      rw [h1] at hnd
      exact absurd rfl ((List.nodup_append.1 hnd).2.2 f (List.mem_filter.1 hm).1 f hf)
    · exact ⟨hsub f (List.mem_filter.1 hf).1, fun _ => (List.mem_filter.1 hf).2⟩
  · intro f hf hh hor
    simp only [h5, List.mem_append]
    by_cases hm : f ∈ pre.filter (hot c (ready c k) k.knotes)
    · rcases hor with hor | hor
      · exact absurd hm hor
      · exact .inr (List.mem_filter.2 ⟨hm, hor⟩)
    · left
      rw [h1] at hf
      rcases List.mem_append.1 hf with hf | hf
      · exact absurd (List.mem_filter.2 ⟨hf, hh⟩) hm
      · exact hf
  · simp only [h5]
    rw [h1] at hnd
    have hn := List.nodup_append.1 hnd
    rw [List.nodup_append]
    refine ⟨hn.2.1, (hn.1.filter _).filter _, ?_⟩
    intro a ha b hb hab
    exact hn.2.2 b (List.mem_filter.1 (List.mem_filter.1 hb).1).1 a ha hab.symm

theorem ki_batch {c : Cfg} {k k' : Kern} {cap : Nat} {evs : List KEvent} {took : List Filter} (hk : KI c k)
    (h : Batch c k cap evs k' took) : KI c k' := by
  have hrdy : ready c k' = ready c k := ready_congr h.env.1 h.env.2
  refine ⟨h.qnodup, ?_, ?_⟩
  · intro f hf
    obtain ⟨h1, h2⟩ := h.queue f hf
    rw [h.knotes]
    simp only
    split
    · next hm =>
      have := h2 hm
      unfold lvl at this
      cases hn : k.knotes f with
      | none => rw [hn] at this; simp at this
      | some n => rw [hn] at this; simp at this; simp [reported, Option.filter, this.1]
    · exact hk.known f h1
  · intro f n hn hc hu hr
    rw [hrdy] at hr
    rw [h.knotes] at hn
    simp only at hn
    split at hn
    · next hm =>
      cases hk' : k.knotes f with
      | none => rw [hk'] at hn; cases hn
      | some m =>
        rw [hk'] at hn
        simp only [reported, Option.filter] at hn
        split at hn
        · next ho =>
          injection hn with hn; subst hn
          simp only [Bool.not_eq_true'] at ho
          exact h.stays f (h.queued f hm).1 (h.queued f hm).2 (.inr (by simp [lvl, hk', ho, hc]))
        · cases hn
    · next hm =>
      have hq := hk.live f n hn hc hu hr
      exact h.stays f hq (by simp [hot, hn, hr]) (.inl hm)

end Polling.KqM
