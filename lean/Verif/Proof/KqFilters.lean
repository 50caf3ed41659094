import Verif.Model.KqFilters
import Verif.Proof.KqDeliver

/-! Invariants of the process and timer filters on kqueue. -/

namespace Polling.KqFilters
open Kqueue KqSpec KqFilterSpec
open KqM (Kern Knote KI PcOk Next Reg Batch)

/-- The filter of an extension call. -/
def extOf : Call → Option Ext
  | .addFilter y _ _ | .modifyFilter y _ _ | .deleteFilter y => some y
  | _ => none

theorem special_internal (c : KqM.Cfg) {f : Filter} (h : special f = true) : c.internal f = false := by
  unfold KqM.Cfg.internal
  cases f <;> first | (cases h; done) | (split <;> rfl)

theorem special_ready (c : KqM.Cfg) (k : Kern) {f : Filter} (h : special f = true) : KqM.ready c k f = k.cond f := by
  unfold KqM.ready
  cases f <;> first | (cases h; done) | (split <;> simp)

theorem special_user {f : Filter} (h : special f = true) : KqM.isUser f = false := by
  cases f <;> first | (cases h; done) | rfl

theorem ext_filter (x : Ask) : KqM.Ext.filter (ext x) = x.target := by cases x <;> rfl

theorem extOf_callOf (kind : Kind) (x : Ask) (key : Key) (mode : PollMode) : extOf (callOf kind x key mode) = some (ext x) := by
  cases kind <;> rfl

theorem extOf_not {call : Call} (h : isExt call = false) : extOf call = none := by
  cases call <;> first | rfl | cases h

/-- Changes of filters with contents belong to calls of the extension. -/
theorem special_change {c : KqM.Cfg} {w ev todo done} (h : PcOk c (.submit w (ev :: todo) done)) (hs : special ev.filter = true) :
    ∃ call y, w = .call call ∧ extOf call = some y ∧ ev.filter = KqM.Ext.filter y ∧ (ev.flags.add = true ∨ ev.flags.delete = true) := by
  obtain ⟨hw, pre, errs, he, _, _⟩ := h
  have hm : ev ∈ KqM.changesOf c w := by rw [he]; simp
  cases w with
  | notify =>
    simp only [KqM.changesOf, List.mem_singleton] at hm
    subst hm; cases hs
  | rearm timed cap evs =>
    simp only [KqM.changesOf, KqM.fdChanges, List.mem_cons, List.mem_nil_iff, or_false] at hm
    rcases hm with rfl | rfl <;> cases hs
  | call call =>
    have hf := (KqM.changes_filter hw hm).2.2.2
    refine ⟨call, ?_⟩
    cases call with
    | add fd e mode =>
      simp only [KqM.changesOf, KqM.changes, KqM.fdChanges, List.mem_cons, List.mem_nil_iff, or_false] at hm
      rcases hm with rfl | rfl <;> cases hs
    | modify fd e mode =>
      simp only [KqM.changesOf, KqM.changes, KqM.fdChanges, List.mem_cons, List.mem_nil_iff, or_false] at hm
      rcases hm with rfl | rfl <;> cases hs
    | delete fd =>
      simp only [KqM.changesOf, KqM.changes, KqM.fdChanges, List.mem_cons, List.mem_nil_iff, or_false] at hm
      rcases hm with rfl | rfl <;> cases hs
    | addFilter y key mode =>
      simp only [KqM.changesOf, KqM.changes, List.mem_singleton] at hm
      exact ⟨y, rfl, rfl, by rw [hm], hf⟩
    | modifyFilter y key mode =>
      simp only [KqM.changesOf, KqM.changes, List.mem_singleton] at hm
      exact ⟨y, rfl, rfl, by rw [hm], hf⟩
    | deleteFilter y =>
      simp only [KqM.changesOf, KqM.changes, List.mem_singleton] at hm
      exact ⟨y, rfl, rfl, by rw [hm], hf⟩

/-- The position belongs to the call, up to its changes. -/
def At : KqM.Pc → Call → Prop
  | .insert call, x | .has call, x => call = x
  | .submit (.call call) _ _, x => call = x
  | _, _ => False

theorem first_at (call call' : Call) (h : At (KqM.first call) call') : call' = call := by
  cases call <;> exact h.symm

/-- Positions of calls are entered only from earlier ones of the same call. -/
theorem next_at {c m t a m' o} (hn : Next c m t a m' o) {u : Tid} {call : Call} (h : At (m'.pc u) call) :
    At (m.pc u) call ∨ (u = t ∧ a = .call call) := by
  by_cases hu : u = t
  · subst hu
    cases hn with
    | reject hp => rw [hp] at h; exact h.elim
    | panic0 hp => rw [hp] at h; exact h.elim
    | begin hp =>
      dsimp only at h; rw [KqM.upd_self] at h
      rw [first_at _ _ h]; exact .inr ⟨rfl, rfl⟩
    | inserted hp => dsimp only at h; rw [KqM.upd_self] at h; rw [hp]; exact .inl h
    | has hp => dsimp only at h; rw [KqM.upd_self] at h; rw [hp]; exact .inl h
    | @change fault w ev todo done errno k hp hf0 hr =>
      dsimp only at h; rw [KqM.upd_self] at h; rw [hp]; left
      revert h; cases w <;> exact id
    | kevRetry => exact .inl h
    | casSeen => exact .inl h
    | waitBusy => exact .inl h
    | kevent hp =>
      dsimp only at h; rw [KqM.upd_self] at h
      split at h <;> exact h.elim
    | read => exact .inl h
    | raise => exact .inl h
    | fall => exact .inl h
    | _ => dsimp only at h; rw [KqM.upd_self] at h; exact h.elim
  · left
    have : m'.pc u = m.pc u := by
      cases hn <;> first | rfl | exact KqM.upd_other _ hu
    rw [this] at h; exact h

theorem ki_forget {c : KqM.Cfg} {m : KqM.S} {f : Filter} (hf : special f = true) (h : KI c m.k) : KI c (forget m f).k := by
  refine ⟨?_, ?_, ?_⟩
  · exact h.nodup.filter _
  · intro x hx
    exact h.known x (List.mem_filter.1 hx).1
  · intro x n hn hc hu hr
    have hne : x ≠ f := by
      intro e; subst e
      rw [special_ready c _ hf] at hr
      simp [forget, put] at hr
    have hr' : (KqM.ready c m.k x).isSome = true := by
      unfold KqM.ready at hr ⊢
      simp only [forget, put, if_neg hne] at hr
      exact hr
    exact List.mem_filter.2 ⟨h.live x n hn hc hu hr', by simpa using hne⟩

theorem forget_pc (m : KqM.S) (f : Filter) : (forget m f).pc = m.pc := rfl

theorem fresh_pc (c : Cfg) (m : KqM.S) (f : Filter) : (fresh c m f).pc = m.pc := by
  unfold fresh
  split
  · rfl
  · split
    · split <;> rfl
    · rfl

theorem ki_fresh {c : Cfg} {m : KqM.S} {f : Filter} (hf : special f = true) (h : KI c.k m.k) : KI c.k (fresh c m f).k := by
  unfold fresh
  split
  · exact ki_forget hf h
  · split
    · split
      · exact ki_forget hf h
      · exact h
    · exact h

theorem fresh_other (c : Cfg) (m : KqM.S) {f g : Filter} (h : g ≠ f) : (fresh c m f).k.knotes = m.k.knotes ∧
    (fresh c m f).k.cond g = m.k.cond g ∧ (g ∈ (fresh c m f).k.queue ↔ g ∈ m.k.queue) := by
  have hfo : (forget m f).k.knotes = m.k.knotes ∧ (forget m f).k.cond g = m.k.cond g ∧
      (g ∈ (forget m f).k.queue ↔ g ∈ m.k.queue) := by
    refine ⟨rfl, by simp [forget, put, h], by simp [forget, List.mem_filter, h]⟩
  unfold fresh
  split
  · exact hfo
  · split
    · split
      · exact hfo
      · exact ⟨rfl, rfl, Iff.rfl⟩
    · exact ⟨rfl, rfl, Iff.rfl⟩

theorem fresh_knotes (c : Cfg) (m : KqM.S) (f : Filter) : (fresh c m f).k.knotes = m.k.knotes := by
  unfold fresh
  split
  · rfl
  · split
    · split <;> rfl
    · rfl

theorem forget_self (m : KqM.S) (f : Filter) : (forget m f).k.cond f = none ∧ f ∉ (forget m f).k.queue := by
  simp [forget, put, List.mem_filter]

theorem fresh_none {c : Cfg} {m : KqM.S} {f : Filter} (h : m.k.knotes f = none) :
    (fresh c m f).k.cond f = none ∧ f ∉ (fresh c m f).k.queue := by
  unfold fresh
  rw [h]; exact forget_self m f

theorem fresh_proc {c : Cfg} {m : KqM.S} {p : Nat} (h : (m.k.knotes (.proc p)).isSome = true) : fresh c m (.proc p) = m := by
  unfold fresh
  split
  · next h' => rw [Option.isNone_iff_eq_none] at h'; rw [h'] at h; cases h
  · rfl

theorem fresh_timer {c : Cfg} {m : KqM.S} {i : Nat} (h : c.resets = true) :
    (fresh c m (.timer i)).k.cond (.timer i) = none ∧ .timer i ∉ (fresh c m (.timer i)).k.queue := by
  unfold fresh
  split
  · exact forget_self m _
  · exact forget_self m _

theorem ki_reset {c : KqM.Cfg} {m : KqM.S} (evs : List KEvent) (h : KI c m.k) : KI c (reset m evs).k := by
  refine KqM.ki_env h rfl rfl fun f hr => ?_
  by_cases hs : special f = true
  · rw [special_ready c _ hs] at hr ⊢
    simp only [reset] at hr
    split at hr
    · cases hr
    · exact hr
  · unfold KqM.ready at hr ⊢
    simp only [reset, Bool.not_eq_true] at hr hs
    simp only [hs, Bool.false_and, Bool.false_eq_true, if_false] at hr
    exact hr

/-- What holds of one filter with contents: knote, condition, whether active, contents, start of the period, clock, trace. -/
structure FI (c : Cfg) (f : Filter) (kn : Option Knote) (cd : Option Bool) (q : Prop) (nt : Note) (si now : Nat)
    (tr : List PObs) : Prop where
  known : kn.isSome = (asks tr f).isSome
  told : ∀ x, asks tr f = some x → nt = note x ∧ x.target = f
  time : si ≤ now
  timer : ∀ i d, asks tr f = some (.timer i d) → si + elapsed tr f = now + expiries tr f * d
  proc : ∀ p, f = .proc p → kn.isSome = true → cd.isSome = true ∨ q → earned tr p = true
  clear : c.k.autoClear f = true → ∀ n, kn = some n → n.clear = true
  shot : ∀ i, f = .timer i → c.resets = true → c.k.autoClear f = true → kn.isSome = true →
    shots tr f ≤ expiries tr f ∧ (cd.isSome = true ∨ q → shots tr f < expiries tr f)

/-- The observation says nothing about the filter. -/
structure Quiet (o : KObs) (f : Filter) : Prop where
  disarmed : ∀ u, o ≠ .disarmed u f
  deliver : ∀ u evs, o ≠ .deliver u evs

theorem quiet_asks {o f} (h : Quiet o f) (tr : List PObs) : asks (.k o :: tr) f = asks tr f := by
  cases o with
  | disarmed u g =>
    simp only [asks]
    split
    · next e => subst e; exact absurd rfl (h.disarmed u)
    · rfl
  | deliver u evs => exact absurd rfl (h.deliver u evs)
  | _ => rfl

theorem quiet_shots {o f} (h : Quiet o f) (tr : List PObs) : shots (.k o :: tr) f = shots tr f := by
  cases o with
  | deliver u evs => exact absurd rfl (h.deliver u evs)
  | _ => rfl

theorem quiet_owed {o p} (h : Quiet o (.proc p)) (tr : List PObs) : earned (.k o :: tr) p = earned tr p := by
  cases o with
  | deliver u evs => exact absurd rfl (h.deliver u evs)
  | _ => rfl

theorem FI.quiet {c f kn cd q nt si now tr o} (h : FI c f kn cd q nt si now tr) (ho : Quiet o f) :
    FI c f kn cd q nt si now (.k o :: tr) := by
  have e1 := quiet_asks ho tr
  have e2 := quiet_shots ho tr
  have e3 : elapsed (.k o :: tr) f = elapsed tr f := rfl
  have e4 : expiries (.k o :: tr) f = expiries tr f := rfl
  refine ⟨by rw [e1]; exact h.known, by rw [e1]; exact h.told, h.time, by rw [e1]; exact h.timer, ?_, h.clear, ?_⟩
  · intro p hp; subst hp; rw [quiet_owed ho]; exact h.proc p rfl
  · intro i hi; rw [e2]; exact h.shot i hi

/-- Fewer conditions, not active more. -/
theorem FI.less {c f kn cd q nt si now tr cd'} {q' : Prop} (h : FI c f kn cd q nt si now tr)
    (h1 : cd'.isSome = true → cd.isSome = true ∨ q) (h2 : q' → cd.isSome = true ∨ q) : FI c f kn cd' q' nt si now tr :=
  ⟨h.known, h.told, h.time, h.timer, fun p hp hk hc => h.proc p hp hk (hc.elim h1 h2), h.clear,
    fun i hi hr ha hk => ⟨(h.shot i hi hr ha hk).1, fun hc => (h.shot i hi hr ha hk).2 (hc.elim h1 h2)⟩⟩

/-- The effect of a step of the poller on a filter with contents. -/
inductive Eff (c : KqM.Cfg) (f : Filter) (m : KqM.S) (t : Tid) : KqM.Act → KqM.S → KObs → Prop where
  | same {a m' o} : m'.k.knotes f = m.k.knotes f → m'.k.cond f = m.k.cond f → (f ∈ m'.k.queue → f ∈ m.k.queue) → Quiet o f →
      a ≠ .kevent → Eff c f m t a m' o
  | gone {a m' u} : m'.k.knotes f = none → Eff c f m t a m' (.disarmed u f)
  | add {w ev todo done errno m'} : m.pc t = .submit w (ev :: todo) done → ev.filter = f → ev.flags.add = true →
      KqM.register c none m.k ev = (errno, m'.k) → Eff c f m t (.change none) m' (KqM.changeObs t ev errno)
  | take {cap all took m'} : Batch c m.k cap all m'.k took →
      Eff c f m t .kevent m' (.deliver t (all.filter fun e => !c.internal e.filter))
  | cond {v m' o} : Eff c f m t (.cond f v) m' o

theorem eff {c m t a m' o f} (hn : Next c m t a m' o) (hki : KI c m.k) (hp : ∀ u, PcOk c (m.pc u)) (hf : special f = true) :
    Eff c f m t a m' o := by
  cases hn with
  | @change fault w ev todo done errno k hpc hf0 hr =>
    have hreg := KqM.register_reg hr
    have hpt := hp t
    rw [hpc] at hpt
    by_cases hef : ev.filter = f
    · subst hef
      obtain ⟨call, y, _, _, _, hfl⟩ := special_change hpt hf
      cases hreg with
      | fault he =>
        subst he
        have hne : errno ≠ 0 := fun e => hf0 (by rw [e])
        refine .same rfl rfl id ?_ nofun
        unfold KqM.changeObs; rw [if_pos hne]; exact ⟨nofun, nofun⟩
      | add he ha hfi => subst he; exact .add hpc rfl ha hr
      | addIdle he ha hfi => subst he; exact .add hpc rfl ha hr
      | missing he ha hd hk =>
        refine .same rfl rfl id ?_ nofun
        unfold KqM.changeObs; rw [if_pos (by decide)]; exact ⟨nofun, nofun⟩
      | delete he ha hd hk =>
        have : KqM.changeObs t ev 0 = .disarmed t ev.filter := by simp [KqM.changeObs, ha]
        rw [this]
        exact .gone (by simp [KqM.setKnote])
      | nothing he ha hd => rw [ha, hd] at hfl; rcases hfl with h | h <;> cases h
    · have ho := KqM.reg_other hreg (f := f) (fun e => hef e.symm)
      refine .same ho.1 (by rw [show ({ m with k := k, pc := _ } : KqM.S).k = k from rfl, (KqM.reg_env hreg).1]) ho.2.1 ?_ nofun
      unfold KqM.changeObs
      split
      · exact ⟨nofun, nofun⟩
      · split
        · exact ⟨nofun, nofun⟩
        · exact ⟨fun u e => (by injection e with _ e; exact hef e), nofun⟩
  | kevent hpc hh hc =>
    obtain ⟨pre, rest, _, _, _, hb⟩ := KqM.harvest_batch hki.nodup hh
    exact .take hb
  | write hpc =>
    refine .same (by dsimp only; rw [KqM.activate_knotes]) (by dsimp only; rw [KqM.activate_cond]) ?_ ⟨nofun, nofun⟩ nofun
    intro h
    rw [KqM.activate_mem] at h
    rcases h with h | ⟨e, _⟩
    · exact h
    · subst e; cases hf
  | @raise g v hi =>
    by_cases hg : g = f
    · subst hg; exact .cond
    · refine .same (by dsimp only; rw [KqM.activate_knotes]) (by dsimp only; rw [KqM.activate_cond]; simp [Ne.symm hg]) ?_ ⟨nofun, nofun⟩ nofun
      intro h
      rw [KqM.activate_mem] at h
      rcases h with h | ⟨e, _⟩
      · exact h
      · exact absurd e.symm hg
  | @fall g hi =>
    by_cases hg : g = f
    · subst hg; exact .cond
    · exact .same rfl (by simp [Ne.symm hg]) id ⟨nofun, nofun⟩ nofun
  | finCall h => cases h <;> exact .same rfl rfl id ⟨nofun, nofun⟩ nofun
  | finDelete h => generalize hr : Res.ok = r at h; cases h <;> exact .same rfl rfl id ⟨nofun, nofun⟩ nofun
  | finNotify h => cases h <;> exact .same rfl rfl id ⟨nofun, nofun⟩ nofun
  | finRearm h => generalize hr : Res.ok = r at h; cases h <;> exact .same rfl rfl id ⟨nofun, nofun⟩ nofun
  | rearmRetry h => generalize hr : Res.err .interrupted = r at h; cases h <;> exact .same rfl rfl id ⟨nofun, nofun⟩ nofun
  | rearmErr h => generalize hr : Res.err _ = r at h; cases h <;> exact .same rfl rfl id ⟨nofun, nofun⟩ nofun
  | _ => exact .same rfl rfl id ⟨nofun, nofun⟩ nofun

/-- The invariant. -/
structure Inv (c : Cfg) (s : S) (tr : List PObs) : Prop where
  ki : KI c.k s.m.k
  pcs : ∀ u, PcOk c.k (s.m.pc u)
  arg : ∀ u call y, At (s.m.pc u) call → extOf call = some y → ∃ x, s.arg u = some x ∧ ext x = y
  fi : ∀ f, special f = true → FI c f (s.m.k.knotes f) (s.m.k.cond f) (f ∈ s.m.k.queue) (s.note f) (s.since f) s.now tr

/-- The parts of the invariant that do not depend on the trace, after a step of the poller. -/
theorem arg_next {c : Cfg} {m m' : KqM.S} {t a o} {arg : Tid → Option Ask} (hn : Next c.k m t a m' o)
    (h : ∀ u call y, At (m.pc u) call → extOf call = some y → ∃ x, arg u = some x ∧ ext x = y)
    (ha : ∀ call, a = .call call → isExt call = false) :
    ∀ u call y, At (m'.pc u) call → extOf call = some y → ∃ x, arg u = some x ∧ ext x = y := by
  intro u call y hat hy
  rcases next_at hn hat with h1 | ⟨_, h1⟩
  · exact h u call y h1 hy
  · rw [extOf_not (ha call h1)] at hy; cases hy

/-- The filter is no longer watched. -/
theorem FI.gone {c f kn cd q nt si now tr u cd'} {q' : Prop} (h : FI c f kn cd q nt si now tr) :
    FI c f none cd' q' nt si now (.k (.disarmed u f) :: tr) := by
  have e : asks (.k (.disarmed u f) :: tr) f = none := by simp [asks]
  refine ⟨by rw [e]; rfl, (by rw [e]; nofun), h.time, (by rw [e]; nofun), nofun, nofun, nofun⟩

theorem has_false {evs : List KEvent} {f : Filter} (h : ∀ e ∈ evs, e.filter ≠ f) (p : KEvent → Bool) : has evs f p = false := by
  unfold has
  rw [List.any_eq_false]
  intro e he hc
  simp only [Bool.and_eq_true, beq_iff_eq] at hc
  exact h e he hc.1

/-- What a batch has of a filter with contents. -/
theorem batch_has {c : KqM.Cfg} {k k' : Kern} {cap all took} (hb : Batch c k cap all k' took) {f : Filter} (hf : special f = true)
    (p : KEvent → Bool) : has (all.filter fun e => !c.internal e.filter) f p =
      (decide (f ∈ took) && p (KqM.eventOf (KqM.ready c k) k.knotes f)) := by
  rw [Bool.eq_iff_iff]
  unfold has
  rw [List.any_eq_true]
  simp only [Bool.and_eq_true, beq_iff_eq, decide_eq_true_eq, List.mem_filter, hb.evs, List.mem_map]
  constructor
  · rintro ⟨e, ⟨⟨g, hg, rfl⟩, _⟩, he, hp⟩
    have : g = f := he
    subst this; exact ⟨hg, hp⟩
  · rintro ⟨ht, hp⟩
    refine ⟨_, ⟨⟨f, ht, rfl⟩, ?_⟩, rfl, hp⟩
    simp [KqM.eventOf, special_internal c hf]

/-- A batch. -/
theorem FI.take {c : Cfg} {f k k' cap all took nt si now tr t} (hf : special f = true) (hb : Batch c.k k cap all k' took)
    (h : FI c f (k.knotes f) (k.cond f) (f ∈ k.queue) nt si now tr) :
    FI c f (k'.knotes f)
      (if special f && has (all.filter fun e => !c.k.internal e.filter) f (·.flags.clear) then none else k'.cond f)
      (f ∈ k'.queue) nt si now (.k (.deliver t (all.filter fun e => !c.k.internal e.filter)) :: tr) := by
  have hh := batch_has hb hf
  generalize hE : (all.filter fun e => !c.k.internal e.filter) = evs at hh
  rw [hf, Bool.true_and, hb.env.1]
  have hkn : k'.knotes f = if f ∈ took then KqM.reported (k.knotes f) else k.knotes f := by rw [hb.knotes]
  by_cases ht : f ∈ took
  · rw [if_pos ht] at hkn
    obtain ⟨hq, hhot⟩ := hb.queued f ht
    have hone := hh (·.flags.oneshot)
    have hclr := hh (·.flags.clear)
    have hany := hh (fun _ => true)
    simp only [ht, decide_true, Bool.true_and, KqM.eventOf] at hone hclr hany
    obtain ⟨n, hn⟩ : ∃ n, k.knotes f = some n := by
      unfold KqM.hot at hhot
      cases hk : k.knotes f with
      | none => rw [hk] at hhot; cases hhot
      | some n => exact ⟨n, rfl⟩
    rw [hn] at hkn hone hclr h
    simp only [Option.any_some] at hone hclr
    cases hno : n.oneshot with
    | true =>
      have e1 : k'.knotes f = none := by rw [hkn]; simp [KqM.reported, Option.filter, hno]
      have e2 : asks (.k (.deliver t evs) :: tr) f = none := by simp only [asks, hone, hno, if_true]
      rw [e1]
      exact ⟨by rw [e2]; rfl, (by rw [e2]; nofun), h.time, (by rw [e2]; nofun), nofun, nofun, nofun⟩
    | false =>
      have e1 : k'.knotes f = some n := by rw [hkn]; simp [KqM.reported, Option.filter, hno]
      have e2 : asks (.k (.deliver t evs) :: tr) f = asks tr f := by
        simp only [asks, hone, hno, Bool.false_eq_true, if_false]
      have e3 : shots (.k (.deliver t evs) :: tr) f = shots tr f + 1 := by simp only [shots, hany, if_true]
      have e4 : ∀ p, f = .proc p → earned (.k (.deliver t evs) :: tr) p = if n.clear then false else earned tr p := by
        intro p hp; subst hp; simp only [earned, hclr]
      have hlvl : f ∈ k'.queue → n.clear = false := by
        intro hq'
        have := (hb.queue f hq').2 ht
        unfold KqM.lvl at this
        rw [hn] at this
        simp [hno] at this; exact this
      rw [e1, hclr]
      refine ⟨by rw [e2]; exact h.known, by rw [e2]; exact h.told, h.time, by rw [e2]; exact h.timer, ?_, h.clear, ?_⟩
      · intro p hp hk hc
        rw [e4 p hp]
        cases hnc : n.clear with
        | true =>
          rw [hnc] at hc
          rcases hc with hc | hc
          · cases hc
          · rw [hlvl hc] at hnc; cases hnc
        | false => exact h.proc p hp rfl (.inr hq)
      · intro i hi hr ha hk
        have hnc := h.clear ha n rfl
        have h0 := h.shot i hi hr ha rfl
        rw [e3, hnc]
        refine ⟨h0.2 (.inr hq), ?_⟩
        intro hc
        rcases hc with hc | hc
        · cases hc
        · rw [hlvl hc] at hnc; cases hnc
  · rw [if_neg ht] at hkn
    have hno : ∀ p, has evs f p = false := fun p => by rw [hh]; simp [ht]
    have e2 : asks (.k (.deliver t evs) :: tr) f = asks tr f := by
      simp only [asks, hno, Bool.false_eq_true, if_false]
    have e3 : shots (.k (.deliver t evs) :: tr) f = shots tr f := by simp only [shots, hno, Bool.false_eq_true, if_false]
    have e4 : ∀ p, f = .proc p → earned (.k (.deliver t evs) :: tr) p = earned tr p := by
      intro p hp; subst hp; simp only [earned, hno, Bool.false_eq_true, if_false]
    rw [hno, hkn]
    have hq' : f ∈ k'.queue → f ∈ k.queue := fun hq => (hb.queue f hq).1
    refine ⟨by rw [e2]; exact h.known, by rw [e2]; exact h.told, h.time, by rw [e2]; exact h.timer, ?_, h.clear, ?_⟩
    · intro p hp hk hc
      rw [e4 p hp]; exact h.proc p hp hk (hc.imp id hq')
    · intro i hi hr ha hk
      rw [e3]
      exact ⟨(h.shot i hi hr ha hk).1, fun hc => (h.shot i hi hr ha hk).2 (hc.imp id hq')⟩

/-- A step of the poller that neither adds a filter with contents nor raises its condition. -/
theorem FI.next {c : Cfg} {f m m' t a o nt si now tr} (he : Eff c.k f m t a m' o)
    (h : FI c f (m.k.knotes f) (m.k.cond f) (f ∈ m.k.queue) nt si now tr) (h1 : a ≠ .kevent) (h2 : ∀ v, a ≠ .cond f v)
    (h3 : ∀ w ev todo done, a = .change none → m.pc t = .submit w (ev :: todo) done → ev.filter = f → ev.flags.add = false) :
    FI c f (m'.k.knotes f) (m'.k.cond f) (f ∈ m'.k.queue) nt si now (.k o :: tr) := by
  cases he with
  | same e1 e2 e3 ho _ =>
    rw [e1, e2]
    exact (h.less .inl (fun hq => .inr (e3 hq))).quiet ho
  | gone e1 => rw [e1]; exact h.gone
  | add hpc hef ha hr => rw [h3 _ _ _ _ rfl hpc hef] at ha; cases ha
  | take => exact absurd rfl h1
  | cond => exact absurd rfl (h2 _)

/-- Plain steps of the poller. -/
theorem inv_plain {c : Cfg} {s : S} {tr t a m' o} (h : Inv c s tr) (hs : KqM.step c.k s.m t a = some (m', o))
    (h0 : ∀ call, a = .call call → isExt call = false) (h1 : a ≠ .kevent) (h2 : ∀ f v, special f = true → a ≠ .cond f v)
    (h3 : a = .change none → adding s t = none) : Inv c { s with m := m' } (.k o :: tr) := by
  have hn := (KqM.step_next hs).2
  refine ⟨KqM.next_ki hn h.ki h.pcs, KqM.next_pcOk hn h.pcs, arg_next hn h.arg h0, ?_⟩
  intro f hf
  refine FI.next (eff hn h.ki h.pcs hf) (h.fi f hf) h1 (fun v => h2 f v hf) ?_
  intro w ev todo done ha hpc hef
  have := h3 ha
  unfold adding at this
  rw [hpc] at this
  simp only at this
  cases hadd : ev.flags.add with
  | false => rfl
  | true => rw [hadd, hef, hf] at this; cases this

theorem asks_armed_other {t : Tid} {x : Ask} {f : Filter} (h : f ≠ x.target) (tr : List PObs) :
    asks (.armed t x :: tr) f = asks tr f ∧ elapsed (.armed t x :: tr) f = elapsed tr f ∧
    shots (.armed t x :: tr) f = shots tr f ∧ expiries (.armed t x :: tr) f = expiries tr f := by
  simp [asks, elapsed, shots, expiries, h]

/-- A filter with contents is added. -/
theorem inv_add {c : Cfg} {s : S} {tr t m' o f x} (h : Inv c s tr) (hf : adding s t = some f) (hx : s.arg t = some x)
    (hs : KqM.step c.k (fresh c s.m f) t (.change none) = some (m', o)) :
    Inv c { s with m := m', note := put s.note f (note x), since := put s.since f s.now } (.armed t x :: tr) := by
  have hn := (KqM.step_next hs).2
  unfold adding at hf
  split at hf
  · next w ev todo done hpc =>
    split at hf
    · next hc =>
      injection hf with hf
      subst hf
      simp only [Bool.and_eq_true] at hc
      obtain ⟨hadd, hsp⟩ := hc
      have hpc1 := fresh_pc c s.m ev.filter
      have hpt := h.pcs t
      rw [hpc] at hpt
      obtain ⟨call, y, rfl, hy, hey, _⟩ := special_change hpt hsp
      obtain ⟨x', hx', hxy⟩ := h.arg t call y (by rw [hpc]; rfl) hy
      rw [hx] at hx'
      injection hx' with hx'
      subst hx'
      have htar : x.target = ev.filter := by rw [hey, ← hxy, ext_filter]
      have hki1 := ki_fresh (c := c) hsp h.ki
      have hp1 : ∀ u, PcOk c.k ((fresh c s.m ev.filter).pc u) := by rw [hpc1]; exact h.pcs
      -- the change is processed
      have hreg : ∃ errno, KqM.register c.k none (fresh c s.m ev.filter).k ev = (errno, m'.k) ∧ o = KqM.changeObs t ev errno := by
        unfold KqM.step at hs
        rw [show (fresh c s.m ev.filter).pc t = .submit (.call call) (ev :: todo) done by rw [hpc1, hpc]] at hs
        split at hs
        · cases hs
        · simp only [reduceCtorEq, if_false] at hs
          injection hs with hs; injection hs with hs ho
          subst hs; exact ⟨_, rfl, ho.symm⟩
      obtain ⟨errno, hreg, hob⟩ := hreg
      have hr := KqM.register_reg hreg
      refine ⟨KqM.next_ki hn hki1 hp1, KqM.next_pcOk hn hp1, ?_, ?_⟩
      · refine arg_next hn ?_ nofun
        rw [hpc1]; exact h.arg
      · intro g hg
        have he := eff hn hki1 hp1 hg
        by_cases hgf : g = ev.filter
        · subst hgf
          have hasks : asks (.armed t x :: tr) ev.filter = some x := by simp [asks, htar]
          have hel : elapsed (.armed t x :: tr) ev.filter = 0 := by simp [elapsed, htar]
          have hsh : shots (.armed t x :: tr) ev.filter = 0 := by simp [shots, htar]
          have hex : expiries (.armed t x :: tr) ev.filter = 0 := by simp [expiries, htar]
          have hnt : put s.note ev.filter (note x) ev.filter = note x := by simp [put]
          have hsi : put s.since ev.filter s.now ev.filter = s.now := by simp [put]
          dsimp only
          rw [hnt, hsi]
          generalize hm1 : fresh c s.m ev.filter = m1 at hn he hki1 hp1 hs hr
          have hcond : m'.k.cond ev.filter = m1.k.cond ev.filter := by rw [(KqM.reg_env hr).1]
          have hk1 : m1.k.knotes = s.m.k.knotes := by rw [← hm1]; exact fresh_knotes _ _ _
          generalize hk' : m'.k = k' at hr hcond
          have hkn : k'.knotes ev.filter = some (KqM.added c.k (s.m.k.knotes ev.filter) ev) ∧
              (ev.filter ∈ k'.queue → ev.filter ∈ m1.k.queue ∨ (m1.k.cond ev.filter).isSome = true) := by
            cases hr with
            | fault he => cases he
            | add _ ha hfi =>
              rw [KqM.activate_knotes, KqM.activate_mem]
              rw [KqM.fires_eq (special_user hsp), special_ready _ _ hsp] at hfi
              rw [← hk1]
              exact ⟨by simp [KqM.setKnote], fun hq => hq.elim .inl fun _ => .inr hfi⟩
            | addIdle _ ha hfi => rw [← hk1]; exact ⟨by simp [KqM.setKnote], .inl⟩
            | missing _ ha => rw [hadd] at ha; cases ha
            | delete _ ha => rw [hadd] at ha; cases ha
            | nothing _ ha => rw [hadd] at ha; cases ha
          have hfi := h.fi ev.filter hsp
          refine ⟨by rw [hkn.1, hasks]; rfl, ?_, Nat.le_refl _, ?_, ?_, ?_, ?_⟩
          · rw [hasks]; intro x' e; injection e with e; subst e; exact ⟨rfl, htar⟩
          · intro i d _; rw [hel, hex]; omega
          · intro p hp hk hc
            rw [hcond] at hc
            have hc' : (m1.k.cond ev.filter).isSome = true ∨ ev.filter ∈ m1.k.queue :=
              hc.elim .inl fun hq => (hkn.2 hq).symm
            cases hold : s.m.k.knotes ev.filter with
            | none =>
              have := fresh_none (c := c) hold
              rw [hm1] at this
              rcases hc' with hc' | hc'
              · rw [this.1] at hc'; cases hc'
              · exact absurd hc' this.2
            | some n =>
              have hsome : (s.m.k.knotes ev.filter).isSome = true := by rw [hold]; rfl
              have hm : m1 = s.m := by
                rw [← hm1]; rw [hp] at hsome ⊢; exact fresh_proc hsome
              rw [hm] at hc'
              have := hfi.proc p hp hsome hc'
              have hask : (asks tr (.proc p)).isSome = true := by rw [← hp, ← hfi.known]; exact hsome
              simp only [earned]
              rw [if_neg]
              · exact this
              · rintro ⟨_, e⟩; rw [e] at hask; cases hask
          · intro ha n hn'
            rw [hkn.1] at hn'
            injection hn' with hn'
            subst hn'
            unfold KqM.added
            split
            · next n hold =>
              split
              · exact hfi.clear ha n hold
              · simp [ha]
            · simp [ha]
          · intro i hi hres ha hk
            rw [hsh, hex]
            refine ⟨Nat.le_refl _, fun hc => ?_⟩
            rw [hcond] at hc
            have hc' : (m1.k.cond ev.filter).isSome = true ∨ ev.filter ∈ m1.k.queue :=
              hc.elim .inl fun hq => (hkn.2 hq).symm
            have := fresh_timer (c := c) (m := s.m) (i := i) hres
            rw [← hi, hm1] at this
            rcases hc' with hc' | hc'
            · rw [this.1] at hc'; cases hc'
            · exact absurd hc' this.2
        · have hgx : g ≠ x.target := by rw [htar]; exact hgf
          obtain ⟨a1, a2, a3, a4⟩ := asks_armed_other (t := t) hgx tr
          obtain ⟨f1, f2, f3⟩ := fresh_other c s.m hgf
          have hnt : put s.note ev.filter (note x) g = s.note g := by simp [put, hgf]
          have hsi : put s.since ev.filter s.now g = s.since g := by simp [put, hgf]
          dsimp only
          rw [hnt, hsi]
          have h0 := h.fi g hg
          have h1 : FI c g (m'.k.knotes g) (m'.k.cond g) (g ∈ m'.k.queue) (s.note g) (s.since g) s.now (.k o :: tr) := by
            refine FI.next he ?_ nofun nofun ?_
            · rw [f1, f2]; exact h0.less .inl (fun hq => .inr (f3.1 hq))
            · intro w' ev' todo' done' _ hpc' hef'
              rw [hpc1, hpc] at hpc'
              injection hpc' with _ hpc' _
              injection hpc' with hpc' _
              subst hpc'
              exact absurd hef'.symm hgf
          have hq : Quiet o g := by
            rw [hob]
            unfold KqM.changeObs
            rw [hadd]
            split <;> exact ⟨nofun, nofun⟩
          have e1 := quiet_asks hq tr
          have e2 := quiet_shots hq tr
          refine ⟨by rw [a1, ← e1]; exact h1.known, by rw [a1, ← e1]; exact h1.told, h1.time, ?_, ?_, h1.clear, ?_⟩
          · intro i d hd; rw [a2, a4]; rw [a1, ← e1] at hd; exact h1.timer i d hd
          · intro p hp hk hc
            have := h1.proc p hp hk hc
            subst hp
            rw [quiet_owed hq] at this
            simp only [earned]
            rw [if_neg (fun e => hgx e.1.symm)]
            exact this
          · intro i hi; rw [a3, a4, ← e2]; exact h1.shot i hi
    · cases hf
  · cases hf

theorem earned_did {p op tr q} (h : earned tr q = true) : earned (.did p op :: tr) q = true := by
  simp only [earned, h, Bool.or_true]

theorem note_wants {x : Ask} {op : ProcOp} {p : Nat} (h : x.target = .proc p) (hw : (note x).wants op = true) : x = .process p op := by
  cases x with
  | signal n => cases h
  | timer i d => cases h
  | process q o =>
    have : q = p := by injection h
    subst this
    cases o <;> cases op <;> first | rfl | cases hw

/-- An observation of the environment that concerns another filter. -/
theorem FI.env {c f kn cd q nt si now tr o} (h : FI c f kn cd q nt si now tr) (e1 : asks (o :: tr) f = asks tr f)
    (e2 : elapsed (o :: tr) f = elapsed tr f) (e3 : shots (o :: tr) f = shots tr f) (e4 : expiries (o :: tr) f = expiries tr f)
    (e5 : ∀ p, f = .proc p → earned tr p = true → earned (o :: tr) p = true) : FI c f kn cd q nt si now (o :: tr) :=
  ⟨by rw [e1]; exact h.known, by rw [e1]; exact h.told, h.time, by rw [e1, e2, e4]; exact h.timer,
    fun p hp hk hc => e5 p hp (h.proc p hp hk hc), h.clear, by rw [e3, e4]; exact h.shot⟩

/-- Submissions end with an evaluation or a failure. -/
theorem fin_no {m : KqM.S} {t a w r} (h : KqM.Fin m t a w r) (h1 : a ≠ .eval) (h2 : ∀ e, a ≠ .kfail e) : False := by
  cases h with
  | eval => exact h1 rfl
  | fail => exact h2 _ rfl

/-- Raising the condition of `g` does not touch other filters. -/
theorem raise_other {c : KqM.Cfg} {m m' : KqM.S} {t o g v} (hs : KqM.step c m t (.cond g (some v)) = some (m', o)) :
    (∀ f, f ≠ g → m'.k.cond f = m.k.cond f ∧ (f ∈ m'.k.queue → f ∈ m.k.queue)) ∧ m'.k.knotes = m.k.knotes ∧
      m'.k.cond g = some v ∧ ((m.k.knotes g).isSome = true → g ∈ m'.k.queue) ∧ m'.pc = m.pc ∧
      (∀ f, f ∈ m.k.queue → f ∈ m'.k.queue) ∧ m'.k.queue.length ≤ m.k.queue.length + 1 := by
  cases (KqM.step_next hs).2 with
  | raise hi =>
    refine ⟨?_, by dsimp only; rw [KqM.activate_knotes], by dsimp only; rw [KqM.activate_cond]; simp, ?_, rfl, ?_, ?_⟩
    · intro f hf
      dsimp only
      rw [KqM.activate_cond, KqM.activate_mem]
      exact ⟨by simp [hf], fun h => h.elim id fun h => absurd h.1 hf⟩
    · intro hk
      dsimp only
      rw [KqM.activate_mem]; exact .inr ⟨rfl, hk⟩
    · intro f hq
      dsimp only
      rw [KqM.activate_mem]; exact .inl hq
    · dsimp only
      unfold KqM.activate
      split
      · simp
      · exact Nat.le_succ _
  | finCall h => exact (fin_no h (by intro e; cases e) (by intro _ e; cases e)).elim
  | finDelete h => exact (fin_no h (by intro e; cases e) (by intro _ e; cases e)).elim
  | finNotify h => exact (fin_no h (by intro e; cases e) (by intro _ e; cases e)).elim
  | finRearm h => exact (fin_no h (by intro e; cases e) (by intro _ e; cases e)).elim
  | rearmRetry h => exact (fin_no h (by intro e; cases e) (by intro _ e; cases e)).elim
  | rearmErr h => exact (fin_no h (by intro e; cases e) (by intro _ e; cases e)).elim

theorem inv_step {c : Cfg} {s s' : S} {tr a o} (h : Inv c s tr) (hs : step c s a = some (s', o)) : Inv c s' (o :: tr) := by
  cases a with
  | base t a =>
    simp only [step, baseStep] at hs
    split at hs
    · next call =>
      split at hs
      · cases hs
      · next hx =>
        rw [Option.map_eq_some_iff] at hs
        obtain ⟨⟨m', o'⟩, h1, h2⟩ := hs
        injection h2 with h2 h3; subst h2 h3
        exact inv_plain h h1 (fun call e => by injection e with e; subst e; simpa using hx) nofun nofun nofun
    · next f v =>
      split at hs
      · cases hs
      · next hx =>
        rw [Option.map_eq_some_iff] at hs
        obtain ⟨⟨m', o'⟩, h1, h2⟩ := hs
        injection h2 with h2 h3; subst h2 h3
        exact inv_plain h h1 nofun nofun (fun g v' hg e => by injection e with e; subst e; exact hx hg) nofun
    · rw [Option.map_eq_some_iff] at hs
      obtain ⟨⟨m', o'⟩, h1, h2⟩ := hs
      have hn := (KqM.step_next h1).2
      cases hn with
      | @kevent timed cap all k hpc hh hc =>
        have hn : Next c.k s.m t .kevent _ _ := .kevent hpc hh hc
        simp only at h2
        injection h2 with h2 h3; subst h2 h3
        obtain ⟨pre, rest, _, _, _, hb⟩ := KqM.harvest_batch h.ki.nodup hh
        have harg := arg_next (arg := s.arg) hn h.arg (by intro call e; cases e)
        have hpcs := KqM.next_pcOk hn h.pcs
        refine ⟨ki_reset _ (KqM.next_ki hn h.ki h.pcs), hpcs, harg, ?_⟩
        intro f hf
        exact (h.fi f hf).take hf hb
      | finCall hx => exact (fin_no hx (by intro e; cases e) (by intro _ e; cases e)).elim
      | finDelete hx => exact (fin_no hx (by intro e; cases e) (by intro _ e; cases e)).elim
      | finNotify hx => exact (fin_no hx (by intro e; cases e) (by intro _ e; cases e)).elim
      | finRearm hx => exact (fin_no hx (by intro e; cases e) (by intro _ e; cases e)).elim
      | rearmRetry hx => exact (fin_no hx (by intro e; cases e) (by intro _ e; cases e)).elim
      | rearmErr hx => exact (fin_no hx (by intro e; cases e) (by intro _ e; cases e)).elim
    · split at hs
      · next f hf =>
        rw [Option.bind_eq_some_iff] at hs
        obtain ⟨x, hx, hs⟩ := hs
        rw [Option.map_eq_some_iff] at hs
        obtain ⟨⟨m', o'⟩, h1, h2⟩ := hs
        injection h2 with h2 h3; subst h2 h3
        exact inv_add h hf hx h1
      · next hf =>
        rw [Option.map_eq_some_iff] at hs
        obtain ⟨⟨m', o'⟩, h1, h2⟩ := hs
        injection h2 with h2 h3; subst h2 h3
        exact inv_plain h h1 nofun nofun nofun fun _ => hf
    · next h1 h2 h3 h4 =>
      rw [Option.map_eq_some_iff] at hs
      obtain ⟨⟨m', o'⟩, h5, h6⟩ := hs
      injection h6 with h6 h7; subst h6 h7
      exact inv_plain h h5 (fun call e => (h1 call e).elim) (fun e => h3 e) (fun f v _ e => h2 f v e) (fun e => (h4 e).elim)
  | callF t kind x key mode =>
    simp only [step, Option.map_eq_some_iff] at hs
    obtain ⟨⟨m', o'⟩, h1, h2⟩ := hs
    injection h2 with h2 h3; subst h2 h3
    have hn := (KqM.step_next h1).2
    refine ⟨KqM.next_ki hn h.ki h.pcs, KqM.next_pcOk hn h.pcs, ?_, ?_⟩
    · intro u call y hat hy
      by_cases hu : u = t
      · subst hu
        refine ⟨x, by simp [put], ?_⟩
        rcases next_at hn hat with h2 | ⟨_, h2⟩
        · have : s.m.pc u = .out := by
            cases hn <;> first
              | assumption
              | exact (fin_no (by assumption) (by intro e; cases e) (by intro _ e; cases e)).elim
          rw [this] at h2; exact h2.elim
        · injection h2 with h2
          rw [← h2, extOf_callOf] at hy
          injection hy
      · rcases next_at hn hat with h2 | ⟨e, _⟩
        · obtain ⟨x', h3, h4⟩ := h.arg u call y h2 hy
          exact ⟨x', by simp only [put, if_neg hu]; exact h3, h4⟩
        · exact absurd e hu
    · intro f hf
      exact FI.next (eff hn h.ki h.pcs hf) (h.fi f hf) (by intro e; cases e) (by intro v e; cases e) (by intro _ _ _ _ e; cases e)
  | did t p op eof =>
    simp only [step] at hs
    split at hs
    · next hc =>
      simp only [Bool.and_eq_true] at hc
      rw [Option.map_eq_some_iff] at hs
      obtain ⟨⟨m', o'⟩, h1, h2⟩ := hs
      injection h2 with h2 h3; subst h2 h3
      have hn := (KqM.step_next h1).2
      obtain ⟨r1, r2, _, _, r5, _, _⟩ := raise_other h1
      refine ⟨KqM.next_ki hn h.ki h.pcs, KqM.next_pcOk hn h.pcs, arg_next hn h.arg (by intro call e; cases e), ?_⟩
      intro f hf
      have h0 := h.fi f hf
      dsimp only
      rw [r2]
      by_cases hfp : f = .proc p
      · subst hfp
        obtain ⟨x, hx⟩ : ∃ x, asks tr (.proc p) = some x := by
          have := h0.known; rw [hc.1] at this
          exact Option.isSome_iff_exists.1 this.symm
        obtain ⟨ht1, ht2⟩ := h0.told x hx
        have := note_wants ht2 (by rw [← ht1]; exact hc.2)
        subst this
        refine ⟨h0.known, h0.told, h0.time, ?_, ?_, h0.clear, nofun⟩
        · intro i d e
          rw [show asks (.did p op :: tr) (.proc p) = asks tr (.proc p) from rfl, hx] at e; cases e
        · intro q hq _ _
          injection hq with hq; subst hq
          simp [earned, hx]
      · obtain ⟨r6, r7⟩ := r1 f hfp
        rw [r6]
        exact (h0.less .inl (fun hq => .inr (r7 hq))).env rfl rfl rfl rfl fun q _ he => earned_did he
    · injection hs with hs; injection hs with h2 h3; subst h2 h3
      exact ⟨h.ki, h.pcs, h.arg, fun f hf => (h.fi f hf).env rfl rfl rfl rfl fun q _ he => earned_did he⟩
  | expire t i =>
    simp only [step] at hs
    split at hs
    · next d hd =>
      split at hs
      · next hc =>
        simp only [Bool.and_eq_true, decide_eq_true_eq] at hc
        rw [Option.map_eq_some_iff] at hs
        obtain ⟨⟨m', o'⟩, h1, h2⟩ := hs
        injection h2 with h2 h3; subst h2 h3
        have hn := (KqM.step_next h1).2
        obtain ⟨r1, r2, _, _, r5, _, _⟩ := raise_other h1
        refine ⟨KqM.next_ki hn h.ki h.pcs, KqM.next_pcOk hn h.pcs, arg_next hn h.arg (by intro call e; cases e), ?_⟩
        intro f hf
        have h0 := h.fi f hf
        dsimp only
        rw [r2]
        by_cases hfp : f = .timer i
        · subst hfp
          have e1 : expiries (.expired i :: tr) (.timer i) = expiries tr (.timer i) + 1 := by simp [expiries]
          have e2 : put s.since (.timer i) (s.since (.timer i) + d) (.timer i) = s.since (.timer i) + d := by simp [put]
          rw [e2]
          refine ⟨h0.known, h0.told, hc.2, ?_, nofun, h0.clear, ?_⟩
          · intro j d' hd'
            have ht := (h0.told _ hd').1
            rw [hd] at ht
            have : d = d' := by injection ht
            subst this
            have := h0.timer j d hd'
            rw [e1, Nat.add_mul]
            show _ + elapsed tr _ = _
            omega
          · intro j hj hr ha hk
            have h2 := h0.shot j hj hr ha hk
            rw [e1]
            show shots tr _ ≤ _ ∧ (_ → shots tr _ < _)
            exact ⟨by omega, fun _ => by omega⟩
        · obtain ⟨r6, r7⟩ := r1 f hfp
          have e2 : put s.since (.timer i) (s.since (.timer i) + d) f = s.since f := by simp [put, hfp]
          rw [r6, e2]
          exact (h0.less .inl (fun hq => .inr (r7 hq))).env rfl rfl rfl (by simp [expiries, hfp]) fun q _ he => he
      · cases hs
    · cases hs
  | tick d =>
    injection hs with hs; injection hs with h2 h3; subst h2 h3
    refine ⟨h.ki, h.pcs, h.arg, fun f hf => ?_⟩
    have h0 := h.fi f hf
    refine ⟨h0.known, h0.told, Nat.le_trans h0.time (Nat.le_add_right _ _), ?_, h0.proc, h0.clear, h0.shot⟩
    intro i d' hd'
    have := h0.timer i d' hd'
    show _ + (elapsed tr f + d) = _ + expiries tr f * d'
    dsimp only
    omega

theorem init_knotes (c : KqM.Cfg) (cond) {f : Filter} (h : special f = true) : (KqM.init c cond).k.knotes f = none := by
  unfold KqM.init
  split
  · dsimp only
    have := (KqM.reg_other (KqM.register_reg (c := c) (fault := none) (k := ⟨fun _ => none, [], cond, 0⟩)
      (ev := KqM.userChange false) (Prod.eta _).symm) (f := f) (by intro e; subst e; cases h)).1
    rw [this]
  · simp only [KqM.fdChanges, List.foldl]
    rw [(KqM.reg_other (KqM.register_reg (Prod.eta _).symm) (f := f) (by intro e; subst e; cases h)).1,
      (KqM.reg_other (KqM.register_reg (Prod.eta _).symm) (f := f) (by intro e; subst e; cases h)).1]

theorem reach_inv {c s tr} (h : Reach c s tr) : Inv c s tr := by
  induction h with
  | init cond =>
    refine ⟨KqM.init_ki _ _, fun t => KqM.reach_pcOk (P := KqM.Any) (.init cond) t, ?_, ?_⟩
    · intro u call y hat
      have : (init c cond).m.pc u = .out := by simp only [init, KqM.init]; split <;> rfl
      rw [this] at hat; exact hat.elim
    · intro f hf
      rw [show (init c cond).m.k.knotes f = none from init_knotes c.k cond hf]
      exact ⟨rfl, nofun, Nat.le_refl _, nofun, nofun, nofun, nofun⟩
  | step _ hs ih => exact inv_step ih hs

/-- A batch is made by a step of a waiting thread. -/
theorem deliver_step {c : Cfg} {s s' : S} {a t evs} (hs : step c s a = some (s', .k (.deliver t evs))) :
    ∃ u m', a = .base u .kevent ∧ KqM.step c.k s.m u .kevent = some (m', .deliver t evs) := by
  have hnx : ∀ {u a' m'}, KqM.step c.k s.m u a' = some (m', .deliver t evs) → a' = .kevent := by
    intro u a' m' h1
    have hn := (KqM.step_next h1).2
    generalize ho : KObs.deliver t evs = o at hn
    cases hn with
    | kevent => rfl
    | change => unfold KqM.changeObs at ho; split at ho; cases ho; split at ho <;> cases ho
    | _ => cases ho
  cases a with
  | base u a =>
    simp only [step, baseStep] at hs
    split at hs
    · split at hs
      · cases hs
      · rw [Option.map_eq_some_iff] at hs
        obtain ⟨⟨m', o'⟩, h1, h2⟩ := hs
        injection h2 with h2 h3; injection h3 with h3; subst h3
        cases hnx h1
    · split at hs
      · cases hs
      · rw [Option.map_eq_some_iff] at hs
        obtain ⟨⟨m', o'⟩, h1, h2⟩ := hs
        injection h2 with h2 h3; injection h3 with h3; subst h3
        cases hnx h1
    · rw [Option.map_eq_some_iff] at hs
      obtain ⟨⟨m', o'⟩, h1, h2⟩ := hs
      have : o' = .deliver t evs := by
        split at h2 <;> (injection h2 with h2 h3; injection h3 with h3)
      subst this
      exact ⟨u, m', rfl, h1⟩
    · split at hs
      · rw [Option.bind_eq_some_iff] at hs
        obtain ⟨x, hx, hs⟩ := hs
        rw [Option.map_eq_some_iff] at hs
        obtain ⟨⟨m', o'⟩, h1, h2⟩ := hs
        injection h2 with h2 h3; cases h3
      · rw [Option.map_eq_some_iff] at hs
        obtain ⟨⟨m', o'⟩, h1, h2⟩ := hs
        injection h2 with h2 h3; injection h3 with h3; subst h3
        cases hnx h1
    · next h1 h2 h3 h4 =>
      rw [Option.map_eq_some_iff] at hs
      obtain ⟨⟨m', o'⟩, h5, h6⟩ := hs
      injection h6 with h6 h7; injection h7 with h7; subst h7
      exact absurd (hnx h5) h3
  | callF u kind x key mode =>
    simp only [step, Option.map_eq_some_iff] at hs
    obtain ⟨⟨m', o'⟩, h1, h2⟩ := hs
    injection h2 with h2 h3; injection h3 with h3; subst h3
    cases hnx h1
  | did u p op eof =>
    simp only [step] at hs
    split at hs
    · rw [Option.map_eq_some_iff] at hs
      obtain ⟨⟨m', o'⟩, h1, h2⟩ := hs
      injection h2 with h2 h3; cases h3
    · injection hs with hs; injection hs with h2 h3; cases h3
  | expire u i =>
    simp only [step] at hs
    split at hs
    · split at hs
      · rw [Option.map_eq_some_iff] at hs
        obtain ⟨⟨m', o'⟩, h1, h2⟩ := hs
        injection h2 with h2 h3; cases h3
      · cases hs
    · cases hs
  | tick d => injection hs with hs; injection hs with h2 h3; cases h3

/-- The state when a filter with contents is delivered. -/
theorem deliver_from {c : Cfg} {s s' : S} {a tr t evs e} (h : Inv c s tr) (hs : step c s a = some (s', .k (.deliver t evs)))
    (he : e ∈ evs) (hsp : special e.filter = true) : (s.m.k.knotes e.filter).isSome = true ∧ e.filter ∈ s.m.k.queue := by
  obtain ⟨u, m', _, h1⟩ := deliver_step hs
  obtain ⟨_, _, timed, cap, all, took, _, _, hb, rfl⟩ := KqM.deliver_inv h1 h.ki
  obtain ⟨he, _⟩ := List.mem_filter.1 he
  rw [hb.evs, List.mem_map] at he
  obtain ⟨f, hf, rfl⟩ := he
  have := (hb.queued f hf).1
  exact ⟨h.ki.known f this, this⟩

theorem reach_split {c s tr} (h : Reach c s tr) : ∀ later o earlier, tr = later ++ o :: earlier →
    ∃ s0 a s1, Reach c s0 earlier ∧ step c s0 a = some (s1, o) := by
  induction h with
  | init => intro later o earlier he; simp at he
  | @step s tr a s' o' hr hs ih =>
    intro later o earlier he
    cases later with
    | nil =>
      simp only [List.nil_append, List.cons.injEq] at he
      obtain ⟨rfl, rfl⟩ := he
      exact ⟨s, a, s', hr, hs⟩
    | cons x later =>
      simp only [List.cons_append, List.cons.injEq] at he
      exact ih later o earlier he.2

theorem run_reach {c s tr} (h : Reach c s tr) {as s' o} (hr : runActs c s as = some (s', o)) : Reach c s' (o ++ tr) := by
  induction as generalizing s tr s' o with
  | nil => cases hr; exact h
  | cons a as ih =>
    simp only [runActs, Option.bind_eq_some_iff, Option.map_eq_some_iff] at hr
    obtain ⟨⟨s1, o1⟩, h1, ⟨s2, o2⟩, h2, h3⟩ := hr
    injection h3 with h3 h4
    subst h3 h4
    have := ih (.step h h1) h2
    simpa using this

/-- An active filter with contents is reported by the next `kevent` that has room. -/
theorem kevent_takes {c : Cfg} {s : S} {tr u timed cap f} (h : Inv c s tr) (hu : u < c.k.threads) (hpc : s.m.pc u = .wKev timed cap)
    (hf : special f = true) (hq : f ∈ s.m.k.queue) (hc : (s.m.k.cond f).isSome = true) (hroom : s.m.k.queue.length ≤ cap) :
    ∃ s' evs, step c s (.base u .kevent) = some (s', .k (.deliver u evs)) ∧ ∃ e ∈ evs, e.filter = f := by
  generalize hh : KqM.harvest c.k s.m.k cap = r
  obtain ⟨all, k'⟩ := r
  obtain ⟨pre, rest, hpr, _, hrest, hb⟩ := KqM.harvest_batch h.ki.nodup hh
  have hhot : KqM.hot c.k (KqM.ready c.k s.m.k) s.m.k.knotes f = true := by
    unfold KqM.hot
    have := h.ki.known f hq
    obtain ⟨n, hn⟩ := Option.isSome_iff_exists.1 this
    rw [hn, special_ready c.k _ hf]
    simp [hc]
  have htook : f ∈ pre.filter (KqM.hot c.k (KqM.ready c.k s.m.k) s.m.k.knotes) := by
    have hpre : f ∈ pre := by
      rcases hrest with hr | hr
      · rw [hpr, hr, List.append_nil] at hq; exact hq
      · have hl : (pre.filter (KqM.hot c.k (KqM.ready c.k s.m.k) s.m.k.knotes)).length ≤ pre.length := List.length_filter_le _ _
        rw [hpr, List.length_append] at hroom
        have : rest = [] := by
          cases rest with
          | nil => rfl
          | cons x l => simp only [List.length_cons] at hroom; omega
        rw [hpr, this, List.append_nil] at hq; exact hq
    exact List.mem_filter.2 ⟨hpre, hhot⟩
  have hev : KqM.eventOf (KqM.ready c.k s.m.k) s.m.k.knotes f ∈ all := by
    rw [hb.evs]; exact List.mem_map_of_mem htook
  have hne : all ≠ [] := by intro e; rw [e] at hev; cases hev
  have hstep : ∃ s', step c s (.base u .kevent) = some (s', .k (.deliver u (all.filter fun e => !c.k.internal e.filter))) := by
    simp only [step, baseStep]
    unfold KqM.step
    rw [if_neg (by omega), hpc]
    simp only [hh]
    rw [if_pos (.inl hne)]
    exact ⟨_, rfl⟩
  obtain ⟨s', hs'⟩ := hstep
  exact ⟨s', _, hs', _, List.mem_filter.2 ⟨hev, by simp [KqM.eventOf, special_internal c.k hf]⟩, rfl⟩

end Polling.KqFilters
