import Verif.Proof.PollReach
import Verif.Spec.PollHistory

/-! The observed history of the poll machine in terms of the backend-independent observations. -/

set_option linter.unusedSimpArgs false

namespace Polling.PollP
open PollB PollFlags PollSpec Spec

theorem reach_tail {c P s o tr} (h : Reach c P s (o :: tr)) : ∃ s', Reach c P s' tr := by
  cases h with
  | step hr _ _ => exact ⟨_, hr⟩

theorem reach_suffix {c P s later tr} (h : Reach c P s (later ++ tr)) : ∃ s', Reach c P s' tr := by
  induction later generalizing s with
  | nil => exact ⟨s, h⟩
  | cons o later ih => obtain ⟨s', h⟩ := reach_tail h; exact ih h

/-- What an observed change of the table says about the map. -/
theorem applied_spec {c P s t op r tr} (h : Reach c P s (.applied t op r :: tr)) :
    r = (applyAsCoded c.n.hasFd (mapOf c tr) op).1 ∧
    mapOf c (.applied t op r :: tr) = (applyAsCoded c.n.hasFd (mapOf c tr) op).2 := by
  obtain ⟨s', h'⟩ := reach_tail h
  have h1 := (reach_T h).outs
  have h2 := (reach_T h').outs
  simp only [outs, steps, runSpec_append, h2, runSpec] at h1
  have h3 := List.append_cancel_left h1
  refine ⟨by injection h3 with h3; injection h3, ?_⟩
  show mapAfter _ _ _ (steps tr ++ [.call op]) = _
  rw [mapAfter_append]; rfl

/-- What an observed look at the table says about the map. -/
theorem round_events_spec {c P s t os order b o tr} (h : Reach c P s (.round t os order b o :: tr)) :
    ListsAll order (mapOf c tr) ∧ o = (stepSpec applyAsCoded c.n.spec (mapOf c tr) (.round os order b)).1 ∧
    mapOf c (.round t os order b o :: tr) = (stepSpec applyAsCoded c.n.spec (mapOf c tr) (.round os order b)).2 := by
  obtain ⟨s', h'⟩ := reach_tail h
  have h1 := (reach_T h).outs
  have h2 := (reach_T h').outs
  have h4 := (reach_T h).orders
  simp only [steps, ordersOk_append, OrdersOk] at h4
  simp only [outs, steps, runSpec_append, h2, runSpec] at h1
  have h3 := List.append_cancel_left h1
  refine ⟨h4.2.1, by injection h3, ?_⟩
  show mapAfter _ _ _ (steps tr ++ [.round os order b]) = _
  rw [mapAfter_append]; rfl

/-- The registration of a source and its entry in the map. -/
def Match (o : Option (Current EventExtra)) (r : Option Reg) : Prop :=
  (o = none ∧ r = none) ∨ ∃ c x, o = some c ∧ r = some x ∧ x.key = c.ev.key ∧ x.oneshot = oneshot c.mode ∧
    x.readable = (c.ev.readable && !(c.fired && oneshot c.mode)) ∧
    x.writable = (c.ev.writable && !(c.fired && oneshot c.mode)) ∧ supported c.mode = true

theorem Match.ask {c x} (h : Match (some c) (some x)) : x.ask = asks c := by
  rcases h with ⟨h, _⟩ | ⟨c', x', h1, h2, _, h4, h5, h6, _⟩
  · cases h
  · obtain rfl := Option.some.inj h1
    obtain rfl := Option.some.inj h2
    unfold Reg.ask asks
    rw [h5, h6]
    cases c.fired <;> cases oneshot c.mode <;> simp

theorem Match.ready {cur m os fd} (h : ∀ fd, Match (cur fd) (m fd)) :
    readyNow os cur fd = decide (result os m fd ≠ 0#16) := by
  have := h fd
  unfold readyNow result
  cases hc : cur fd with
  | none =>
    rcases this with ⟨_, h2⟩ | ⟨c, x, h1, _⟩
    · simp [h2]
    · rw [hc] at h1; cases h1
  | some c =>
    rw [hc] at this
    cases hm : m fd with
    | none => rw [hm] at this; rcases this with ⟨h, _⟩ | ⟨_, _, _, h, _⟩ <;> cases h
    | some x => rw [hm] at this; simp only [this.ask]; rw [Bool.eq_iff_iff]; simp

/-- The batch as a list of descriptors with their events. -/
def batch (os : Fd → Flags → Flags) (m : Map) (order : List Fd) : List (Fd × Event EventExtra) :=
  order.filterMap fun fd => (m fd).bind fun r => if os fd r.ask ≠ 0#16 then some (fd, r.report (os fd r.ask)) else none

theorem batch_fst (os m order) : (batch os m order).map Prod.fst = order.filter fun fd => decide (result os m fd ≠ 0#16) := by
  induction order with
  | nil => rfl
  | cons fd order ih =>
    unfold batch at ih ⊢
    rw [List.filterMap_cons, List.filter_cons]
    cases hm : m fd with
    | none => simpa [result, hm] using ih
    | some r =>
      by_cases h : os fd r.ask = 0#16
      · simpa [result, hm, h] using ih
      · simpa [result, hm, h] using ih

theorem batch_snd (os m order) : (batch os m order).map Prod.snd = waitEvents os m order := by
  unfold batch waitEvents
  rw [List.map_filterMap]
  congr 1
  funext fd
  cases m fd with
  | none => rfl
  | some r => simp only [Option.bind_some]; split <;> rfl

theorem batch_eq {os m order cur} (h : ∀ fd, Match (cur fd) (m fd)) :
    (order.filter (readyNow os cur)).zip (waitEvents os m order) = batch os m order := by
  have : order.filter (readyNow os cur) = (batch os m order).map Prod.fst := by
    rw [batch_fst]; congr 1; funext fd; exact Match.ready h
  rw [this, ← batch_snd]
  have hz : ∀ l : List (Fd × Event EventExtra), (l.map Prod.fst).zip (l.map Prod.snd) = l := by
    intro l; induction l with
    | nil => rfl
    | cons x l ih => simp [ih]
  exact hz _

theorem batch_mem {os m order fd} (h : ListsAll order m) :
    fd ∈ (batch os m order).map Prod.fst ↔ ∃ r, m fd = some r ∧ os fd r.ask ≠ 0#16 := by
  rw [batch_fst, List.mem_filter, h.2]
  cases hm : m fd <;> simp [result, hm]

theorem mem_batch {os m order fd e} (h : (fd, e) ∈ batch os m order) :
    ∃ r, m fd = some r ∧ os fd r.ask ≠ 0#16 ∧ e = r.report (os fd r.ask) := by
  unfold batch at h
  rw [List.mem_filterMap] at h
  obtain ⟨fd', _, h⟩ := h
  cases hm : m fd' with
  | none => rw [hm] at h; cases h
  | some r =>
    rw [hm] at h
    simp only [Option.bind_some] at h
    split at h
    · next hne => injection h with h; injection h with h1 h2; subst h1 h2; exact ⟨r, hm, hne, rfl⟩
    · cases h

theorem mode_oneshot {mode} (h : supported mode = true) : (mode == .oneshot) = oneshot mode := by
  cases mode <;> first | rfl | cases h

theorem match_reg {ev mode} (h : supported mode = true) :
    Match (some ⟨ev, mode, false⟩) (some ⟨ev.key, ev.readable, ev.writable, mode == .oneshot⟩) :=
  .inr ⟨_, _, rfl, rfl, rfl, mode_oneshot h, by simp, by simp, h⟩

/-- The registrations of the history are those of the map. -/
theorem reach_match {c P s tr} (h : Reach c P s tr) : ∀ fd, Match (current (history true tr) fd) (mapOf c tr fd) := by
  induction tr generalizing s with
  | nil => intro fd; exact .inl ⟨rfl, rfl⟩
  | cons o tr ih =>
    obtain ⟨s', h'⟩ := reach_tail h
    have ih := ih h'
    cases o
    case applied t op r =>
      obtain ⟨h1, h2⟩ := applied_spec h
      rw [h2]
      intro fd
      have ihf := ih fd
      cases op with
      | add fd' ev mode =>
        simp only [applyAsCoded, apply] at h1 ⊢
        by_cases ha : c.n.hasFd fd' = true
        · simp only [ha, if_true, Bool.false_eq_true, if_false] at h1 ⊢; subst h1; exact ihf
        · by_cases hb : (mapOf c tr fd').isSome = true
          · simp only [ha, hb, if_true, Bool.false_eq_true, if_false] at h1 ⊢; subst h1; exact ihf
          · by_cases hm : supported mode = true
            · simp only [ha, hb, hm, if_true, Bool.false_eq_true, if_false] at h1 ⊢; subst h1
              simp only [history, current]
              show Match _ (Map.set _ _ _ fd)
              unfold Map.set
              by_cases e : fd = fd'
              · simp only [if_pos e]; exact match_reg hm
              · simp only [if_neg e]; exact ihf
            · simp only [ha, hb, hm, Bool.false_eq_true, if_false] at h1 ⊢; subst h1; exact ihf
      | modify fd' ev mode =>
        simp only [applyAsCoded] at h1 ⊢
        by_cases ha : c.n.hasFd fd' = true
        · simp only [ha, if_true, Bool.false_eq_true, if_false] at h1 ⊢; subst h1; exact ihf
        · cases hb : mapOf c tr fd' with
          | none => simp only [ha, hb, Bool.false_eq_true, if_false] at h1 ⊢; subst h1; exact ihf
          | some x =>
            by_cases hm : supported mode = true
            · simp only [ha, hb, hm, if_true, Bool.false_eq_true, if_false] at h1 ⊢; subst h1
              simp only [history, current]
              show Match _ (Map.set _ _ _ fd)
              unfold Map.set
              by_cases e : fd = fd'
              · simp only [if_pos e]; exact match_reg hm
              · simp only [if_neg e]; exact ihf
            · simp only [ha, hb, hm] at h1 ⊢
              simp only [Bool.false_eq_true, if_false] at h1 ⊢
              subst h1
              rcases ih fd' with ⟨_, h4⟩ | ⟨cu, x', h3, h4, h5, h6, h7, h8, h9⟩
              · rw [hb] at h4; cases h4
              · rw [hb] at h4; obtain rfl := Option.some.inj h4
                simp only [history, h3, current]
                show Match _ (Map.set _ _ _ fd)
                unfold Map.set
                by_cases e : fd = fd'
                · simp only [if_pos e]; exact .inr ⟨_, _, rfl, rfl, rfl, h6, by simp, by simp, h9⟩
                · simp only [if_neg e]; exact ihf
      | delete fd' =>
        simp only [applyAsCoded, apply] at h1 ⊢
        by_cases ha : c.n.hasFd fd' = true
        · simp only [ha, if_true, Bool.false_eq_true, if_false] at h1 ⊢; subst h1; exact ihf
        · by_cases hb : (mapOf c tr fd').isNone = true
          · simp only [ha, hb, if_true, Bool.false_eq_true, if_false] at h1 ⊢; subst h1; exact ihf
          · simp only [ha, hb, Bool.false_eq_true, if_false] at h1 ⊢; subst h1
            simp only [history, current]
            show Match _ (Map.set _ _ _ fd)
            unfold Map.set
            by_cases e : fd = fd'
            · simp only [if_pos e]; exact .inl ⟨rfl, rfl⟩
            · simp only [if_neg e]; exact ihf
    case round t os order b out =>
      obtain ⟨hl, h1, h2⟩ := round_events_spec h
      rw [h2]
      simp only [stepSpec] at h1 ⊢
      split at h1
      · next hc => subst h1; rw [if_pos hc]; exact ih
      · next hc =>
        subst h1; rw [if_neg hc]
        intro fd
        have ihf := ih fd
        simp only [history, current]
        rw [batch_eq ih]
        unfold afterWait
        rcases ihf with ⟨h3, h4⟩ | ⟨cu, x, h3, h4, h5, h6, h7, h8, h9⟩
        · rw [h3, h4]; exact .inl ⟨rfl, rfl⟩
        · rw [h3, h4]
          simp only [Option.map_some]
          have hmem := batch_mem (os := os) (fd := fd) hl
          rw [h4] at hmem
          refine .inr ⟨_, _, rfl, rfl, ?_⟩
          by_cases hr : os fd x.ask = 0#16
          · have hn : fd ∉ (batch os (mapOf c tr) order).map Prod.fst := by
              rw [hmem]; rintro ⟨r, hr1, hr2⟩; obtain rfl := Option.some.inj hr1; exact hr2 hr
            rw [if_neg hn, if_neg (by simp [hr])]
            exact ⟨h5, h6, h7, h8, h9⟩
          · have hn : fd ∈ (batch os (mapOf c tr) order).map Prod.fst := hmem.2 ⟨x, rfl, hr⟩
            rw [if_pos hn]
            by_cases ho : x.oneshot = true
            · rw [if_pos ⟨ho, hr⟩]
              have ho' : oneshot cu.mode = true := by rw [← h6]; exact ho
              exact ⟨h5, h6, by simp [ho'], by simp [ho'], h9⟩
            · rw [if_neg (fun h => ho h.1)]
              have ho' : oneshot cu.mode = false := by rw [← h6]; simpa using ho
              exact ⟨h5, h6, by simpa [ho'] using h7, by simpa [ho'] using h8, h9⟩
    all_goals exact ih

/-- Without rejected modifications both readings of the run agree. -/
theorem history_clean {tr} (h : NoRejectedModify tr) (b : Bool) : history b tr = history false tr := by
  induction tr with
  | nil => rfl
  | cons o tr ih =>
    have ih := ih fun t fd ev mode hm => h t fd ev mode (List.mem_cons_of_mem _ hm)
    cases o
    case applied t op r =>
      cases op <;> cases r
      case modify.err fd ev mode e =>
        cases e
        case unsupported => exact absurd List.mem_cons_self (h t fd ev mode)
        all_goals simp only [history, ih]
      all_goals simp only [history, ih]
    case round t os order b out => cases out <;> simp only [history, ih]
    all_goals simp only [history, ih]

/-- Every delivery of a run. -/
structure Batch (c : Cfg) (tr : List PObs) (os : Fd → Flags → Flags) (order : List Fd) (l : List (Event EventExtra)) : Prop where
  /-- one event per reported descriptor -/
  all : ((order.filter (readyNow os (current (history true tr)))).zip l).map Prod.snd = l
  sound : ∀ fd e, (fd, e) ∈ (order.filter (readyNow os (current (history true tr)))).zip l →
    ∃ cu, current (history true tr) fd = some cu ∧ os fd (asks cu) ≠ 0#16 ∧ e = toEvent cu.ev.key (os fd (asks cu))
  complete : ∀ fd cu, current (history true tr) fd = some cu → os fd (asks cu) ≠ 0#16 →
    (fd, toEvent cu.ev.key (os fd (asks cu))) ∈ (order.filter (readyNow os (current (history true tr)))).zip l
  nodup : (((order.filter (readyNow os (current (history true tr)))).zip l).map Prod.fst).Nodup

theorem batch_spec {c P s t os order b l tr} (h : Reach c P s (.round t os order b (.events l) :: tr)) :
    Batch c tr os order l := by
  obtain ⟨s', h'⟩ := reach_tail h
  obtain ⟨hl, h1, _⟩ := round_events_spec h
  have hm := reach_match h'
  simp only [stepSpec] at h1
  split at h1
  · cases h1
  · injection h1 with h1
    subst h1
    have hask : ∀ fd cu, current (history true tr) fd = some cu → ∃ r, mapOf c tr fd = some r ∧ r.ask = asks cu ∧ r.key = cu.ev.key := by
      intro fd cu hc
      have := hm fd
      rw [hc] at this
      rcases id this with ⟨h, _⟩ | ⟨c', x, h1, h2, h3, _⟩
      · cases h
      · obtain rfl := Option.some.inj h1
        rw [h2] at this
        exact ⟨x, h2, this.ask, h3⟩
    have hask' : ∀ fd r, mapOf c tr fd = some r → ∃ cu, current (history true tr) fd = some cu ∧ r.ask = asks cu ∧ r.key = cu.ev.key := by
      intro fd r hc
      have := hm fd
      rw [hc] at this
      rcases id this with ⟨_, h⟩ | ⟨c', x, h1, h2, h3, _⟩
      · cases h
      · obtain rfl := Option.some.inj h2
        rw [h1] at this
        exact ⟨c', h1, this.ask, h3⟩
    have hfst := batch_fst os (mapOf c tr) order
    refine ⟨?_, ?_, ?_, ?_⟩ <;> rw [batch_eq hm]
    · exact batch_snd _ _ _
    · intro fd e he
      obtain ⟨r, h1, h2, h3⟩ := mem_batch he
      obtain ⟨cu, h4, h5, h6⟩ := hask' fd r h1
      exact ⟨cu, h4, h5 ▸ h2, by rw [h3, ← toEvent_report, h5, h6]⟩
    · intro fd cu hc hne
      obtain ⟨r, h1, h2, h3⟩ := hask fd cu hc
      have : fd ∈ (batch os (mapOf c tr) order).map Prod.fst := (batch_mem hl).2 ⟨r, h1, h2 ▸ hne⟩
      rw [List.mem_map] at this
      obtain ⟨⟨fd', e⟩, he, rfl⟩ := this
      obtain ⟨r', h1', _, h3'⟩ := mem_batch he
      rw [h1] at h1'; obtain rfl := Option.some.inj h1'
      rw [← toEvent_report, h2, h3] at h3'
      rw [← h3']; exact he
    · rw [hfst]; exact hl.1.filter _

/-- A property of every delivery of the history follows from one of every batch of the run. -/
theorem everyDelivery_of {c P s b} {tr : List PObs} {Pr : (Fd → Option (Current EventExtra)) → List (Fd × Event EventExtra) → Prop}
    (h : Reach c P s tr)
    (hp : ∀ s t os order n l tr', Reach c P s (.round t os order n (.events l) :: tr') → (∃ later, tr = later ++ .round t os order n (.events l) :: tr') →
      Pr (current (history b tr')) ((order.filter (readyNow os (current (history b tr')))).zip l)) :
    EveryDelivery Pr (history b tr) := by
  induction tr generalizing s with
  | nil => intro later evs earlier he; simp [history] at he
  | cons o tr ih =>
    obtain ⟨s', h'⟩ := reach_tail h
    have ih := ih h' fun s t os order n l tr' hr ⟨later, hl⟩ => hp s t os order n l tr' hr ⟨o :: later, by rw [hl]; rfl⟩
    have hcons : ∃ x, history b (o :: tr) = x :: history b tr ∧
        ∀ evs, x = .deliver evs → ∃ t os order n l, o = .round t os order n (.events l) ∧
          evs = (order.filter (readyNow os (current (history b tr)))).zip l := by
      cases o
      case applied t op r =>
        cases op <;> cases r
        case modify.err fd ev mode e =>
          cases e
          case unsupported =>
            simp only [history]
            refine ⟨_, rfl, ?_⟩
            intro evs he
            split at he <;> cases he
          all_goals exact ⟨_, rfl, fun evs he => (by cases he)⟩
        all_goals exact ⟨_, rfl, fun evs he => (by cases he)⟩
      case round t os order n out =>
        cases out
        case events l => exact ⟨_, rfl, fun evs he => ⟨t, os, order, n, l, rfl, by cases he; rfl⟩⟩
        all_goals exact ⟨_, rfl, fun evs he => (by cases he)⟩
      all_goals exact ⟨_, rfl, fun evs he => (by cases he)⟩
    obtain ⟨x, hx, hd⟩ := hcons
    intro later evs earlier he
    rw [hx] at he
    cases later with
    | nil =>
      injection he with h1 h2
      subst h2
      obtain ⟨t, os, order, n, l, rfl, rfl⟩ := hd evs h1
      exact hp s t os order n l tr h ⟨[], rfl⟩
    | cons y later =>
      injection he with h1 h2
      exact ih later evs earlier h2

/-- The steps in which `poll(2)` gives results that satisfy `Q`. -/
def OsIs (Q : (Fd → Flags → Flags) → Prop) : Act → Prop
  | .waitPoll os => Q os
  | _ => True

/-- The results a thread is evaluating. -/
def osOf : Pc → Option (Fd → Flags → Flags)
  | .wPopAll _ os | .wSwap2 _ os => some os
  | _ => none

theorem wake_osOf (pc : Tid → Pc) (u : Tid) : osOf (wake pc u) = osOf (pc u) := by
  unfold wake; split
  · next h => rw [h]; rfl
  · rfl

theorem reach_os {c Q s tr} (h : Reach c (OsIs Q) s tr) :
    (∀ t os, osOf (s.pc t) = some os → Q os) ∧ ∀ t os order n o, .round t os order n o ∈ tr → Q os := by
  induction h with
  | init => exact ⟨fun t os h => (by cases h), fun t os order n o h => (by cases h)⟩
  | @step s tr t a s' o hr hp hs ih =>
    obtain ⟨ih1, ih2⟩ := ih
    have hn := (step_next hs).2
    have hself : ∀ p, (∀ os, osOf p = some os → Q os) → ∀ u os, osOf (upd s.pc t p u) = some os → Q os := by
      intro p hp u os hu
      unfold upd at hu
      split at hu
      · exact hp os hu
      · exact ih1 u os hu
    have hold := ih1 t
    constructor
    · cases hn
      case notifyAtOnce | waitBusy => exact ih1
      case notifyCv | callCv => intro u os hu; rw [wake_osOf] at hu; exact hself _ (by intro os h; cases h) u os hu
      case waitPollNote => exact hself _ (by intro os h; cases h; exact hp)
      case waitPoll => exact hself _ (by intro os h; cases h; exact hp)
      case waitPopAllMore h _ => exact hself _ (by intro os h'; rw [h] at hold; exact hold os h')
      case waitPopAll h _ => exact hself _ (by intro os h'; rw [h] at hold; exact hold os h')
      all_goals exact hself _ (by intro os h; cases h)
    · intro u os order n o' hm
      rw [List.mem_cons] at hm
      rcases hm with hm | hm
      · cases hn <;> cases hm
        · next h _ _ => rw [h] at hold; exact hold _ rfl
        · next h _ _ => rw [h] at hold; exact hold _ rfl
      · exact ih2 u os order n o' hm

end Polling.PollP
