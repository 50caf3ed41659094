import Verif.Proof.LiveKq
import Verif.Proof.PollView

/-! When an event may be expected (`Spec/Live.lean`), on poll: what the visible part of a trace says about the registrations. -/

namespace Polling.PollP
open PollB PollSpec Spec

/-- The descriptor of a call. -/
def opFd : Op → Fd
  | .add fd _ _ | .modify fd _ _ | .delete fd => fd

/-- The visible part of a call. -/
def viewOp : Op → Live.Call
  | .add fd ev mode | .modify fd ev mode => .set fd ev.key ev.readable ev.writable mode
  | .delete fd => .delete fd

theorem viewOp_fd (op : Op) : (viewOp op).fd = opFd op := by cases op <;> rfl

theorem ofPObs_begin (t : Tid) (op : Op) : Live.ofPObs (.callBegin t op) = [.begin t (viewOp op)] := by cases op <;> rfl

/-- What the program was told since. -/
def ToldP (m : List PObs) (key : Key) : Prop :=
  .waitErr ∈ m.flatMap Live.ofPObs ∨ ∃ keys, .waitOk keys ∈ m.flatMap Live.ofPObs ∧ key ∈ keys

theorem ToldP.cons {m key} (o : PObs) (h : ToldP m key) : ToldP (o :: m) key := by
  rcases h with h | ⟨keys, h1, h2⟩
  · exact .inl (by rw [List.flatMap_cons]; exact List.mem_append_right _ h)
  · exact .inr ⟨keys, by rw [List.flatMap_cons]; exact List.mem_append_right _ h1, h2⟩

/-- The registration is the one that the program made; if it was delivered, the program was told or the event is in the buffer of a
`wait`. -/
def Good (m tr : List PObs) (fd : Fd) (key : Key) (r w : Bool) (mode : PollMode) : Prop :=
  ∃ cu, current (history true tr) fd = some cu ∧ cu.ev.key = key ∧ cu.ev.readable = r ∧ cu.ev.writable = w ∧ cu.mode = mode ∧
    (cu.fired = true → ToldP m key ∨ ∃ u l, waitState tr = some (.got u l) ∧ key ∈ l.map Event.key)

/-- How far the call is. -/
structure Prog (t : Tid) (op0 : Op) (fd : Fd) (key : Key) (r w : Bool) (mode : PollMode) (m tr : List PObs) : Prop where
  others : ∀ u op, callState u tr = some (.begun op) → opFd op = fd → u = t ∧ op = op0 ∧ Live.outcome t (m.flatMap Live.ofPObs) = none
  mine : (callState t tr = some (.begun op0) ∧ Live.outcome t (m.flatMap Live.ofPObs) = none) ∨
    ∃ res, ((callState t tr = some (.done res) ∧ Live.outcome t (m.flatMap Live.ofPObs) = none) ∨
        Live.outcome t (m.flatMap Live.ofPObs) = some (res == .ok)) ∧ (res = .ok → Good m tr fd key r w mode)

/-- The `wait` has events and has not returned. -/
def GotKey (tr : List PObs) (key : Key) : Prop := ∃ u l, waitState tr = some (.got u l) ∧ key ∈ l.map Event.key

theorem out_keep {t : Tid} {m : List PObs} {o : PObs} (h : ∀ u b, .ret u b ∈ Live.ofPObs o → u ≠ t) :
    Live.outcome t ((o :: m).flatMap Live.ofPObs) = Live.outcome t (m.flatMap Live.ofPObs) := by
  rw [List.flatMap_cons, KqM.outcome_append]
  have : Live.outcome t (Live.ofPObs o) = none := by
    cases o with
    | callBegin u op => rw [ofPObs_begin]; rfl
    | callEnd u r =>
      have := h u _ (List.mem_singleton.2 rfl)
      simp [Live.ofPObs, Live.outcome, this]
    | _ => rfl
  rw [this]
  cases Live.outcome t (m.flatMap Live.ofPObs) <;> rfl

theorem callState_keep {u : Tid} {o : PObs} {tr : List PObs} (h : ∀ st, callNext u st o = some st) : callState u (o :: tr) = callState u tr := by
  simp only [callState]
  cases callState u tr with
  | none => rfl
  | some st => exact h st

/-- A step that no call notices. -/
theorem Prog.keep {t op0 fd key r w mode m tr} {o : PObs} (h : Prog t op0 fd key r w mode m tr)
    (h1 : ∀ u st, callNext u st o = some st) (h2 : ∀ u b, .ret u b ∉ Live.ofPObs o)
    (h3 : Good m tr fd key r w mode → Good (o :: m) (o :: tr) fd key r w mode) : Prog t op0 fd key r w mode (o :: m) (o :: tr) := by
  have ho := out_keep (t := t) (m := m) (o := o) fun u b hm => (h2 u b hm).elim
  refine ⟨?_, ?_⟩
  · intro u op hu
    rw [callState_keep (h1 u)] at hu
    rw [ho]; exact h.others u op hu
  · rw [callState_keep (h1 t), ho]
    rcases h.mine with h | ⟨res, h4, h5⟩
    · exact .inl h
    · exact .inr ⟨res, h4, fun e => h3 (h5 e)⟩

/-- A step by which nothing is delivered, and the `wait` in progress gets nothing. -/
theorem Good.keep {fd key r w mode m tr} {o : PObs} (h : Good m tr fd key r w mode)
    (h1 : current (history true (o :: tr)) fd = current (history true tr) fd)
    (h2 : ∀ u l, waitState tr = some (.got u l) → key ∈ l.map Event.key → ToldP (o :: m) key ∨ GotKey (o :: tr) key) :
    Good (o :: m) (o :: tr) fd key r w mode := by
  obtain ⟨cu, h3, h4, h5, h6, h7, h8⟩ := h
  refine ⟨cu, by rw [h1, h3], h4, h5, h6, h7, fun hf => ?_⟩
  rcases h8 hf with h | ⟨u, l, h9, h10⟩
  · exact .inl (h.cons _)
  · exact h2 u l h9 h10

theorem got_same {o : PObs} {tr : List PObs} {key : Key} {u l} (h : waitState tr = some (.got u l)) (hk : key ∈ l.map Event.key)
    (hn : waitNext (.got u l) o = some (.got u l)) : GotKey (o :: tr) key := ⟨u, l, by simp [waitState, h, hn], hk⟩

theorem prog {c P} {t : Tid} {op0 : Op} {fd : Fd} {key : Key} {r w : Bool} {mode : PollMode} {m1 : List PObs}
    (hv : viewOp op0 = .set fd key r w mode) (hkey : key ≠ NOTIFY_KEY)
    (hbase : ∀ u op, callState u m1 = some (.begun op) → opFd op ≠ fd) : ∀ (m : List PObs) {s}, Reach c P s (m ++ .callBegin t op0 :: m1) →
    (∀ u call, .begin u call ∈ m.flatMap Live.ofPObs → call.fd ≠ fd) →
    Prog t op0 fd key r w mode m (m ++ .callBegin t op0 :: m1) := by
  intro m
  induction m with
  | nil =>
    intro s h _
    obtain ⟨s', h'⟩ := reach_tail h
    have h1 := reach_call h
    refine ⟨?_, .inl ⟨?_, rfl⟩⟩
    · intro u op hu hf
      simp only [List.nil_append, callState] at hu
      rw [reach_call h' u, Option.bind_some] at hu
      by_cases e : t = u
      · subst e
        simp only [callNext, ne_eq, not_true_eq_false, if_false] at hu
        split at hu
        · cases hu; exact ⟨rfl, rfl, rfl⟩
        · cases hu
      · simp only [callNext, ne_eq, e, not_false_eq_true, if_true] at hu
        exact (hbase u op (by rw [reach_call h' u]; exact hu) hf).elim
    · have h2 := h1 t
      simp only [List.nil_append, callState] at h2 ⊢
      rw [reach_call h' t, Option.bind_some] at h2 ⊢
      simp only [callNext, ne_eq, not_true_eq_false, if_false] at h2 ⊢
      split at h2
      · next e => rw [if_pos e]
      · cases h2
  | cons o m ih =>
    intro s h hno
    rw [List.cons_append] at h
    obtain ⟨s', h'⟩ := reach_tail h
    have hno' : ∀ u call, .begin u call ∈ m.flatMap Live.ofPObs → call.fd ≠ fd := fun u call hm =>
      hno u call (by rw [List.flatMap_cons]; exact List.mem_append_right _ hm)
    have ih := ih h' hno'
    have hw := reach_wait h
    rw [List.cons_append]
    generalize hT : m ++ .callBegin t op0 :: m1 = T at *
    cases o with
    | callBegin u op =>
      have hfd : opFd op ≠ fd := by
        rw [← viewOp_fd]; exact hno u _ (by rw [List.flatMap_cons, ofPObs_begin]; simp)
      have ho := out_keep (t := t) (m := m) (o := .callBegin u op) (by intro v b hm; rw [ofPObs_begin] at hm; simp at hm)
      have hu := reach_call h u
      simp only [callState, reach_call h' u, Option.bind_some, callNext, ne_eq, not_true_eq_false, if_false] at hu
      have hidle : callOf (s'.pc u) = .idle := by
        split at hu
        · assumption
        · cases hu
      refine ⟨?_, ?_⟩
      · intro v op' hv' hf
        rw [ho]
        by_cases e : u = v
        · subst e
          simp only [callState, reach_call h' u, Option.bind_some, callNext, ne_eq, not_true_eq_false, if_false, hidle, if_true] at hv'
          cases hv'
          exact (hfd hf).elim
        · rw [callState_keep (by intro st; simp [callNext, e])] at hv'
          exact ih.others v op' hv' hf
      · rw [ho]
        have hgood : Good m T fd key r w mode → Good (.callBegin u op :: m) (.callBegin u op :: T) fd key r w mode := fun hg =>
          hg.keep rfl fun v l hg' hk => .inr (got_same hg' hk rfl)
        rcases ih.mine with ⟨h1, h2⟩ | ⟨res, h1, h2⟩
        · by_cases e : u = t
          · subst e; rw [reach_call h' u, hidle] at h1; cases h1
          · exact .inl ⟨by rw [callState_keep (by intro st; simp [callNext, e])]; exact h1, h2⟩
        · refine .inr ⟨res, ?_, fun e => hgood (h2 e)⟩
          rcases h1 with ⟨h1, h3⟩ | h1
          · by_cases e : u = t
            · subst e; rw [reach_call h' u, hidle] at h1; cases h1
            · exact .inl ⟨by rw [callState_keep (by intro st; simp [callNext, e])]; exact h1, h3⟩
          · exact .inr h1
    | applied u op res =>
      have ho := out_keep (t := t) (m := m) (o := .applied u op res) (by intro v b hm; cases hm)
      have hu := reach_call h u
      simp only [callState, reach_call h' u, Option.bind_some, callNext, ne_eq, not_true_eq_false, if_false] at hu
      have hbeg : callOf (s'.pc u) = .begun op := by
        split at hu
        · assumption
        · cases hu
      have hbeg' : callState u T = some (.begun op) := by rw [reach_call h' u, hbeg]
      have hdone : callState u (.applied u op res :: T) = some (.done res) := by
        simp [callState, hbeg', callNext]
      refine ⟨?_, ?_⟩
      · intro v op' hv' hf
        rw [ho]
        by_cases e : u = v
        · subst e; rw [hdone] at hv'; cases hv'
        · rw [callState_keep (by intro st; simp [callNext, e])] at hv'
          exact ih.others v op' hv' hf
      · rw [ho]
        by_cases hf : opFd op = fd
        · obtain ⟨rfl, rfl, h3⟩ := ih.others u op hbeg' hf
          refine .inr ⟨res, .inl ⟨hdone, h3⟩, ?_⟩
          rintro rfl
          cases op with
          | add g ev md =>
            cases hv
            exact ⟨⟨ev, mode, false⟩, by simp [history, current], rfl, rfl, rfl, rfl, fun hf => by cases hf⟩
          | modify g ev md =>
            cases hv
            exact ⟨⟨ev, mode, false⟩, by simp [history, current], rfl, rfl, rfl, rfl, fun hf => by cases hf⟩
          | delete g => cases hv
        · have hcur : current (history true (.applied u op res :: T)) fd = current (history true T) fd := by
            have hne : ∀ g, opFd op = g → fd ≠ g := fun g hg e => hf (by rw [hg, e])
            cases op with
            | add g ev md =>
              have := hne g rfl
              cases res with
              | ok => simp [history, current, this]
              | err e => rfl
            | modify g ev md =>
              have := hne g rfl
              cases res with
              | ok => simp [history, current, this]
              | err e =>
                cases e with
                | unsupported =>
                  simp only [history]
                  cases current (history true T) g with
                  | none => rfl
                  | some c => simp [current, this]
                | _ => rfl
            | delete g =>
              have := hne g rfl
              cases res with
              | ok => simp [history, current, this]
              | err e => rfl
          have hgood : Good m T fd key r w mode → Good (.applied u op res :: m) (.applied u op res :: T) fd key r w mode := fun hg =>
            hg.keep hcur fun v l hg' hk => .inr (got_same hg' hk rfl)
          have hop : op ≠ op0 := by
            rintro rfl
            apply hf
            rw [← viewOp_fd, hv]; rfl
          rcases ih.mine with ⟨h1, h2⟩ | ⟨res', h1, h2⟩
          · by_cases e : u = t
            · subst e; rw [hbeg'] at h1; cases h1; exact (hop rfl).elim
            · exact .inl ⟨by rw [callState_keep (by intro st; simp [callNext, e])]; exact h1, h2⟩
          · refine .inr ⟨res', ?_, fun e => hgood (h2 e)⟩
            rcases h1 with ⟨h1, h3⟩ | h1
            · by_cases e : u = t
              · subst e; rw [hbeg'] at h1; cases h1
              · exact .inl ⟨by rw [callState_keep (by intro st; simp [callNext, e])]; exact h1, h3⟩
            · exact .inr h1
    | callEnd u res =>
      have hu := reach_call h u
      simp only [callState, reach_call h' u, Option.bind_some, callNext, ne_eq, not_true_eq_false, if_false] at hu
      have hd : callOf (s'.pc u) = .done res := by
        split at hu
        · assumption
        · cases hu
      have hd' : callState u T = some (.done res) := by rw [reach_call h' u, hd]
      have hidle : callState u (.callEnd u res :: T) = some .idle := by simp [callState, hd', callNext]
      have hgood : Good m T fd key r w mode → Good (.callEnd u res :: m) (.callEnd u res :: T) fd key r w mode := fun hg =>
        hg.keep rfl fun v l hg' hk => .inr (got_same hg' hk rfl)
      have ho : u ≠ t → Live.outcome t ((PObs.callEnd u res :: m).flatMap Live.ofPObs) = Live.outcome t (m.flatMap Live.ofPObs) := by
        intro e
        refine out_keep ?_
        intro v b hm
        simp only [Live.ofPObs, List.mem_singleton] at hm
        cases hm; exact e
      have ho' : ∀ x, Live.outcome t (m.flatMap Live.ofPObs) = some x →
          Live.outcome t ((PObs.callEnd u res :: m).flatMap Live.ofPObs) = some x := by
        intro x hx; rw [List.flatMap_cons, KqM.outcome_append, hx]
      refine ⟨?_, ?_⟩
      · intro v op' hv' hf
        by_cases e : u = v
        · subst e; rw [hidle] at hv'; cases hv'
        · rw [callState_keep (by intro st; simp [callNext, e])] at hv'
          obtain ⟨rfl, h2, h3⟩ := ih.others v op' hv' hf
          exact ⟨rfl, h2, by rw [ho e]; exact h3⟩
      · rcases ih.mine with ⟨h1, h2⟩ | ⟨res', h1, h2⟩
        · by_cases e : u = t
          · subst e; rw [hd'] at h1; cases h1
          · exact .inl ⟨by rw [callState_keep (by intro st; simp [callNext, e])]; exact h1, by rw [ho e]; exact h2⟩
        · refine .inr ⟨res', ?_, fun e => hgood (h2 e)⟩
          rcases h1 with ⟨h1, h3⟩ | h1
          · by_cases e : u = t
            · subst e; rw [hd'] at h1; cases h1
              right
              rw [List.flatMap_cons, KqM.outcome_append, h3]
              simp [Live.ofPObs, Live.outcome]
            · exact .inl ⟨by rw [callState_keep (by intro st; simp [callNext, e])]; exact h1, by rw [ho e]; exact h3⟩
          · exact .inr (ho' _ h1)
    | round u os order b out =>
      refine ih.keep (fun _ _ => rfl) (by intro _ _ hm; cases hm) fun hg => ?_
      obtain ⟨st, hst, _⟩ := hw
      obtain ⟨st0, hst0, _⟩ := reach_wait h'
      simp only [waitState, hst0, Option.bind_some] at hst
      have hwaiting : st0 = .waiting u := by
        cases out with
        | res => cases hst
        | again => simp only [waitNext] at hst; split at hst; assumption; cases hst
        | events l => simp only [waitNext] at hst; split at hst; assumption; cases hst
      subst hwaiting
      cases out with
      | res r' => cases hst
      | again => exact hg.keep rfl fun v l hg' _ => by rw [hst0] at hg'; cases hg'
      | events l =>
        have hb := batch_spec h
        obtain ⟨cu, h3, h4, h5, h6, h7, h8⟩ := hg
        refine ⟨_, by simp only [history, current, h3, Option.map_some]; rfl, ?_⟩
        split
        · next hin =>
          refine ⟨h4, h5, h6, h7, fun _ => .inr ⟨u, l, by simp [waitState, hst0, waitNext], ?_⟩⟩
          rw [List.mem_map] at hin
          obtain ⟨⟨g, e⟩, hm, hg⟩ := hin
          cases hg
          obtain ⟨cu', hc', _, he⟩ := hb.sound _ e hm
          rw [h3] at hc'; cases hc'
          refine List.mem_map.2 ⟨e, ?_, by rw [he, ← h4]; rfl⟩
          have := List.mem_map_of_mem (f := Prod.snd) hm
          rw [hb.all] at this
          exact this
        · refine ⟨h4, h5, h6, h7, fun hf => ?_⟩
          rcases h8 hf with h | ⟨v, l', h9, _⟩
          · exact .inl (h.cons _)
          · rw [hst0] at h9; cases h9
    | waitOk u n evs =>
      refine ih.keep (fun _ _ => rfl) (by intro _ _ hm; simp [Live.ofPObs] at hm) fun hg => hg.keep rfl fun v l hg' hk => .inl ?_
      obtain ⟨st, hst, _⟩ := hw
      simp only [waitState, hg', Option.bind_some, waitNext] at hst
      split at hst
      · next e =>
        refine .inr ⟨evs.map Event.key, by simp [Live.ofPObs], ?_⟩
        rw [e.2.2]
        obtain ⟨ev, he, rfl⟩ := List.mem_map.1 hk
        exact List.mem_map_of_mem (List.mem_filter.2 ⟨he, by simpa using hkey⟩)
      · cases hst
    | waitErr u e =>
      exact ih.keep (fun _ _ => rfl) (by intro _ _ hm; simp [Live.ofPObs] at hm) fun hg => hg.keep rfl fun v l hg' hk =>
        .inl (.inl (by simp [Live.ofPObs]))
    | waitBegin u =>
      refine ih.keep (fun _ _ => rfl) (by intro _ _ hm; cases hm) fun hg => hg.keep rfl fun v l hg' hk => ?_
      obtain ⟨st, hst, _⟩ := hw
      simp [waitState, hg', waitNext] at hst
    | polled u tb =>
      refine ih.keep (fun _ _ => rfl) (by intro _ _ hm; cases hm) fun hg => hg.keep rfl fun v l hg' hk => ?_
      obtain ⟨st, hst, _⟩ := hw
      simp [waitState, hg', waitNext] at hst
    | pollFailed u =>
      refine ih.keep (fun _ _ => rfl) (by intro _ _ hm; cases hm) fun hg => hg.keep rfl fun v l hg' hk => ?_
      obtain ⟨st, hst, _⟩ := hw
      simp [waitState, hg', waitNext] at hst
    | waitBusy u =>
      exact ih.keep (fun _ _ => rfl) (by intro _ _ hm; cases hm) fun hg => hg.keep rfl fun v l hg' hk =>
        .inr (got_same hg' hk (by simp [waitNext]))
    | _ =>
      exact ih.keep (fun _ _ => rfl) (by intro _ _ hm; cases hm) fun hg => hg.keep rfl fun v l hg' hk => .inr (got_same hg' hk rfl)

theorem ofPObs_cut {o : PObs} {a b t vc} (h : Live.ofPObs o = a ++ .begin t vc :: b) :
    a = [] ∧ b = [] ∧ ∃ op, o = .callBegin t op ∧ viewOp op = vc := by
  have hone : ∀ {x : Live.Obs}, [x] = a ++ .begin t vc :: b → a = [] ∧ b = [] ∧ x = .begin t vc := by
    intro x h
    cases a with
    | nil => simp only [List.nil_append, List.cons.injEq] at h; exact ⟨rfl, h.2.symm, h.1⟩
    | cons y a => simp at h
  cases o with
  | callBegin u op =>
    rw [ofPObs_begin] at h
    obtain ⟨h1, h2, h3⟩ := hone h
    cases h3; exact ⟨h1, h2, _, rfl, rfl⟩
  | callEnd u r => obtain ⟨_, _, h3⟩ := hone h; cases h3
  | waitOk u n evs => obtain ⟨_, _, h3⟩ := hone h; cases h3
  | waitErr u e => obtain ⟨_, _, h3⟩ := hone h; cases h3
  | _ => simp [Live.ofPObs] at h

theorem calling_view {u : Tid} {op : Op} : ∀ tr : List PObs, callState u tr = some (.begun op) →
    Live.calling (tr.flatMap Live.ofPObs) u = some (viewOp op) := by
  intro tr
  induction tr with
  | nil => intro h; cases h
  | cons o tr ih =>
    intro h
    simp only [callState, Option.bind_eq_some_iff] at h
    obtain ⟨st, h1, h2⟩ := h
    cases o with
    | callBegin v op' =>
      rw [List.flatMap_cons, ofPObs_begin, List.singleton_append]
      by_cases e : v = u
      · subst e
        simp only [callNext, ne_eq, not_true_eq_false, if_false] at h2
        split at h2 <;> cases h2
        simp [Live.calling]
      · simp only [callNext, ne_eq, e, not_false_eq_true, if_true] at h2
        cases h2
        simp only [Live.calling, if_neg e]
        exact ih h1
    | applied v op' r =>
      by_cases e : v = u
      · subst e
        simp only [callNext, ne_eq, not_true_eq_false, if_false] at h2
        split at h2 <;> cases h2
      · simp only [callNext, ne_eq, e, not_false_eq_true, if_true] at h2
        cases h2
        exact ih h1
    | callEnd v r =>
      by_cases e : v = u
      · subst e
        simp only [callNext, ne_eq, not_true_eq_false, if_false] at h2
        split at h2 <;> cases h2
      · simp only [callNext, ne_eq, e, not_false_eq_true, if_true] at h2
        cases h2
        rw [List.flatMap_cons]
        simp only [Live.ofPObs, List.singleton_append, Live.calling, if_neg e]
        exact ih h1
    | waitOk v n evs => cases h2; simpa [List.flatMap_cons, Live.ofPObs, Live.calling] using ih h1
    | waitErr v e => cases h2; simpa [List.flatMap_cons, Live.ofPObs, Live.calling] using ih h1
    | _ => cases h2; exact ih h1

/-- What the program asked for is registered, and was not delivered if it is one-shot. -/
theorem asked_current {c P s tr} (h : Reach c P s tr) (hg : ∀ u l, waitState tr ≠ some (.got u l)) {fd key r w mode}
    (hask : Live.Asked (tr.flatMap Live.ofPObs) fd key r w mode) :
    key ≠ NOTIFY_KEY ∧ ∃ cu, current (history true tr) fd = some cu ∧ cu.ev.key = key ∧ cu.ev.readable = r ∧ cu.ev.writable = w ∧
      cu.mode = mode ∧ (mode = .level ∨ cu.fired = false) := by
  obtain ⟨l2, t, l1, htr, hout, hb, hc, hm⟩ := hask
  obtain ⟨m2, o, m1, a, b, rfl, ho, rfl, rfl⟩ := Live.flatMap_split _ _ _ _ _ htr
  obtain ⟨rfl, rfl, op0, rfl, hv⟩ := ofPObs_cut ho
  simp only [List.append_nil, List.nil_append] at *
  have hkey : key ≠ NOTIFY_KEY := by
    obtain ⟨s1, h1⟩ := reach_suffix h
    cases h1 with
    | step _ _ hs =>
      have hn := (step_next hs).2
      cases hn with
      | callBegin _ _ ha =>
        cases op0 with
        | add g ev md => cases hv; simp only [acceptable, Bool.and_eq_true, bne_iff_ne] at ha; exact ha.1
        | modify g ev md => cases hv; simp only [acceptable, Bool.and_eq_true, bne_iff_ne] at ha; exact ha.1
        | delete g => cases hv
  have hp := prog hv hkey (fun u op hu => by rw [← viewOp_fd]; exact hc u _ (calling_view m1 hu)) m2 h hb
  refine ⟨hkey, ?_⟩
  rcases hp.mine with ⟨_, h2⟩ | ⟨res, h1, h2⟩
  · rw [hout] at h2; cases h2
  · have hres : res = .ok := by
      rcases h1 with ⟨_, h1⟩ | h1
      · rw [hout] at h1; cases h1
      · rw [hout] at h1
        simpa using (Option.some.inj h1).symm
    obtain ⟨cu, h3, h4, h5, h6, h7, h8⟩ := h2 hres
    refine ⟨cu, h3, h4, h5, h6, h7, ?_⟩
    rcases hm with hm | ⟨_, hm1, hm2⟩
    · exact .inl hm
    · refine .inr ?_
      cases hf : cu.fired with
      | false => rfl
      | true =>
        exfalso
        rcases h8 hf with (h | ⟨keys, h9, h10⟩) | ⟨u, l, h9, _⟩
        · exact hm1 h
        · exact hm2 keys h9 h10
        · exact hg u l h9

end Polling.PollP
