import Verif.Proof.LiveSeq
import Verif.Proof.KqTaken
import Verif.Props.KqCalls
import Verif.Props.KqDelivery

/-! When an event may be expected (`Spec/Live.lean`), on kqueue: what the visible part of a trace says about the watches. -/

namespace Polling.KqM
open Kqueue KqSpec

/-- The visible part of a call. -/
def view : Call → Option Live.Call
  | .add fd ev mode | .modify fd ev mode => some (.set fd ev.key ev.readable ev.writable mode)
  | .delete fd => some (.delete fd)
  | _ => none

theorem view_begin {t call vc} (h : view call = some vc) : Live.ofKObs (.begin t call) = [.begin t vc] := by
  cases call <;> cases h <;> rfl

theorem view_calling {u call vc} : ∀ tr : List KObs, calling tr u = some call → view call = some vc →
    Live.calling (tr.flatMap Live.ofKObs) u = some vc := by
  intro tr
  induction tr with
  | nil => intro h; cases h
  | cons o tr ih =>
    intro h hv
    cases o with
    | begin t call' =>
      simp only [calling] at h
      split at h
      · next e => cases h; rw [List.flatMap_cons, view_begin hv]; simp [Live.calling, e]
      · next e =>
        have := ih h hv
        cases call' <;> simp [List.flatMap_cons, Live.ofKObs, Live.calling, e, this]
    | ret t call' r =>
      simp only [calling] at h
      split at h
      · cases h
      · next e => have := ih h hv; simp [List.flatMap_cons, Live.ofKObs, Live.calling, e, this]
    | _ =>
      have := ih h hv
      simpa [List.flatMap_cons, Live.ofKObs, Live.calling] using this

theorem calling_later {u call} {base : List KObs} : ∀ m : List KObs, calling (m ++ base) u = some call →
    .begin u call ∈ m ∨ calling base u = some call ∧ ∀ call' r, .ret u call' r ∉ m := by
  intro m
  induction m with
  | nil => intro h; exact .inr ⟨h, by simp⟩
  | cons o m ih =>
    intro h
    cases o with
    | begin t call' =>
      simp only [List.cons_append, calling] at h
      split at h
      · next e => cases h; subst e; exact .inl (by simp)
      · rcases ih h with h | ⟨h, h'⟩
        · exact .inl (by simp [h])
        · exact .inr ⟨h, by simpa using h'⟩
    | ret t call' r =>
      simp only [List.cons_append, calling] at h
      split at h
      · cases h
      · next e =>
        rcases ih h with h | ⟨h, h'⟩
        · exact .inl (by simp [h])
        · refine .inr ⟨h, ?_⟩
          intro c r hm
          rcases List.mem_cons.1 hm with hm | hm
          · injection hm with h1; exact e h1.symm
          · exact h' c r hm
    | _ =>
      rcases ih h with h | ⟨h, h'⟩
      · exact .inl (by simp [h])
      · exact .inr ⟨h, by simpa using h'⟩

/-- The observation is a change of the filter by the thread. -/
def Changes (u : Tid) (f : Filter) (o : KObs) : Prop := (∃ key x y, o = .armed u f key x y) ∨ o = .disarmed u f

/-- A change of a filter of a descriptor is due to a call for the descriptor. -/
theorem changed_by {c P s tr} (h : Reach c P s tr) {t a s' u f fd o} (hs : step c s t a = some (s', o)) (ho : Changes u f o)
    (hf : f = .read fd ∨ f = .write fd) (hi : c.internal f = false) :
    ∃ call vc, calling tr u = some call ∧ view call = some vc ∧ vc.fd = fd := by
  have hn := (step_next hs).2
  cases hn with
  | @change fault w ev todo done errno k hp hfl hr =>
    have hpc := reach_pcOk h t
    rw [hp] at hpc
    have hev : u = t ∧ ev.filter = f := by
      unfold changeObs at ho
      split at ho
      · rcases ho with ⟨_, _, _, ho⟩ | ho <;> cases ho
      · split at ho
        · rcases ho with ⟨_, _, _, ho⟩ | ho
          · cases ho; exact ⟨rfl, rfl⟩
          · cases ho
        · rcases ho with ⟨_, _, _, ho⟩ | ho
          · cases ho
          · cases ho; exact ⟨rfl, rfl⟩
    obtain ⟨rfl, hev⟩ := hev
    have hmem := head_change hpc
    cases w with
    | call call =>
      have hcall := (reach_calls h).calling u
      rw [hp] at hcall
      have hfd : ∀ {g e m}, ev ∈ fdChanges g e m → g = fd := by
        intro g e m hm
        simp only [fdChanges, List.mem_cons, List.not_mem_nil, or_false] at hm
        subst hev
        rcases hm with rfl | rfl <;> rcases hf with hf | hf <;> cases hf <;> rfl
      have hext : ∀ {fl k} (x : Ext), ev ∈ [({ filter := Ext.filter x, flags := fl, udata := k } : KEvent)] → False := by
        intro fl k x hm
        rw [List.mem_singleton] at hm
        subst hm hev
        cases x <;> rcases hf with hf | hf <;> cases hf
      cases call with
      | add g e m => exact ⟨_, _, hcall, rfl, hfd hmem⟩
      | modify g e m => exact ⟨_, _, hcall, rfl, hfd hmem⟩
      | delete g => exact ⟨_, _, hcall, rfl, hfd hmem⟩
      | addFilter x k m => exact (hext x hmem).elim
      | modifyFilter x k m => exact (hext x hmem).elim
      | deleteFilter x => exact (hext x hmem).elim
    | notify => have := own_filter hpc.1 (by intro _ h; cases h) hmem; rw [hev, hi] at this; cases this
    | rearm => have := own_filter hpc.1 (by intro _ h; cases h) hmem; rw [hev, hi] at this; cases this
  | _ => rcases ho with ⟨_, _, _, ho⟩ | ho <;> cases ho

/-- The events taken by a `wait` that has not returned yet. -/
def openK : List KObs → Option (Tid × List KEvent)
  | [] => none
  | .deliver u evs :: _ => some (u, evs)
  | .waitOk _ _ _ :: _ => none
  | .waitErr _ _ :: _ => none
  | _ :: tr => openK tr

/-- The OS fails neither to report a notification nor to re-arm the notifier, and its errors are those documented. -/
def Calm (s : S) (t : Tid) (a : Act) : Prop := Honest s t a ∧ Works s t a

theorem changeObs_open (t : Tid) (ev : KEvent) (errno : Nat) (tr : List KObs) :
    openK (changeObs t ev errno :: tr) = openK tr ∧ ∀ u, taken (changeObs t ev errno :: tr) u = taken tr u := by
  unfold changeObs
  split
  · exact ⟨rfl, fun _ => rfl⟩
  · split <;> exact ⟨rfl, fun _ => rfl⟩

theorem submitResult_ne (l : List KEvent) : submitResult l ≠ .err .interrupted := by
  induction l with
  | nil => nofun
  | cons e l ih =>
    unfold submitResult
    split
    · nofun
    · exact ih

theorem evsAt_inWait {p : Pc} (h : (evsAt p).isSome = true) : inWait p = true := by
  cases p <;> first | rfl | (cases h; done) | skip
  rename_i w _ _
  cases w <;> first | rfl | cases h

theorem reach_openK {c s tr} (h : Reach c Calm s tr) : ∀ {u evs}, openK tr = some (u, evs) →
    (evsAt (s.pc u)).isSome = true ∧ taken tr u = evs := by
  induction h with
  | init => intro u evs h; cases h
  | @step s tr t a s' o hr hp hs ih =>
    intro u evs ho
    have hn := (step_next hs).2
    have hlib := reach_lib hr
    -- steps of other threads
    have other : openK (o :: tr) = openK tr → taken (o :: tr) u = taken tr u → s'.pc u = s.pc u →
        (evsAt (s'.pc u)).isSome = true ∧ taken (o :: tr) u = evs := by
      intro h1 h2 h3
      rw [h1] at ho
      obtain ⟨h4, h5⟩ := ih ho
      rw [h2, h3]; exact ⟨h4, h5⟩
    have self : ∀ {p k src n l}, openK (o :: tr) = openK tr → (∀ v, taken (o :: tr) v = taken tr v) → s' = ⟨k, src, n, l, upd s.pc t p⟩ →
        ((evsAt (s.pc t)).isSome = true → (evsAt p).isSome = true) → (evsAt (s'.pc u)).isSome = true ∧ taken (o :: tr) u = evs := by
      intro p k src n l h1 h2 h3 h4
      by_cases e : u = t
      · subst e h3
        rw [h1] at ho
        obtain ⟨h5, h6⟩ := ih ho
        rw [h2]
        dsimp only
        rw [upd_self]
        exact ⟨h4 h5, h6⟩
      · refine other h1 (h2 u) ?_
        rw [h3]; exact upd_other _ e
    cases hn with
    | reject => exact other rfl rfl rfl
    | panic0 => exact other rfl rfl rfl
    | begin hpc => exact self rfl (fun _ => rfl) rfl (by rw [hpc]; nofun)
    | dup hpc => exact self rfl (fun _ => rfl) rfl (by rw [hpc]; nofun)
    | inserted hpc => exact self rfl (fun _ => rfl) rfl (by rw [hpc]; nofun)
    | missing hpc => exact self rfl (fun _ => rfl) rfl (by rcases hpc with hpc | hpc <;> rw [hpc] <;> nofun)
    | panic hpc => exact self rfl (fun _ => rfl) rfl (by rw [hpc]; nofun)
    | has hpc => exact self rfl (fun _ => rfl) rfl (by rw [hpc]; nofun)
    | removed hpc => exact self rfl (fun _ => rfl) rfl (by rw [hpc]; nofun)
    | ended hpc => exact self rfl (fun _ => rfl) rfl (by rw [hpc]; nofun)
    | wMissing => cases ho
    | wHas => exact self rfl (fun _ => rfl) rfl (fun _ => rfl)
    | @change fault w ev todo done errno k hpc =>
      refine self (changeObs_open ..).1 (changeObs_open ..).2 rfl ?_
      rw [hpc]
      cases w <;> exact id
    | finCall hf => obtain ⟨_, _, hpc⟩ := hf.pc; exact self rfl (fun _ => rfl) rfl (by rw [hpc]; nofun)
    | finDelete hf => obtain ⟨_, _, hpc⟩ := hf.pc; exact self rfl (fun _ => rfl) rfl (by rw [hpc]; nofun)
    | finNotify hf => obtain ⟨_, _, hpc⟩ := hf.pc; exact self rfl (fun _ => rfl) rfl (by rw [hpc]; nofun)
    | finRearm hf => exact self rfl (fun _ => rfl) rfl (fun _ => rfl)
    | rearmRetry hf =>
      exfalso
      generalize hr : Res.err Err.interrupted = r at hf
      cases hf with
      | eval => exact submitResult_ne _ hr.symm
      | fail hpc => have := hp.2; unfold Works at this; rw [hpc] at this; exact this
    | rearmErr => cases ho
    | kevRetry => exact other rfl rfl rfl
    | kevErr => cases ho
    | casSeen => exact other rfl rfl rfl
    | casUser hpc => exact self rfl (fun _ => rfl) rfl (by rw [hpc]; nofun)
    | casPair hpc => exact self rfl (fun _ => rfl) rfl (by rw [hpc]; nofun)
    | writeFail hpc => exact self rfl (fun _ => rfl) rfl (by rw [hpc]; nofun)
    | write hpc => exact self rfl (fun _ => rfl) rfl (by rw [hpc]; nofun)
    | waitBusy => exact other rfl rfl rfl
    | waitBegin hpc hl =>
      obtain ⟨h1, h2⟩ := ih ho
      have := (hlib u).2 (evsAt_inWait h1)
      rw [hl] at this; cases this
    | kevent =>
      cases ho
      dsimp only
      rw [upd_self]
      exact ⟨by cases c.user <;> rfl, by simp [taken]⟩
    | read => exact other rfl rfl rfl
    | readEnd => exact self rfl (fun _ => rfl) rfl (fun _ => rfl)
    | finish => cases ho
    | raise => exact other rfl rfl rfl
    | fall => exact other rfl rfl rfl

/-- A `wait` in the OS has nothing in its buffer. -/
theorem not_open {c s tr} (h : Reach c Calm s tr) {t timed cap} (hpc : s.pc t = .wKev timed cap) : openK tr = none := by
  cases ho : openK tr with
  | none => rfl
  | some x =>
    obtain ⟨u, evs⟩ := x
    obtain ⟨h1, _⟩ := reach_openK h ho
    have h2 := (reach_lib h u).2 (evsAt_inWait h1)
    have h3 := (reach_lib h t).2 (by rw [hpc]; rfl)
    rw [h2] at h3; cases h3
    rw [hpc] at h1; cases h1

/-- What the program was told of the filter since `base`. -/
def Told (m : List KObs) (key : Key) : Prop :=
  .waitErr ∈ m.flatMap Live.ofKObs ∨ ∃ keys, .waitOk keys ∈ m.flatMap Live.ofKObs ∧ key ∈ keys

theorem Told.cons {m key} (o : KObs) (h : Told m key) : Told (o :: m) key := by
  rcases h with h | ⟨keys, h1, h2⟩
  · exact .inl (by rw [List.flatMap_cons]; exact List.mem_append_right _ h)
  · exact .inr ⟨keys, by rw [List.flatMap_cons]; exact List.mem_append_right _ h1, h2⟩

theorem lastArm_later {f : Filter} {x} {base : List KObs} : ∀ m : List KObs, (∃ u key o cl, .armed u f key o cl ∈ m) → lastArm (m ++ base) f = some x →
    ∃ u, .armed u f x.1 x.2.1 x.2.2 ∈ m := by
  intro m
  induction m with
  | nil => rintro ⟨_, _, _, _, h⟩; cases h
  | cons o m ih =>
    rintro ⟨u, key, p, q, hm⟩ hl
    have ih' : (∃ u key o cl, .armed u f key o cl ∈ m) → lastArm (m ++ base) f = some x → ∃ u, .armed u f x.1 x.2.1 x.2.2 ∈ o :: m := by
      intro h1 h2
      obtain ⟨v, hv⟩ := ih h1 h2
      exact ⟨v, List.mem_cons_of_mem _ hv⟩
    cases o with
    | armed v g k' p' q' =>
      simp only [List.cons_append, lastArm] at hl
      split at hl
      · next e => cases hl; subst e; exact ⟨v, by simp⟩
      · next e =>
        refine ih' ⟨u, key, p, q, ?_⟩ hl
        rcases List.mem_cons.1 hm with hm | hm
        · cases hm; exact (e rfl).elim
        · exact hm
    | disarmed v g =>
      simp only [List.cons_append, lastArm] at hl
      split at hl
      · cases hl
      · exact ih' ⟨u, key, p, q, by simpa using hm⟩ hl
    | _ => exact ih' ⟨u, key, p, q, by simpa using hm⟩ hl

/-- If a filter that was armed since `base`, always with the same key, was delivered since it was armed, the program was told, or the
event is in the buffer of a `wait`. -/
theorem fired_told {c : Cfg} (hok : c.Ok) {f : Filter} {key : Key} (hkey : key ≠ NOTIFY_KEY) {base : List KObs} : ∀ (m : List KObs) {s},
    Reach c Calm s (m ++ base) → (∀ u k o cl, .armed u f k o cl ∈ m → k = keyToU64 key) → (∃ u k o cl, .armed u f k o cl ∈ m) →
    ∀ w, watch c.keepMode (m ++ base) f = some w → w.fired = true →
      Told m key ∨ ∃ u evs, openK (m ++ base) = some (u, evs) ∧ ∃ e ∈ evs, e.udata = keyToU64 key := by
  intro m
  induction m with
  | nil => rintro s _ _ ⟨_, _, _, _, h⟩; cases h
  | cons o m ih =>
    intro s h hk ha w hw hf
    obtain ⟨s0, t, a, s1, hr, hp, hs⟩ := reach_split h [] o (m ++ base) rfl
    have hk' : ∀ u k o cl, .armed u f k o cl ∈ m → k = keyToU64 key := fun u k o cl hm => hk u k o cl (List.mem_cons_of_mem _ hm)
    -- observations that matter not
    have go : (∀ u k o' cl, o ≠ .armed u f k o' cl) → ∀ w, watch c.keepMode (m ++ base) f = some w → w.fired = true → Told m key ∨ ∃ u evs, openK (m ++ base) = some (u, evs) ∧ ∃ e ∈ evs, e.udata = keyToU64 key := by
      intro hne w hw hf
      obtain ⟨u, k, p, q, hm⟩ := ha
      refine ih hr hk' ⟨u, k, p, q, ?_⟩ w hw hf
      rcases List.mem_cons.1 hm with hm | hm
      · exact (hne _ _ _ _ hm.symm).elim
      · exact hm
    have pass : (∀ u k o' cl, o ≠ .armed u f k o' cl) → watch c.keepMode (o :: (m ++ base)) f = watch c.keepMode (m ++ base) f →
        openK (o :: (m ++ base)) = openK (m ++ base) →
        Told (o :: m) key ∨ ∃ u evs, openK (o :: (m ++ base)) = some (u, evs) ∧ ∃ e ∈ evs, e.udata = keyToU64 key := by
      intro h1 h2 h3
      rw [List.cons_append, h2] at hw
      rcases go h1 w hw hf with h | h
      · exact .inl (h.cons o)
      · exact .inr (by rw [h3]; exact h)
    cases o with
    | armed u g k x y =>
      by_cases e : f = g
      · subst e
        simp only [List.cons_append, watch, if_true] at hw
        split at hw
        · split at hw <;> cases hw <;> cases hf
        · cases hw; cases hf
      · exact pass (by rintro u' k' o' cl' h; cases h; exact e rfl) (by simp [watch, e]) rfl
    | disarmed u g =>
      by_cases e : f = g
      · subst e; simp [watch] at hw
      · exact pass nofun (by simp [watch, e]) rfl
    | deliver u evs =>
      simp only [List.cons_append, watch, Option.map_eq_some_iff] at hw
      obtain ⟨w0, hw0, hw1⟩ := hw
      split at hw1
      · next hin =>
        right
        refine ⟨u, evs, rfl, ?_⟩
        rw [List.mem_map] at hin
        obtain ⟨e, he, hef⟩ := hin
        refine ⟨e, he, ?_⟩
        obtain ⟨w', hw', _, hu, _⟩ := delivered hr hs he
        obtain ⟨x, y, hl, _⟩ := (watch_lastArm c.keepMode (m ++ base) e.filter).1 w' hw'
        rw [hef] at hl
        obtain ⟨v, k, p, q, hm⟩ := ha
        obtain ⟨v', hv⟩ := lastArm_later m ⟨v, k, p, q, by simpa using hm⟩ hl
        rw [hu]
        exact hk' _ _ _ _ hv
      · next hin =>
        subst hw1
        rcases go nofun w0 hw0 hf with h | ⟨v, evs', h1, _⟩
        · exact .inl (h.cons _)
        · exfalso
          obtain ⟨_, _, timed, cap, _, _, hpc, _⟩ := deliver_inv hs (reach_ki hr)
          rw [not_open hr hpc] at h1; cases h1
    | waitOk u n evs =>
      rcases go nofun w hw hf with h | ⟨v, evs', h1, e, he, hu⟩
      · exact .inl (h.cons _)
      · obtain ⟨h2, h3⟩ := reach_openK hr h1
        have huv : u = v := by
          have hn := (step_next hs).2
          generalize ho : KObs.waitOk u n evs = o at hn
          cases hn with
          | finish hpc =>
            cases ho
            have h4 := (reach_lib hr v).2 (evsAt_inWait h2)
            have h5 := (reach_lib hr _).2 (by rw [hpc]; rfl)
            rw [h4] at h5; cases h5; rfl
          | change => unfold changeObs at ho; split at ho; cases ho; split at ho <;> cases ho
          | _ => cases ho
        subst huv
        obtain ⟨h4, _, h5⟩ := C03.kqueue_returns_taken c hok Calm s (m ++ base) _ n evs h
        rw [h3] at h4 h5
        have hke : (toEvent e).key = key := by
          have := h5 e he
          rw [hu] at this
          simpa [keyToU64] using this
        left
        refine .inr ⟨evs.map Event.key, by simp [Live.ofKObs], ?_⟩
        rw [h4, List.mem_map]
        refine ⟨toEvent e, List.mem_filter.2 ⟨List.mem_map_of_mem he, ?_⟩, hke⟩
        rw [hke]; simpa using hkey
    | waitErr u e => exact .inl (.inl (by simp [Live.ofKObs]))
    | _ => exact pass nofun rfl rfl

theorem ofKObs_begin {o : KObs} {a b t vc} (h : Live.ofKObs o = a ++ .begin t vc :: b) :
    a = [] ∧ b = [] ∧ ∃ call, o = .begin t call ∧ view call = some vc := by
  have hone : ∀ {x : Live.Obs}, [x] = a ++ .begin t vc :: b → a = [] ∧ b = [] ∧ x = .begin t vc := by
    intro x h
    cases a with
    | nil => simp only [List.nil_append, List.cons.injEq] at h; exact ⟨rfl, h.2.symm, h.1⟩
    | cons y a => simp at h
  cases o with
  | begin u call =>
    cases call with
    | add fd ev mode => obtain ⟨h1, h2, h3⟩ := hone h; cases h3; exact ⟨h1, h2, _, rfl, rfl⟩
    | modify fd ev mode => obtain ⟨h1, h2, h3⟩ := hone h; cases h3; exact ⟨h1, h2, _, rfl, rfl⟩
    | delete fd => obtain ⟨h1, h2, h3⟩ := hone h; cases h3; exact ⟨h1, h2, _, rfl, rfl⟩
    | _ => simp [Live.ofKObs] at h
  | ret u call r => obtain ⟨_, _, h3⟩ := hone h; cases h3
  | waitOk u n evs => obtain ⟨_, _, h3⟩ := hone h; cases h3
  | waitErr u e => obtain ⟨_, _, h3⟩ := hone h; cases h3
  | _ => simp [Live.ofKObs] at h

theorem outcome_append (t : Tid) (l : List Live.Obs) : ∀ x : List Live.Obs, Live.outcome t (x ++ l) =
    match Live.outcome t l with
    | some b => some b
    | none => Live.outcome t x := by
  intro x
  induction x with
  | nil => rw [List.nil_append]; cases Live.outcome t l <;> rfl
  | cons o x ih =>
    simp only [List.cons_append, Live.outcome, ih]
    cases Live.outcome t l <;> rfl

theorem outcome_split {t : Tid} : ∀ m : List KObs, Live.outcome t (m.flatMap Live.ofKObs) = some true →
    ∃ n2 call n1, m = n2 ++ .ret t call (.res .ok) :: n1 ∧ ∀ call r, .ret t call r ∉ n1 := by
  have hno : ∀ m : List KObs, Live.outcome t (m.flatMap Live.ofKObs) = none → ∀ call r, .ret t call r ∉ m := by
    intro m
    induction m with
    | nil => intro _ _ _ h; cases h
    | cons o m ih =>
      intro h call r hm
      rw [List.flatMap_cons, outcome_append] at h
      split at h
      · cases h
      · next h' =>
        rcases List.mem_cons.1 hm with rfl | hm
        · simp [Live.ofKObs, Live.outcome] at h
        · exact ih h' call r hm
  intro m
  induction m with
  | nil => intro h; cases h
  | cons o m ih =>
    intro h
    rw [List.flatMap_cons, outcome_append] at h
    split at h
    · next h' =>
      rw [h] at h'
      obtain ⟨n2, call, n1, rfl, h2⟩ := ih h'
      exact ⟨o :: n2, call, n1, rfl, h2⟩
    · next h' =>
      cases o with
      | ret u call r =>
        simp only [Live.ofKObs, Live.outcome] at h
        split at h
        · next e =>
          subst e
          have : r = .res .ok := by simpa using h
          subst this
          exact ⟨[], call, m, rfl, hno m h'⟩
        · cases h
      | begin u call => cases call <;> simp [Live.ofKObs, Live.outcome] at h
      | _ => simp [Live.ofKObs, Live.outcome] at h

theorem ret_calling {c P s tr} (h : Reach c P s tr) {t a s' u call} (hs : step c s t a = some (s', .ret u call (.res .ok))) :
    calling tr u = some call := by
  have hcl := (reach_calls h).calling
  have hn := (step_next hs).2
  generalize ho : KObs.ret u call (.res .ok) = o at hn
  cases hn with
  | finCall hf =>
    cases ho
    obtain ⟨_, _, hpc⟩ := hf.pc
    rw [hcl, hpc]; rfl
  | ended hpc => cases ho; rw [hcl, hpc]; rfl
  | change => unfold changeObs at ho; split at ho; cases ho; split at ho <;> cases ho
  | _ => cases ho

/-- The thread's call is the one it began, as long as it has not returned. -/
theorem still_calling {c P} {t : Tid} {call0 : Call} {m1 : List KObs} : ∀ (q : List KObs) {s}, Reach c P s (q ++ .begin t call0 :: m1) →
    (∀ call r, .ret t call r ∉ q) → calling (q ++ .begin t call0 :: m1) t = some call0 := by
  intro q
  induction q with
  | nil => intro _ _ _; simp [calling]
  | cons o q ih =>
    intro s h hq
    obtain ⟨s0, u, a, s1, hr, _, hs⟩ := reach_split h [] o (q ++ .begin t call0 :: m1) rfl
    have ih := ih hr fun call r hm => hq call r (List.mem_cons_of_mem _ hm)
    cases o with
    | begin v call =>
      have hv : v ≠ t := by
        rintro rfl
        have hn := (step_next hs).2
        generalize ho : KObs.begin v call = o at hn
        cases hn with
        | begin hpc =>
          cases ho
          rw [(reach_calls hr).calling, hpc] at ih; cases ih
        | change => unfold changeObs at ho; split at ho; cases ho; split at ho <;> cases ho
        | _ => cases ho
      simp only [List.cons_append, calling, if_neg hv]; exact ih
    | ret v call r =>
      have hv : v ≠ t := by rintro rfl; exact hq _ _ (List.mem_cons_self ..)
      simp only [List.cons_append, calling, if_neg hv]; exact ih
    | _ => exact ih

theorem undisturbed_of {t : Tid} {f : Filter} {call0 : Call} {m1 : List KObs} : ∀ q : List KObs, (∀ o ∈ q, ∀ u, Changes u f o → u = t) →
    undisturbed (q ++ .begin t call0 :: m1) t f = true := by
  intro q
  induction q with
  | nil => intro _; simp [undisturbed]
  | cons o q ih =>
    intro h
    have ih := ih fun o ho => h o (List.mem_cons_of_mem _ ho)
    have ho := h o (List.mem_cons_self ..)
    cases o with
    | begin u call => simp only [List.cons_append, undisturbed]; split; rfl; exact ih
    | armed u g k x y =>
      simp only [List.cons_append, undisturbed, ih, Bool.and_true]
      by_cases e : g = f
      · subst e; simp [ho u (.inl ⟨k, x, y, rfl⟩)]
      · simp [e]
    | disarmed u g =>
      simp only [List.cons_append, undisturbed, ih, Bool.and_true]
      by_cases e : g = f
      · subst e; simp [ho u (.inr rfl)]
      · simp [e]
    | _ => exact ih

theorem changeLog_mem {t : Tid} {call0 : Call} {m1 : List KObs} : ∀ q : List KObs, ∀ o ∈ changeLog (q ++ .begin t call0 :: m1) t, o ∈ q := by
  intro q
  induction q with
  | nil => intro o h; simp [changeLog] at h
  | cons x q ih =>
    intro o h
    cases x with
    | begin u call =>
      simp only [List.cons_append, changeLog] at h
      split at h
      · cases h
      · exact List.mem_cons_of_mem _ (ih o h)
    | _ =>
      simp only [List.cons_append, changeLog] at h
      split at h
      · rcases List.mem_append.1 h with h | h
        · exact List.mem_cons_of_mem _ (ih o h)
        · rw [List.mem_singleton] at h; subst h; exact List.mem_cons_self ..
      · exact List.mem_cons_of_mem _ (ih o h)

theorem watch_calm {keep : Filter → Bool} {f : Filter} {w : Watch} {base : List KObs} (hw : watch keep base f = some w) : ∀ q : List KObs,
    (∀ o ∈ q, ∀ u, ¬ Changes u f o) → ∃ b, watch keep (q ++ base) f = some { w with fired := b } := by
  intro q
  induction q with
  | nil => intro _; exact ⟨w.fired, hw⟩
  | cons o q ih =>
    intro h
    obtain ⟨b, ih⟩ := ih fun o ho => h o (List.mem_cons_of_mem _ ho)
    have ho := h o (List.mem_cons_self ..)
    cases o with
    | armed u g k x y =>
      have e : f ≠ g := by rintro rfl; exact ho u (.inl ⟨k, x, y, rfl⟩)
      exact ⟨b, by simp only [List.cons_append, watch, if_neg e]; exact ih⟩
    | disarmed u g =>
      have e : f ≠ g := by rintro rfl; exact ho u (.inr rfl)
      exact ⟨b, by simp only [List.cons_append, watch, if_neg e]; exact ih⟩
    | deliver u evs =>
      simp only [List.cons_append, watch, ih, Option.map_some]
      split
      · exact ⟨true, rfl⟩
      · exact ⟨b, rfl⟩
    | _ => exact ⟨b, ih⟩

/-- The filters a program waits for are watched. -/
theorem asked_watch {c : Cfg} (hok : c.Ok) {s tr} (h : Reach c Calm s tr) (hpipe : ∀ t f, .refused t f EPIPE ∉ tr) (hopen : openK tr = none)
    {fd key r w mode} (hask : Live.Asked (tr.flatMap Live.ofKObs) fd key r w mode) {f : Filter}
    (hf : f = .read fd ∧ r = true ∨ f = .write fd ∧ w = true) (hkeep : c.keepMode f = false) :
    c.internal f = false ∧ key ≠ NOTIFY_KEY ∧ ∃ wt, watch c.keepMode tr f = some wt ∧ wt.gone = false ∧ wt.clear = false ∧ wt.key = keyToU64 key := by
  obtain ⟨l2, t, l1, heq, hout, hnob, hnoc, hm⟩ := hask
  obtain ⟨m2, o, m1, a, b, rfl, ho, rfl, rfl⟩ := Live.flatMap_split _ _ _ _ _ heq
  obtain ⟨rfl, rfl, call0, rfl, hv⟩ := ofKObs_begin ho
  clear heq ho
  rw [List.append_nil] at hout hnob hm
  rw [List.nil_append] at hnoc
  have hfd : f = .read fd ∨ f = .write fd := by exact hf.imp (·.1) (·.1)
  have hwant : wants call0 f = some (some (key, mode)) := by
    cases call0 <;> cases hv <;> rcases hf with ⟨rfl, hr⟩ | ⟨rfl, hr⟩ <;> simp [wants, hr]
  -- what is known from the start of the call
  obtain ⟨sb, tb, ab, sb1, hrb, _, hsb⟩ := reach_split h m2 _ m1 rfl
  have hbeg : accessible c call0 = true ∧ reserved call0 = false := by
    have hn := (step_next hsb).2
    generalize ho : KObs.begin t call0 = o at hn
    cases hn with
    | begin hpc hacc hres => cases ho; exact ⟨hacc, hres⟩
    | change => unfold changeObs at ho; split at ho; cases ho; split at ho <;> cases ho
    | _ => cases ho
  have hkey : key ≠ NOTIFY_KEY := by
    have := hbeg.2
    cases call0 <;> cases hv <;> simpa [reserved] using this
  obtain ⟨ev0, hev0, hev0f, _, hev0w⟩ := wants_change hwant
  have hi : c.internal f = false := by rw [← hev0f]; exact (changes_filter hbeg.1 hev0).1
  -- only this call changes the filter
  have own : ∀ p2 o p1 u, m2 = p2 ++ o :: p1 → Changes u f o → u = t ∧ ∀ call r, .ret t call r ∉ p1 := by
    intro p2 o p1 u he hc
    subst he
    obtain ⟨s0, t', a', s1, hr0, _, hs0⟩ := reach_split h p2 o (p1 ++ .begin t call0 :: m1) (by simp)
    obtain ⟨call, vc, h1, h2, h3⟩ := changed_by hr0 hs0 hc hfd hi
    rcases calling_later p1 h1 with h4 | ⟨h4, h5⟩
    · refine (hnob u vc ?_ h3).elim
      exact List.mem_flatMap.2 ⟨.begin u call, by simp [h4], by rw [view_begin h2]; simp⟩
    · simp only [calling] at h4
      split at h4
      · next e => subst e; exact ⟨rfl, h5⟩
      · exact (hnoc u vc (view_calling m1 h4 h2) h3).elim
  -- the call returned
  obtain ⟨n2, call1, n1, rfl, hnoret⟩ := outcome_split m2 hout
  obtain ⟨s0, t', a', s1, hr0, hp0, hs0⟩ := reach_split h n2 (.ret t call1 (.res .ok)) (n1 ++ .begin t call0 :: m1) (by simp)
  have hcall : call1 = call0 := by
    have h1 := ret_calling hr0 hs0
    rw [still_calling n1 hr0 hnoret] at h1
    cases h1; rfl
  subst hcall
  have hr0h : Reach c Honest s0 (n1 ++ .begin t call1 :: m1) := hr0.mono fun _ _ _ h => h.1
  have hund : undisturbed (n1 ++ .begin t call1 :: m1) t f = true := by
    refine undisturbed_of n1 fun o ho u hc => ?_
    obtain ⟨x, y, rfl⟩ := List.append_of_mem ho
    exact (own (n2 ++ .ret t call1 (.res .ok) :: x) o y u (by simp) hc).1
  have hnopipe : .refused t f EPIPE ∉ changeLog (n1 ++ .begin t call1 :: m1) t := by
    intro hm
    exact hpipe t f (by have := changeLog_mem n1 _ hm; simp [this])
  obtain ⟨wt, hw1, hw2, hw3⟩ := ((C21.kqueue_call_takes_effect c s1 _ t call1 (hr0h.step hp0.1 hs0) f _ hwant hund).2 key mode rfl).resolve_right hnopipe
  obtain ⟨hw3, hw4⟩ := hw3 hkeep
  have harm : ∃ u k o cl, .armed u f k o cl ∈ n1 := by
    obtain ⟨rfl, errs, h1, h2, h3, h4⟩ := ret_ok hr0h hs0
    obtain ⟨e, hz⟩ := zip_mem h1 hev0
    obtain ⟨k1, _⟩ := hev0w key mode rfl
    have hmem := zipWith_mem hz t
    rw [← h3] at hmem
    have heff := h4 ev0 e hz (by rw [hev0f]; exact hund)
    have herr : e = 0 ∨ e = ENOENT ∨ e = EPIPE := by
      rw [submitResult_errs _ _ h1] at h2
      split at h2
      · cases h2
      · next hf =>
        rw [List.find?_eq_none] at hf
        have := hf e (List.of_mem_zip hz).2
        simp [serious] at this
        unfold ENOENT EPIPE
        omega
    rcases herr with h | h | h
    · refine ⟨t, ev0.udata, ev0.flags.oneshot, ev0.flags.clear, changeLog_mem n1 _ (call0 := call1) (m1 := m1) (t := t) ?_⟩
      simpa [changeObs, h, k1, hev0f] using hmem
    · exact absurd h (heff.2.2.1 k1)
    · exfalso
      refine hnopipe ?_
      rw [h] at hmem
      simpa [changeObs, EPIPE, hev0f] using hmem
  -- and afterwards
  obtain ⟨b, hb⟩ := watch_calm (q := n2) (base := .ret t call1 (.res .ok) :: (n1 ++ .begin t call1 :: m1)) (w := wt) hw1 (by
    intro o ho u hc
    obtain ⟨x, y, rfl⟩ := List.append_of_mem ho
    exact (own x o (y ++ .ret t call1 (.res .ok) :: n1) u (by simp) hc).2 call1 (.res .ok) (by simp))
  have hb' : watch c.keepMode ((n2 ++ .ret t call1 (.res .ok) :: n1) ++ .begin t call1 :: m1) f = some { wt with fired := b } := by
    simpa using hb
  refine ⟨hi, hkey, _, hb', ?_, ?_, hw2⟩
  · rcases hm with hm | ⟨hm, hm2, hm3⟩
    · subst hm
      have : wt.oneshot = false := hw3
      simp [Watch.gone, this]
    · cases b with
      | false => simp [Watch.gone]
      | true =>
        exfalso
        rcases fired_told hok hkey _ h (by
            intro u k o cl hmem
            obtain ⟨x, y, hxy⟩ := List.append_of_mem hmem
            obtain ⟨rfl, hnr⟩ := own x _ y u hxy (.inl ⟨k, o, cl, rfl⟩)
            rw [hxy] at h
            obtain ⟨s3, t3, a3, s4, hr3, _, hs3⟩ := reach_split h x (.armed u f k o cl) (y ++ .begin u call1 :: m1) (by simp)
            obtain ⟨call, k', m', g1, g2, g3, _⟩ := armed_by hr3 hs3 hi
            rw [still_calling y hr3 hnr] at g1
            cases g1
            rw [hwant] at g2
            cases g2
            exact g3) (by
            obtain ⟨u, k, o, cl, hmem⟩ := harm
            exact ⟨u, k, o, cl, by simp [hmem]⟩) _ hb' rfl with (h1 | ⟨keys, h1, h2⟩) | ⟨u, evs, h1, _⟩
        · exact hm2 h1
        · exact hm3 keys h1 h2
        · rw [hopen] at h1; cases h1
  · rcases hm with hm | ⟨hm, _⟩ <;> subst hm <;> exact hw4

end Polling.KqM
