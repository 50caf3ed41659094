import Verif.Proof.KqDeliver

/-! Registration calls on kqueue: what they change, and what they return. -/

namespace Polling.KqM
open Kqueue KqSpec

/-- The call at a position. -/
def callAt : Pc → Option Call
  | .insert call | .has call | .remove call | .ending call | .submit (.call call) _ _ => some call
  | _ => none

/-- How the log of the changes of a call relates to the position: `pre` were processed, with results `errs`. -/
def LogOk (t : Tid) (log : List KObs) : Pc → Prop
  | .insert _ | .has _ => log = []
  | .submit (.call call) todo done => ∃ pre errs, changes call = pre ++ todo ∧ pre.length = errs.length ∧
      log = List.zipWith (changeObs t) pre errs ∧ done = List.zipWith receipt pre errs
  | .remove call | .ending call => isDelete call = true ∧ ∃ errs, (changes call).length = errs.length ∧
      log = List.zipWith (changeObs t) (changes call) errs ∧ submitResult (List.zipWith receipt (changes call) errs) = .ok
  | _ => True

structure Calls (s : S) (tr : List KObs) : Prop where
  calling : ∀ t, calling tr t = callAt (s.pc t)
  log : ∀ t, LogOk t (changeLog tr t) (s.pc t)

theorem changeObs_calling (t : Tid) (ev : KEvent) (errno : Nat) (tr : List KObs) (u : Tid) :
    calling (changeObs t ev errno :: tr) u = calling tr u := by
  unfold changeObs
  split
  · rfl
  · split <;> rfl

theorem changeObs_log (t : Tid) (ev : KEvent) (errno : Nat) (tr : List KObs) (u : Tid) :
    changeLog (changeObs t ev errno :: tr) u = if t = u then changeLog tr u ++ [changeObs t ev errno] else changeLog tr u := by
  unfold changeObs
  split
  · simp [changeLog, changeBy]
  · split <;> simp [changeLog, changeBy]

theorem next_calls {c s t a s' o} {tr : List KObs} (hn : Next c s t a s' o) (h : Calls s tr) : Calls s' (o :: tr) := by
  -- the step is not one of a call
  have other : ∀ {p : Pc} {o : KObs} {k src n l}, (∀ u, calling (o :: tr) u = calling tr u) →
      (∀ u, changeLog (o :: tr) u = changeLog tr u) → callAt p = callAt (s.pc t) → LogOk t (changeLog tr t) p →
      Calls ⟨k, src, n, l, upd s.pc t p⟩ (o :: tr) := by
    intro p o k src n l h1 h2 h3 h4
    refine ⟨fun u => ?_, fun u => ?_⟩
    · rw [h1, h.calling]
      by_cases e : u = t
      · subst e; dsimp only; rw [upd_self, h3]
      · dsimp only; rw [upd_other _ e]
    · rw [h2]
      by_cases e : u = t
      · subst e; dsimp only; rw [upd_self]; exact h4
      · dsimp only; rw [upd_other _ e]; exact h.log u
  have nothing : ∀ {o : KObs} {k src n l}, (∀ u, calling (o :: tr) u = calling tr u) →
      (∀ u, changeLog (o :: tr) u = changeLog tr u) → Calls ⟨k, src, n, l, s.pc⟩ (o :: tr) := by
    intro o k src n l h1 h2
    exact ⟨fun u => by rw [h1]; exact h.calling u, fun u => by rw [h2]; exact h.log u⟩
  -- a call returns
  have ends : ∀ {call : Call} {r : Ret} {k src n l}, Calls ⟨k, src, n, l, upd s.pc t .out⟩ (.ret t call r :: tr) := by
    intro call r k src n l
    refine ⟨fun u => ?_, fun u => ?_⟩
    · simp only [calling]
      by_cases e : u = t
      · subst e; rw [upd_self]; simp [callAt]
      · rw [upd_other _ e, if_neg (fun h => e h.symm)]; exact h.calling u
    · show LogOk u (changeLog tr u) _
      by_cases e : u = t
      · subst e; dsimp only; rw [upd_self]; trivial
      · dsimp only; rw [upd_other _ e]; exact h.log u
  have rejects : ∀ {call : Call} {r : Ret}, s.pc t = .out → Calls s (.ret t call r :: tr) := by
    intro call r hp
    have := ends (call := call) (r := r) (k := s.k) (src := s.sources) (n := s.notified) (l := s.lib)
    rwa [upd_same _ hp] at this
  have hl := h.log t
  cases hn with
  | reject hp => exact rejects hp
  | panic0 hp => exact rejects hp
  | @begin call hp hacc hr hv =>
    refine ⟨fun u => ?_, fun u => ?_⟩
    · simp only [calling]
      by_cases e : u = t
      · subst e; rw [upd_self]; cases call <;> simp [first, callAt]
      · rw [upd_other _ e, if_neg (fun h => e h.symm)]; exact h.calling u
    · simp only [changeLog]
      by_cases e : u = t
      · subst e; rw [upd_self, if_pos rfl]
        cases call <;> first | rfl | exact ⟨[], [], rfl, rfl, rfl, rfl⟩
      · rw [upd_other _ e, if_neg (fun h => e h.symm)]; exact h.log u
  | dup => exact ends
  | inserted hp => rw [hp] at hl; exact other (fun _ => rfl) (fun _ => rfl) (by rw [hp]; rfl) hl
  | missing => exact ends
  | panic => exact ends
  | has hp =>
    rw [hp] at hl
    refine other (fun _ => rfl) (fun _ => rfl) (by rw [hp]; rfl) ⟨[], [], rfl, rfl, hl, rfl⟩
  | removed hp => rw [hp] at hl; exact other (fun _ => rfl) (fun _ => rfl) (by rw [hp]; rfl) hl
  | ended => exact ends
  | wMissing hp => exact other (fun _ => rfl) (fun _ => rfl) (by rw [hp]; rfl) trivial
  | wHas hp => exact other (fun _ => rfl) (fun _ => rfl) (by rw [hp]; rfl) trivial
  | @change fault w ev todo done errno k hp hf hr =>
    refine ⟨fun u => ?_, fun u => ?_⟩
    · rw [changeObs_calling, h.calling]
      by_cases e : u = t
      · subst e; dsimp only; rw [upd_self, hp]; cases w <;> rfl
      · dsimp only; rw [upd_other _ e]
    · rw [changeObs_log]
      by_cases e : u = t
      · subst e
        rw [if_pos rfl]
        dsimp only; rw [upd_self]
        rw [hp] at hl
        cases w with
        | call call =>
          obtain ⟨pre, errs, h1, h2, h3, h4⟩ := hl
          refine ⟨pre ++ [ev], errs ++ [errno], by simp [h1], by simp [h2], ?_, ?_⟩
          · rw [List.zipWith_append h2, h3]; rfl
          · rw [List.zipWith_append h2, h4]; rfl
        | notify => trivial
        | rearm => trivial
      · rw [if_neg (fun h => e h.symm)]
        dsimp only; rw [upd_other _ e]; exact h.log u
  | finCall => exact ends
  | @finDelete a call hf hd =>
    obtain ⟨done, hp, hok, _⟩ := hf.ok rfl
    rw [hp] at hl
    obtain ⟨pre, errs, h1, h2, h3, h4⟩ := hl
    rw [List.append_nil] at h1
    subst h1
    exact other (fun _ => rfl) (fun _ => rfl) (by rw [hp]; rfl) ⟨hd, errs, h2, h3, h4 ▸ hok⟩
  | finNotify hf => obtain ⟨_, _, hp⟩ := hf.pc; exact other (fun _ => rfl) (fun _ => rfl) (by rw [hp]; rfl) trivial
  | finRearm hf => obtain ⟨_, hp, _⟩ := hf.ok rfl; exact other (fun _ => rfl) (fun _ => rfl) (by rw [hp]; rfl) trivial
  | rearmRetry hf => obtain ⟨_, _, hp⟩ := hf.pc; exact other (fun _ => rfl) (fun _ => rfl) (by rw [hp]; rfl) trivial
  | rearmErr hf => obtain ⟨_, _, hp⟩ := hf.pc; exact other (fun _ => rfl) (fun _ => rfl) (by rw [hp]; rfl) trivial
  | kevRetry => exact nothing (fun _ => rfl) (fun _ => rfl)
  | kevErr hp => exact other (fun _ => rfl) (fun _ => rfl) (by rw [hp]; rfl) trivial
  | casSeen => exact nothing (fun _ => rfl) (fun _ => rfl)
  | casUser hp => exact other (fun _ => rfl) (fun _ => rfl) (by rw [hp]; rfl) trivial
  | casPair hp => exact other (fun _ => rfl) (fun _ => rfl) (by rw [hp]; rfl) trivial
  | writeFail hp => exact other (fun _ => rfl) (fun _ => rfl) (by rw [hp]; rfl) trivial
  | write hp => exact other (fun _ => rfl) (fun _ => rfl) (by rw [hp]; rfl) trivial
  | waitBusy => exact nothing (fun _ => rfl) (fun _ => rfl)
  | waitBegin hp => exact other (fun _ => rfl) (fun _ => rfl) (by rw [hp]; rfl) trivial
  | kevent hp => exact other (fun _ => rfl) (fun _ => rfl) (by rw [hp]; cases c.user <;> rfl) (by cases c.user <;> trivial)
  | read => exact nothing (fun _ => rfl) (fun _ => rfl)
  | readEnd hp => exact other (fun _ => rfl) (fun _ => rfl) (by rw [hp]; rfl) trivial
  | finish hp => exact other (fun _ => rfl) (fun _ => rfl) (by rw [hp]; rfl) trivial
  | raise => exact nothing (fun _ => rfl) (fun _ => rfl)
  | fall => exact nothing (fun _ => rfl) (fun _ => rfl)

theorem reach_calls {c P s tr} (h : Reach c P s tr) : Calls s tr := by
  induction h with
  | init cond =>
    have hpc : ∀ t, (init c cond).pc t = .out := by intro t; unfold init; split <;> rfl
    exact ⟨fun t => by rw [hpc]; rfl, fun t => by rw [hpc]; trivial⟩
  | step hr _ hs ih => exact next_calls (step_next hs).2 ih

/-- The changes of a call concern different filters. -/
theorem changes_nodup (call : Call) : ((changes call).map KEvent.filter).Nodup := by
  cases call <;> simp [changes, fdChanges]

/-! The effect of the changes made so far. -/

/-- The OS gives ENOENT only for a filter that is not watched, and EPIPE only when asked to watch one. -/
def Honest (s : S) (t : Tid) (a : Act) : Prop :=
  match s.pc t, a with
  | .submit (.call _) (ev :: _) _, .change fault => fault ≠ some ENOENT ∧ (fault = some EPIPE → ev.flags.add = true)
  | _, _ => True

/-- What a change with the given result has led to. -/
def Effect (c : Cfg) (tr : List KObs) (ev : KEvent) (errno : Nat) : Prop :=
  (errno = 0 → ev.flags.add = true → ∃ w, watch c.keepMode tr ev.filter = some w ∧ w.key = ev.udata ∧
    (c.keepMode ev.filter = false → w.oneshot = ev.flags.oneshot ∧ w.clear = ev.flags.clear)) ∧
  (ev.flags.add = false → errno = 0 ∨ errno = ENOENT → ∀ w, watch c.keepMode tr ev.filter = some w → w.gone = true) ∧
  (ev.flags.add = true → errno ≠ ENOENT) ∧ (ev.flags.add = false → errno ≠ EPIPE)

/-- The observation does not change the registration of the filter. -/
def calm (f : Filter) : KObs → Bool
  | .armed _ g _ _ _ | .disarmed _ g => g != f
  | _ => true

theorem effect_calm {c tr ev errno} {o : KObs} (ho : calm ev.filter o = true) (h : Effect c tr ev errno) : Effect c (o :: tr) ev errno := by
  have same : ∀ {o : KObs}, watch c.keepMode (o :: tr) ev.filter = watch c.keepMode tr ev.filter → Effect c (o :: tr) ev errno := by
    intro o he; unfold Effect at h ⊢; rw [he]; exact h
  cases o with
  | armed u g =>
    simp only [calm, bne_iff_ne, ne_eq] at ho
    exact same (by simp only [watch]; rw [if_neg (fun e => ho e.symm)])
  | disarmed u g =>
    simp only [calm, bne_iff_ne, ne_eq] at ho
    exact same (by simp only [watch]; rw [if_neg (fun e => ho e.symm)])
  | deliver u evs =>
    obtain ⟨h1, h2, h3⟩ := h
    refine ⟨fun he ha => ?_, fun ha he w hw => ?_, h3⟩
    · obtain ⟨w, hw, g1, g2⟩ := h1 he ha
      simp only [watch, hw, Option.map_some]
      split
      · exact ⟨_, rfl, g1, g2⟩
      · exact ⟨_, rfl, g1, g2⟩
    · simp only [watch, Option.map_eq_some_iff] at hw
      obtain ⟨w', hw', rfl⟩ := hw
      have := h2 ha he w' hw'
      split
      · unfold Watch.gone at this ⊢
        simp only [Bool.and_eq_true] at this ⊢
        exact ⟨this.1, trivial⟩
      · exact this
  | _ => exact same rfl

theorem undisturbed_tail {o : KObs} {tr t f} (hb : ∀ call, o ≠ .begin t call) (h : undisturbed (o :: tr) t f = true) :
    undisturbed tr t f = true ∧ (changeBy t o = true ∨ calm f o = true) := by
  cases o with
  | begin u call =>
    simp only [undisturbed] at h
    split at h
    · next e => exact absurd (by rw [e]) (hb call)
    · exact ⟨h, .inr rfl⟩
  | armed u g =>
    simp only [undisturbed, Bool.and_eq_true, Bool.or_eq_true] at h
    exact ⟨h.2, h.1⟩
  | disarmed u g =>
    simp only [undisturbed, Bool.and_eq_true, Bool.or_eq_true] at h
    exact ⟨h.2, h.1⟩
  | _ => exact ⟨h, .inr rfl⟩

/-- The effects of the processed changes last, as long as no other thread interferes. -/
def Done (c : Cfg) (tr : List KObs) (t : Tid) (pre : List KEvent) (errs : List Nat) : Prop :=
  ∀ ev errno, (ev, errno) ∈ pre.zip errs → undisturbed tr t ev.filter = true → Effect c tr ev errno

/-- As `LogOk`, with the effects. -/
def EffOk (c : Cfg) (tr : List KObs) (t : Tid) : Pc → Prop
  | .submit (.call call) todo done => ∃ pre errs, changes call = pre ++ todo ∧ pre.length = errs.length ∧
      done = List.zipWith receipt pre errs ∧ changeLog tr t = List.zipWith (changeObs t) pre errs ∧ Done c tr t pre errs
  | .remove call | .ending call => ∃ errs, (changes call).length = errs.length ∧
      submitResult (List.zipWith receipt (changes call) errs) = .ok ∧
      changeLog tr t = List.zipWith (changeObs t) (changes call) errs ∧ Done c tr t (changes call) errs
  | _ => True

theorem done_calm {c tr t pre errs} {o : KObs} (hb : ∀ call, o ≠ .begin t call)
    (hc : ∀ f, changeBy t o = true → calm f o = true) (h : Done c tr t pre errs) : Done c (o :: tr) t pre errs := by
  intro ev errno hm hu
  obtain ⟨h1, h2⟩ := undisturbed_tail hb hu
  have hcalm : calm ev.filter o = true := by
    rcases h2 with h2 | h2
    · exact hc _ h2
    · exact h2
  exact effect_calm hcalm (h ev errno hm h1)

theorem effOk_calm {c tr t p} {o : KObs} (hb : ∀ call, o ≠ .begin t call) (hc : changeBy t o = false) (h : EffOk c tr t p) :
    EffOk c (o :: tr) t p := by
  have hlog : changeLog (o :: tr) t = changeLog tr t := by
    cases o with
    | begin u call => simp only [changeLog]; rw [if_neg (fun e => hb call (by rw [e]))]
    | _ => simp only [changeLog, hc, Bool.false_eq_true, if_false]
  have hd : ∀ {pre errs}, Done c tr t pre errs → Done c (o :: tr) t pre errs :=
    fun h => done_calm hb (fun f h => by rw [hc] at h; cases h) h
  cases p with
  | submit w todo done =>
    cases w with
    | call call =>
      obtain ⟨pre, errs, h1, h2, h3, h4, h5⟩ := h
      exact ⟨pre, errs, h1, h2, h3, by rw [hlog]; exact h4, hd h5⟩
    | notify => trivial
    | rearm => trivial
  | remove call =>
    obtain ⟨errs, h1, h2, h3, h4⟩ := h
    exact ⟨errs, h1, h2, by rw [hlog]; exact h3, hd h4⟩
  | ending call =>
    obtain ⟨errs, h1, h2, h3, h4⟩ := h
    exact ⟨errs, h1, h2, by rw [hlog]; exact h3, hd h4⟩
  | _ => trivial

/-- The effect of a change at the time it is made. -/
theorem effect_now {c : Cfg} {s : S} {tr : List KObs} {t fault ev errno k} (hm : ∀ f, c.internal f = false → Match c f (watch c.keepMode tr f) (s.k.knotes f))
    (hi : c.internal ev.filter = false) (had : ev.flags.add = true ∨ ev.flags.delete = true) (hf0 : fault ≠ some 0)
    (hh : fault ≠ some ENOENT ∧ (fault = some EPIPE → ev.flags.add = true)) (hr : Reg c fault s.k ev errno k) :
    Effect c (changeObs t ev errno :: tr) ev errno := by
  have hmf := hm _ hi
  have armedCase : ev.flags.add = true → Effect c (changeObs t ev 0 :: tr) ev 0 := by
    intro ha
    have e : changeObs t ev 0 = .armed t ev.filter ev.udata ev.flags.oneshot ev.flags.clear := by simp [changeObs, ha]
    rw [e]
    refine ⟨fun _ _ => ?_, (fun h => by rw [ha] at h; cases h), fun _ => by decide, fun _ => by decide⟩
    simp only [watch, if_true]
    cases hw : watch c.keepMode tr ev.filter with
    | none => exact ⟨_, rfl, rfl, fun _ => ⟨rfl, rfl⟩⟩
    | some w =>
      dsimp only
      split
      · next hk =>
        refine ⟨_, rfl, rfl, fun hk' => ?_⟩
        rw [hk'] at hk; cases hk
      · exact ⟨_, rfl, rfl, fun _ => ⟨rfl, rfl⟩⟩
  cases hr with
  | fault he =>
    subst he
    have hne0 : errno ≠ 0 := fun e => hf0 (by rw [e])
    refine ⟨fun e => absurd e hne0, fun _ e => ?_, fun _ e => hh.1 (by rw [e]), fun ha e => ?_⟩
    · rcases e with e | e
      · exact absurd e hne0
      · exact absurd (by rw [e]) hh.1
    · have := hh.2 (by rw [e]); rw [this] at ha; cases ha
  | add _ ha => exact armedCase ha
  | addIdle _ ha => exact armedCase ha
  | missing _ ha _ hk =>
    have e : changeObs t ev ENOENT = .refused t ev.filter ENOENT := by simp [changeObs, ENOENT]
    rw [e]
    refine ⟨(fun h => by cases h), fun _ _ w hw => ?_, (fun h => by rw [ha] at h; cases h), fun _ => by decide⟩
    rw [hk] at hmf
    have hw' : watch c.keepMode tr ev.filter = some w := hw
    rw [hw'] at hmf
    exact hmf
  | delete _ ha =>
    have e : changeObs t ev 0 = .disarmed t ev.filter := by simp [changeObs, ha]
    rw [e]
    refine ⟨(fun _ h => by rw [ha] at h; cases h), fun _ _ w hw => ?_, (fun h => by rw [ha] at h; cases h), fun _ => by decide⟩
    simp [watch] at hw
  | nothing _ ha hd =>
    rcases had with h | h
    · rw [ha] at h; cases h
    · rw [hd] at h; cases h

/-- A change of a call by the thread itself. -/
theorem effOk_change {c s t tr call ev todo done fault errno k} (hacc : accessible c call = true)
    (hm : ∀ f, c.internal f = false → Match c f (watch c.keepMode tr f) (s.k.knotes f))
    (hp : s.pc t = .submit (.call call) (ev :: todo) done) (hf0 : fault ≠ some 0) (hh : Honest s t (.change fault))
    (hr : Reg c fault s.k ev errno k) (h : EffOk c tr t (.submit (.call call) (ev :: todo) done)) :
    EffOk c (changeObs t ev errno :: tr) t (.submit (.call call) todo (done ++ [receipt ev errno])) := by
  obtain ⟨pre, errs, h1, h2, h3, h4, h5⟩ := h
  have hmem : ev ∈ changes call := by rw [h1]; simp
  obtain ⟨hi, _, _, had⟩ := changes_filter hacc hmem
  have hnd := changes_nodup call
  rw [h1] at hnd
  simp only [List.map_append, List.map_cons, List.nodup_append, List.mem_cons, List.mem_map] at hnd
  have hb : ∀ call, changeObs t ev errno ≠ .begin t call := by
    intro call hc; unfold changeObs at hc; split at hc; cases hc; split at hc <;> cases hc
  refine ⟨pre ++ [ev], errs ++ [errno], by simp [h1], by simp [h2], ?_, ?_, ?_⟩
  · rw [List.zipWith_append h2, h3]; rfl
  · rw [changeObs_log, if_pos rfl, List.zipWith_append h2, h4]; rfl
  · intro ev' errno' hm' hu
    rw [List.zip_append h2, List.mem_append] at hm'
    rcases hm' with hm' | hm'
    · have hne : ev'.filter ≠ ev.filter := hnd.2.2 _ ⟨ev', (List.of_mem_zip hm').1, rfl⟩ _ (.inl rfl)
      refine effect_calm ?_ (h5 ev' errno' hm' (undisturbed_tail hb hu).1)
      unfold changeObs
      split
      · rfl
      · split <;> simp [calm, Ne.symm hne]
    · simp only [List.zip_cons_cons, List.zip_nil_left, List.mem_cons, List.not_mem_nil, or_false, Prod.mk.injEq] at hm'
      obtain ⟨rfl, rfl⟩ := hm'
      unfold Honest at hh
      rw [hp] at hh
      exact effect_now hm hi had hf0 hh hr

theorem next_effOk {c s t a s' o} {tr : List KObs} (hn : Next c s t a s' o) (hh : Honest s t a) (hpk : ∀ u, PcOk c (s.pc u)) (hcl : Calls s tr)
    (hm : ∀ f, c.internal f = false → Match c f (watch c.keepMode tr f) (s.k.knotes f))
    (h : ∀ u, EffOk c tr u (s.pc u)) : ∀ u, EffOk c (o :: tr) u (s'.pc u) := by
  intro u
  have hu := h u
  by_cases e : u = t
  · subst e
    have hpu := hpk u
    cases hn with
    | reject hp => rw [hp]; trivial
    | panic0 hp => rw [hp]; trivial
    | @begin call hp =>
      dsimp only; rw [upd_self]
      cases call <;> first | trivial | skip
      refine ⟨[], [], rfl, rfl, rfl, by simp [changeLog], ?_⟩
      intro ev errno hm'; cases hm'
    | has hp =>
      rw [hp] at hpu
      dsimp only; rw [upd_self]
      refine ⟨[], [], rfl, rfl, rfl, ?_, ?_⟩
      · have hl := hcl.log u
        rw [hp] at hl
        exact hl
      · intro ev errno hm'; cases hm'
    | @change fault w ev todo done errno k hp hf hr =>
      dsimp only; rw [upd_self]
      cases w with
      | call call =>
        rw [hp] at hu hpu
        exact effOk_change hpu.1 hm hp hf hh (register_reg hr) hu
      | notify => trivial
      | rearm => trivial
    | removed hp => rw [hp] at hu; dsimp only; rw [upd_self]; exact effOk_calm (by intro _ hc; cases hc) rfl hu
    | @finDelete a call hf hd =>
      obtain ⟨done, hp, hok, _⟩ := hf.ok rfl
      dsimp only; rw [upd_self]
      rw [hp] at hu
      obtain ⟨pre, errs, h1, h2, h3, h4, h5⟩ := hu
      rw [List.append_nil] at h1
      subst h1
      exact ⟨errs, h2, h3 ▸ hok, h4, done_calm (by intro _ hc; cases hc) (fun f hc => by cases hc) h5⟩
    | kevRetry hp => rw [hp]; trivial
    | casSeen hp => rw [hp]; trivial
    | waitBusy hp => rw [hp]; trivial
    | read hp => dsimp only; rw [hp]; trivial
    | raise => exact effOk_calm (by intro _ hc; cases hc) rfl hu
    | fall => exact effOk_calm (by intro _ hc; cases hc) rfl hu
    | kevent => dsimp only; rw [upd_self]; cases c.user <;> trivial
    | _ => dsimp only; rw [upd_self]; trivial
  · have hpc : s'.pc u = s.pc u := by
      cases hn <;> first | rfl | (dsimp only; rw [upd_other _ e])
    rw [hpc]
    refine effOk_calm ?_ ?_ hu
    · intro call hc
      subst hc
      generalize ho : KObs.begin u call = o at hn
      cases hn <;> first | (cases ho; done) | skip
      · injection ho with h1 _; exact e h1
      · unfold changeObs at ho; split at ho; cases ho; split at ho <;> cases ho
    · cases hn <;> first | rfl | skip
      unfold changeObs
      split
      · simp [changeBy]; exact fun h => e h.symm
      · split <;> (simp [changeBy]; exact fun h => e h.symm)

theorem reach_effOk {c s tr} (h : Reach c Honest s tr) : ∀ u, EffOk c tr u (s.pc u) := by
  induction h with
  | init cond =>
    have hpc : ∀ t, (init c cond).pc t = .out := by intro t; unfold init; split <;> rfl
    intro u; rw [hpc]; trivial
  | step hr hP hs ih => exact next_effOk (step_next hs).2 hP (reach_pcOk hr) (reach_calls hr) (reach_match hr) ih

end Polling.KqM
