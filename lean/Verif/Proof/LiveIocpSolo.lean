import Verif.Proof.LiveIocp
import Verif.Proof.IocpSolo
import Verif.Props.IocpSync

/-! IOCP: the thread inside `wait`, running alone, hands out the event of a completed operation.  Helpers for C58. -/

namespace Polling.IocpM
open Iocp IocpSpec

/-- How the thread inside `wait` moves by itself, apart from processing completions and returning. -/
inductive Move : Phase → Phase → Prop
  | top {timed cap w} : Move (.top timed cap) (.start w)
  | start {w w'} : Move (.start w) (.pop w')
  | pop {w q} : Move (.pop w) (.upd w q)
  | upd {w q} : Move (.upd w q) (.pop w)
  | port {w} : Move (.pop w) (.port w)
  | get {w b} : Move (.port w) (.unpoll w b)
  | unpoll {w b} : Move (.unpoll w b) (.feed w b)
  | fin {w} : Move (.feed w []) (.fin w.evs)
  | again {w} (h : w.newEvents = 0) : Move (.feed w []) (.start w)
  | feedUpd {w b u u' ev} : Move (.feedUpd w b u ev) (.feedUpd w b u' ev)
  | fed {w b u ev} : Move (.feedUpd w b u ev) (.feed (addEvent w ev) b)

/-- What a step of the thread inside `wait` is. -/
inductive OwnNext (s : S) : S → IObs → Prop
  | move {s' o} (hpk : s'.c.pk = s.c.pk ∨ ∃ q, s'.c.pk = (update none s.c q).2.1.pk) (ho : UObs o) (hpc : s'.pc = s.pc)
      (hm : Move s.phase s'.phase) : OwnNext s s' o
  | pass {w p b s'} (hph : s.phase = .feed w (p :: b)) (hc : s'.c = (feed s.c p).2) (hpc : s'.pc = s.pc)
      (hf : (feed s.c p).1 = .noEvent ∨ (feed s.c p).1 = .notified) (hph' : ∃ x, s'.phase = .feed { w with notified := x } b) : OwnNext s s' .tau
  | custom {w p b s' ev} (hph : s.phase = .feed w (p :: b)) (hc : s'.c = (feed s.c p).2) (hpc : s'.pc = s.pc)
      (hf : (feed s.c p).1 = .custom ev) (hph' : s'.phase = .feed (addEvent w (some ev)) b) : OwnNext s s' (.received p ev)
  | event {w p b s' k fd ev o} (hph : s.phase = .feed w (p :: b)) (hc : s'.c = (feed s.c p).2) (hpc : s'.pc = s.pc)
      (hf : (feed s.c p).1 = .update k fd ev) (hph' : s'.phase = .feedUpd w b (.load p) ev)
      (ho : o = match ev with | some ev => .deliver k fd p ev | none => .tau) : OwnNext s s' o
  | fin {evs s'} (hph : s.phase = .fin evs) (hph' : s'.phase = .idle) : OwnNext s s' (.waitOk (visible evs).length (visible evs))

/-- Not on the way out with an error. -/
def Phase.fine : Phase → Prop
  | .fail _ _ | .drain _ _ _ => False
  | _ => True

theorem update_ok_eq {c q r c' m} (h : ident (c.pk q) ≠ none) (hu : update none c q = (r, c', m)) : r = .ok ∧ c' = (update none c q).2.1 := by
  have := update_ok h
  rw [hu] at this ⊢; exact ⟨this, rfl⟩

/-- The packets after a step of `update_packet`. -/
theorem ustep_pk {c u c' out o} (h : ustep none c u = (c', out, o)) : c'.pk = c.pk ∨ ∃ q, c'.pk = (update none c q).2.1.pk := by
  cases u with
  | load p => simp only [ustep] at h; cases h; exact .inl rfl
  | run p => simp only [ustep] at h; cases h; exact .inr ⟨p, rfl⟩
  | push p => simp only [ustep] at h; split at h <;> (cases h; exact .inl rfl)
  | pop p n => simp only [ustep] at h; split at h <;> (cases h; exact .inl rfl)
  | drain p n q => simp only [ustep] at h; cases h; exact .inr ⟨q, rfl⟩

theorem own_next {n s tr a s' o} (hr : Reach n Any s tr) (hfine : s.phase.fine) (ha : Own a) (hs : step n s a = some (s', o)) :
    OwnNext s s' o := by
  cases a with
  | wait fault =>
    cases fault with
    | some e => exact absurd ha id
    | none =>
      simp only [step, goWait] at hs
      split at hs
      · rename_i hph; cases hs; exact .move (.inl rfl) trivial rfl (by rw [hph]; exact .top)
      · rename_i hph; cases hs; exact .move (.inl rfl) trivial rfl (by rw [hph]; exact .start)
      · rename_i hph; split at hs
        · cases hs; exact .move (.inl rfl) trivial rfl (by rw [hph]; exact .pop)
        · cases hs; exact .move (.inl rfl) trivial rfl (by rw [hph]; exact .port)
      · rename_i w q hph
        have hok := update_ok (reach_holder hr q (.inr (.inr (by rw [hph]; rfl))))
        split at hs
        · rename_i c m hu; cases hs
          exact .move (.inr ⟨q, by rw [hu]⟩) (uobs_updateObs _ _) rfl (by rw [hph]; exact .upd)
        · rename_i e c m hu; rw [hu] at hok; cases hok
      · rename_i hph; cases hs; exact .move (.inl rfl) trivial rfl (by rw [hph]; exact .unpoll)
      · rename_i hph; rw [hph] at hfine; exact absurd hfine id
      · rename_i hph; rw [hph] at hfine; exact absurd hfine id
      · rename_i hph; rw [hph] at hfine; exact absurd hfine id
      · rename_i w p batch hph
        have hns := feed_not_stuck hr p
        split at hs
        · rename_i c hf; cases hs; exact .pass hph (by rw [hf]) rfl (by rw [hf]; exact .inl rfl) ⟨_, rfl⟩
        · rename_i c hf; cases hs; exact .pass hph (by rw [hf]) rfl (by rw [hf]; exact .inr rfl) ⟨_, rfl⟩
        · rename_i ev c hf; cases hs; exact .custom hph (by rw [hf]) rfl (by rw [hf]) rfl
        · rename_i c hf; rw [hf] at hns; exact absurd rfl hns
        · rename_i k fd ev c hf; cases hs; exact .event hph (by rw [hf]) rfl (by rw [hf]) rfl (by cases ev <;> rfl)
      · rename_i w batch u ev hph
        rw [coherent_none] at hs
        split at hs
        · rename_i hu; cases hs; exact .move (ustep_pk hu) (uobs_ustep hu) rfl (by rw [hph]; exact .feedUpd)
        · rename_i hu; cases hs; exact .move (ustep_pk hu) (uobs_ustep hu) rfl (by rw [hph]; exact .fed)
        · rename_i hu
          exact (ustep_accepts calm_none (fun x hx => reach_holder hr x (.inr (.inr (by rw [hph]; exact hx)))) hu).elim
      · rename_i hph; cases hs; exact .fin hph rfl
      · cases hs
  | get =>
    simp only [step] at hs
    split at hs
    · rename_i hph; split at hs
      · cases hs; exact .move (.inl rfl) trivial rfl (by rw [hph]; exact .get)
      · cases hs
    · cases hs
  | decide e =>
    cases e with
    | true => exact absurd ha id
    | false =>
      simp only [step] at hs
      split at hs
      · rename_i w hph; split at hs
        · cases hs; exact .move (.inl rfl) trivial rfl (by rw [hph]; exact .fin)
        · rename_i hd; cases hs
          exact .move (.inl rfl) trivial rfl (by rw [hph]; exact .again (by
            have : ¬ w.newEvents > 0 := fun h => hd (.inr (.inl h))
            omega))
      · cases hs
  | _ => exact absurd ha id

theorem OwnNext.fine {s s' o} (h : OwnNext s s' o) : s'.phase.fine := by
  cases h with
  | move _ _ _ hm =>
    generalize s.phase = x, s'.phase = y at hm
    cases hm <;> trivial
  | pass _ _ _ _ hph' => obtain ⟨x, h⟩ := hph'; rw [h]; trivial
  | custom _ _ _ _ hph' => rw [hph']; trivial
  | event _ _ _ _ hph' => rw [hph']; trivial
  | fin _ hph' => rw [hph']; trivial

/-- Until it returns, the program sees nothing of it, and registrations stay. -/
theorem solo_quiet {n s tr obs s'} (h : Solo n s obs s') (hr : Reach n Any s tr) (hfine : s.phase.fine) :
    (s'.phase.fine ∧ obs.flatMap Live.ofIObs = [] ∧ .waitAgain ∉ obs ∧ ∀ tr, registered (obs ++ tr) = registered tr) ∨ Returns n s := by
  induction h generalizing tr with
  | refl => exact .inl ⟨hfine, rfl, nofun, fun _ => rfl⟩
  | @step s a s1 o obs s2 ha hs hrest ih =>
    have hn := own_next hr hfine ha hs
    have hfine1 := hn.fine
    have go : Live.ofIObs o = [] → o ≠ .waitAgain → (∀ tr, registered (o :: tr) = registered tr) →
        (s2.phase.fine ∧ (obs ++ [o]).flatMap Live.ofIObs = [] ∧ .waitAgain ∉ obs ++ [o] ∧ ∀ tr, registered (obs ++ [o] ++ tr) = registered tr) ∨
        Returns n s := by
      intro h1 h2 h3
      rcases ih (hr.step trivial hs) hfine1 with ⟨g1, g2, g3, g4⟩ | g
      · refine .inl ⟨g1, by rw [List.flatMap_append, g2]; simp [h1], ?_, fun tr => ?_⟩
        · intro hm
          rcases List.mem_append.1 hm with hm | hm
          · exact g3 hm
          · exact h2 (List.mem_singleton.1 hm).symm
        · rw [List.append_assoc, g4]; exact h3 tr
      · exact .inr (.after (.one ha hs) g)
    cases hn with
    | move _ ho =>
      refine go (uobs_view ho) (by rintro rfl; exact ho) (fun tr => ?_)
      cases o <;> first | rfl | exact absurd ho id
    | pass => exact go rfl nofun (fun _ => rfl)
    | custom => exact go rfl nofun (fun _ => rfl)
    | event hph hc hpc hf hph' ho =>
      rename_i ev
      subst ho
      cases ev <;> exact go rfl nofun (fun _ => rfl)
    | fin hph _ => exact .inr (solo_fin hph)

/-- No cancellation of the operation of `p` is on its way, and none will be asked for as long as nobody changes the interest. -/
def Steady (pk : PId → Pkt) (p : PId) : Prop :=
  ∃ k, pk p = .socket k ∧ ∀ m c, k.op = .inFlight m c → c = false ∧ k.status = .polling k.mask

theorem steady_upd {c : Core} {p : PId} (q : PId) (h : Steady c.pk p) : Steady (update none c q).2.1.pk p := by
  obtain ⟨k, hk, hop⟩ := h
  by_cases e : q = p
  · subst e
    refine ⟨(updateSock none k).2.1, by rw [update_pkt, hk], ?_⟩
    unfold updateSock startPoll
    split
    · exact hop
    split
    · rename_i flags hst
      split
      · rename_i hne
        intro m c h
        have h : k.op.cancel = .inFlight m c := h
        cases hk' : k.op with
        | inFlight m' c' =>
          have := (hop m' c' hk').2
          rw [hst] at this; cases this
          exact absurd rfl hne
        | none => rw [hk'] at h; cases h
        | done r => rw [hk'] at h; cases h
      · exact hop
    · exact hop
    · rename_i hst
      have hno : ∀ m c, k.op ≠ .inFlight m c := fun m c h => by have := (hop m c h).2; rw [hst] at this; cases this
      dsimp only
      split
      · intro m c h; exact (hno m c h).elim
      · intro m c h; cases h; exact ⟨rfl, rfl⟩
  · refine ⟨k, ?_, hop⟩
    rw [(update_frame none c q).2.2.2.2.2 p (fun h => e h.symm), hk]

theorem steady_feed {c : Core} {p : PId} (q : PId) (h : Steady c.pk p) : Steady (feed c q).2.pk p := by
  obtain ⟨k, hk, hop⟩ := h
  by_cases e : q = p
  · subst e
    have hfil : ∀ ev, (filterEvent k.taken ev).1.op = .none := by
      intro ev; unfold filterEvent; dsimp only; repeat' split
      all_goals rfl
    rcases feed_cases c q with ⟨s, r, e1, e2, e3, e4⟩ | ⟨s, r, e1, e2, e3, e4, e5⟩ | ⟨s, r, e1, e2, e3, e4, e5⟩ | ⟨w, e1, e5⟩ | ⟨e, e1, e2⟩ |
      ⟨e1, e2⟩ | ⟨e1, e2⟩
    · rw [e4]; exact ⟨_, setPk_self _ _ _, nofun⟩
    · rw [e5]; exact ⟨_, setPk_self _ _ _, nofun⟩
    · rw [hk] at e1; cases e1
      rw [e5]
      refine ⟨_, setPk_self _ _ _, fun m c h => ?_⟩
      rw [hfil] at h; cases h
    · rw [hk] at e1; cases e1
    · rw [hk] at e1; cases e1
    · rw [hk] at e1; cases e1
    · rw [e2]; exact ⟨k, hk, hop⟩
  · exact ⟨k, by rw [(feed_frame c q).2.2.2.2.2 p (fun h => e h.symm), hk], hop⟩

theorem solo_steady {n s tr obs s' p} (h : Solo n s obs s') (hr : Reach n Any s tr) (hfine : s.phase.fine) (hst : Steady s.c.pk p) :
    Steady s'.c.pk p ∨ Returns n s := by
  induction h generalizing tr with
  | refl => exact .inl hst
  | @step s a s1 o obs s2 ha hs hrest ih =>
    have hn := own_next hr hfine ha hs
    have go : Steady s1.c.pk p → Steady s2.c.pk p ∨ Returns n s := by
      intro h1
      rcases ih (hr.step trivial hs) hn.fine h1 with g | g
      · exact .inl g
      · exact .inr (.after (.one ha hs) g)
    cases hn with
    | move hpk =>
      rcases hpk with hpk | ⟨q, hpk⟩
      · exact go (by rw [hpk]; exact hst)
      · exact go (by rw [hpk]; exact steady_upd q hst)
    | pass _ hc => exact go (by rw [hc]; exact steady_feed _ hst)
    | custom _ hc => exact go (by rw [hc]; exact steady_feed _ hst)
    | event _ hc => exact go (by rw [hc]; exact steady_feed _ hst)
    | fin hph _ => exact .inr (solo_fin hph)

/-- The operation of the socket `p` is complete with a result its interest asks for. -/
def Done (pk : PId → Pkt) (p : PId) (key : Key) : Prop :=
  ∃ k r, pk p = .socket k ∧ k.op = .done r ∧ k.status ≠ .idle ∧ k.waitingOnDelete = false ∧ k.interest.key = key ∧
    (((rawEvent key r).readable && k.interest.readable) = true ∨ ((rawEvent key r).writable && k.interest.writable) = true)

theorem done_upd {c : Core} {p : PId} {key} (q : PId) (h : Done c.pk p key) : Done (update none c q).2.1.pk p key := by
  obtain ⟨k, r, hk, hop, hst, hd, hkey, hev⟩ := h
  by_cases e : q = p
  · subst e
    obtain ⟨f1, f2, f3, f4, f5⟩ := updateSock_frame none k
    have : (updateSock none k).2.1.op = .done r ∧ (updateSock none k).2.1.status ≠ .idle := by
      unfold updateSock
      split
      · exact ⟨hop, hst⟩
      split
      · split
        · exact ⟨by show k.op.cancel = _; rw [hop]; rfl, nofun⟩
        · exact ⟨hop, hst⟩
      · exact ⟨hop, hst⟩
      · rename_i h; exact absurd h hst
    exact ⟨(updateSock none k).2.1, r, by rw [update_pkt, hk], this.1, this.2, by rw [f5, hd], by rw [f2, hkey], by rw [f2]; exact hev⟩
  · exact ⟨k, r, by rw [(update_frame none c q).2.2.2.2.2 p (fun h => e h.symm), hk], hop, hst, hd, hkey, hev⟩

/-- The completion is processed: the event is found. -/
theorem done_feed {n s tr p key} (hr : Reach n Any s tr) (h : Done s.c.pk p key) :
    ∃ fd ev, (feed s.c p).1 = .update true fd (some ev) ∧ ev.key = key := by
  obtain ⟨k, r, hk, hop, hst, hd, rfl, hev⟩ := h
  have hns := feed_not_stuck hr p
  rcases feed_cases s.c p with ⟨s, r, e1, e2, e3, e4⟩ | ⟨s, r, e1, e2, e3, e4, e5⟩ | ⟨s, r, e1, e2, e3, e4, e5⟩ | ⟨w, e1, e5⟩ | ⟨e, e1, e2⟩ |
      ⟨e1, e2⟩ | ⟨e1, e2⟩
  · rw [hk] at e1; cases e1; rw [hd] at e3; cases e3
  · rw [e5] at hns; exact absurd rfl hns
  · rw [hk] at e1; cases e1
    rw [hop] at e2; cases e2
    have : ∃ e, (filterEvent k.taken (rawEvent k.interest.key r)).2 = some e ∧ e.key = k.interest.key := by
      unfold filterEvent; dsimp only
      rw [if_pos]
      · exact ⟨_, rfl, rawEvent_key _ _⟩
      · show (_ || _ || _) = true
        rw [Bool.or_eq_true, Bool.or_eq_true]
        exact .inl hev
    obtain ⟨e, h1, h2⟩ := this
    exact ⟨k.socket, e, by rw [e5, h1], h2⟩
  · rw [hk] at e1; cases e1
  · rw [hk] at e1; cases e1
  · rw [hk] at e1; cases e1
  · rcases e1 with ⟨s, e1, e3⟩ | e1
    · rw [hk] at e1; cases e1; exact absurd hop (e3 r)
    · rw [hk] at e1; cases e1

/-- The event with this key is on its way to the program. -/
def HandsOut (s : S) (p : PId) (key : Key) : Prop :=
  match s.phase with
  | .unpoll _ b => p ∈ b ∧ Done s.c.pk p key
  | .feed w b => key ∈ w.evs.map Event.key ∨ p ∈ b ∧ Done s.c.pk p key
  | .feedUpd w b _ ev => key ∈ (w.evs ++ ev.toList).map Event.key ∨ p ∈ b ∧ Done s.c.pk p key
  | .fin evs => key ∈ evs.map Event.key
  | _ => False

theorem handsOut_step {n s tr a s' o p key} (hr : Reach n Any s tr) (hk : key ≠ NOTIFY_KEY) (h : HandsOut s p key) (ha : Own a)
    (hs : step n s a = some (s', o)) : HandsOut s' p key ∨ ∃ m evs, o = .waitOk m evs ∧ key ∈ evs.map Event.key := by
  have hfine : s.phase.fine := by
    unfold HandsOut at h
    cases hph : s.phase <;> rw [hph] at h <;> first | exact absurd h id | trivial
  have hcount := (reach_count hr).1
  have hn := own_next hr hfine ha hs
  cases hn with
  | move hpk _ _ hm =>
    have hd : Done s.c.pk p key → Done s'.c.pk p key := by
      intro h
      rcases hpk with e | ⟨q, e⟩
      · rw [e]; exact h
      · rw [e]; exact done_upd q h
    left
    unfold HandsOut at h ⊢
    generalize s.phase = x, s'.phase = y at hm h hcount
    cases hm with
    | unpoll => exact .inr ⟨h.1, hd h.2⟩
    | fin => exact h.resolve_right (fun h => by cases h.1)
    | again hz =>
      rcases h with h | h
      · rename_i w
        have hcount : w.newEvents = w.evs.length := hcount
        rw [hz] at hcount
        rw [List.eq_nil_of_length_eq_zero hcount.symm] at h; cases h
      · cases h.1
    | feedUpd => exact h.imp id (fun h => ⟨h.1, hd h.2⟩)
    | fed =>
      show _ ∨ _
      rw [addEvent_evs]
      exact h.imp id (fun h => ⟨h.1, hd h.2⟩)
    | _ => exact absurd h id
  | pass hph hc hpc hf hph' =>
    rename_i w q b
    obtain ⟨x, hph'⟩ := hph'
    left
    unfold HandsOut at h ⊢
    rw [hph] at h; rw [hph']
    rcases h with h | ⟨h, hd⟩
    · exact .inl h
    · by_cases e : q = p
      · subst e
        obtain ⟨fd, ev, h1, _⟩ := done_feed hr hd
        rw [h1] at hf; rcases hf with hf | hf <;> cases hf
      · refine .inr ⟨(List.mem_cons.1 h).resolve_left (fun h => e h.symm), ?_⟩
        obtain ⟨k, r, h1, h2⟩ := hd
        exact ⟨k, r, by rw [hc, (feed_frame s.c q).2.2.2.2.2 p (fun h => e h.symm), h1], h2⟩
  | custom hph hc hpc hf hph' =>
    rename_i w q b ev
    left
    unfold HandsOut at h ⊢
    rw [hph] at h; rw [hph']
    rcases h with h | ⟨h, hd⟩
    · refine .inl ?_
      rw [addEvent_evs, List.map_append]; exact List.mem_append_left _ h
    · by_cases e : q = p
      · subst e
        obtain ⟨fd, ev, h1, _⟩ := done_feed hr hd
        rw [h1] at hf; cases hf
      · refine .inr ⟨(List.mem_cons.1 h).resolve_left (fun h => e h.symm), ?_⟩
        obtain ⟨k, r, h1, h2⟩ := hd
        exact ⟨k, r, by rw [hc, (feed_frame s.c q).2.2.2.2.2 p (fun h => e h.symm), h1], h2⟩
  | event hph hc hpc hf hph' ho =>
    rename_i w q b k fd ev
    left
    unfold HandsOut at h ⊢
    rw [hph] at h; rw [hph']
    rcases h with h | ⟨h, hd⟩
    · refine .inl ?_
      rw [List.map_append]; exact List.mem_append_left _ h
    · by_cases e : q = p
      · subst e
        obtain ⟨fd, ev', h1, h2⟩ := done_feed hr hd
        rw [h1] at hf; cases hf
        refine .inl ?_
        rw [List.map_append]; exact List.mem_append_right _ (by simp [h2])
      · refine .inr ⟨(List.mem_cons.1 h).resolve_left (fun h => e h.symm), ?_⟩
        obtain ⟨k, r, h1, h2⟩ := hd
        exact ⟨k, r, by rw [hc, (feed_frame s.c q).2.2.2.2.2 p (fun h => e h.symm), h1], h2⟩
  | fin hph hph' =>
    right
    unfold HandsOut at h
    rw [hph] at h
    refine ⟨_, _, rfl, ?_⟩
    obtain ⟨e, h1, h2⟩ := List.mem_map.1 h
    exact List.mem_map.2 ⟨e, List.mem_filter.2 ⟨h1, by rw [h2]; simpa using hk⟩, h2⟩

/-- By its own steps, the thread inside `wait` returns with an event that has this key. -/
def Gives (n : Nat) (s : S) (key : Key) : Prop := ∃ s' m evs obs, Solo n s (.waitOk m evs :: obs) s' ∧ key ∈ evs.map Event.key

theorem handsOut_solo {n s tr obs s' p key} (h : Solo n s obs s') (hr : Reach n Any s tr) (hk : key ≠ NOTIFY_KEY) (hc : HandsOut s p key) :
    HandsOut s' p key ∨ Gives n s key := by
  induction h generalizing tr with
  | refl => exact .inl hc
  | @step s a s1 o obs s2 ha hs hrest ih =>
    rcases handsOut_step hr hk hc ha hs with h1 | ⟨m, evs, rfl, h2⟩
    · rcases ih (hr.step trivial hs) h1 with g | ⟨s', m, evs, obs', g1, g2⟩
      · exact .inl g
      · exact .inr ⟨s', m, evs, obs' ++ [o], .trans (.one ha hs) g1, g2⟩
    · exact .inr ⟨s1, m, evs, [], .one ha hs, h2⟩

/-- A completed operation in the port that fits into the buffer. -/
theorem done_gives {n s tr w p key} (hr : Reach n Any s tr) (hph : s.phase = .port w) (hd : Done s.c.pk p key) (hk : key ≠ NOTIFY_KEY)
    (hin : p ∈ s.c.port.take w.cap) : Gives n s key := by
  have hne : s.c.port ≠ [] := by intro h0; rw [h0] at hin; simp at hin
  have hs : step n s .get = some ({ s with c := { s.c with port := s.c.port.drop w.cap }, phase := .unpoll w (s.c.port.take w.cap) }, .tau) := by
    simp only [step, hph]
    rw [if_pos (.inl hne)]
  have h1 := hr.step (P := Any) trivial hs
  have hc1 : HandsOut { s with c := { s.c with port := s.c.port.drop w.cap }, phase := .unpoll w (s.c.port.take w.cap) } p key := ⟨hin, hd⟩
  have hs2 : step n { s with c := { s.c with port := s.c.port.drop w.cap }, phase := .unpoll w (s.c.port.take w.cap) } (.wait none) =
      some ({ s with c := { s.c with port := s.c.port.drop w.cap, polling := false }, phase := .feed w (s.c.port.take w.cap) }, .tau) := by
    simp only [step, goWait]
  have h2 := h1.step (P := Any) trivial hs2
  have hc2 : HandsOut { s with c := { s.c with port := s.c.port.drop w.cap, polling := false }, phase := .feed w (s.c.port.take w.cap) } p key := .inr ⟨hin, hd⟩
  have r2 : Solo n s [.tau, .tau] { s with c := { s.c with port := s.c.port.drop w.cap, polling := false }, phase := .feed w (s.c.port.take w.cap) } :=
    .step (a := .get) trivial hs (.one (a := .wait none) trivial hs2)
  have after : Gives n { s with c := { s.c with port := s.c.port.drop w.cap, polling := false }, phase := .feed w (s.c.port.take w.cap) } key → Gives n s key := by
    rintro ⟨s', m, evs, obs, g1, g2⟩
    exact ⟨s', m, evs, obs ++ [.tau, .tau], by simpa using r2.trans g1, g2⟩
  refine after ?_
  obtain ⟨s3, o3, w3, r3, p3, _⟩ := solo_feed h2 rfl
  have h3 := r3.reach h2
  have fin : ∀ {s4 : S} {o4}, Solo n s3 o4 s4 → (∀ p, ¬ HandsOut s4 p key) →
      Gives n { s with c := { s.c with port := s.c.port.drop w.cap, polling := false }, phase := .feed w (s.c.port.take w.cap) } key := by
    intro s4 o4 r4 hno
    rcases handsOut_solo (r3.trans r4) h2 hk hc2 with g | g
    · exact absurd g (hno p)
    · exact g
  rcases solo_decide h3 p3 with ⟨s4, m, evs, o4, r4, p4, _⟩ | ⟨_, _, s4, o4, r4, p4, _⟩
  · exact fin r4 (fun p h => by unfold HandsOut at h; rw [p4] at h; exact h)
  · exact fin r4 (fun p h => by unfold HandsOut at h; rw [p4] at h; exact h)

theorem Solo.reachP {n s obs s' tr} (h : Solo n s obs s') (hr : Reach n (fun s a => Accepts s a ∧ NoRace s a) s tr) :
    Reach n (fun s a => Accepts s a ∧ NoRace s a) s' (obs ++ tr) := by
  induction h generalizing tr with
  | refl => exact hr
  | @step s a s1 o obs s2 ha hs _ ih =>
    have hP : Accepts s a ∧ NoRace s a := by
      cases a with
      | wait f => cases f with
        | none => exact ⟨trivial, trivial⟩
        | some e => exact absurd ha id
      | get => exact ⟨trivial, trivial⟩
      | decide e => exact ⟨trivial, trivial⟩
      | _ => exact absurd ha id
    have := ih (hr.step hP hs); simpa using this

end Polling.IocpM
