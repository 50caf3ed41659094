import Verif.Proof.IocpPost

/-! The signals of waitable handles on their way from the dispatch of the callback to the delivery of the event. -/

namespace Polling.IocpM
open Iocp IocpSpec

/-- The signals of a waitable handle that are on their way: the callback is dispatched, about to post, or its completion is in
the port or taken by `wait`. -/
def pend (p : PId) (s : S) : Nat := s.cb.count p + s.cbPost.count p + (entries s).count p

def isFire (p : PId) (a : Act) : Nat := if a = .fire p then 1 else 0

/-- The signals on their way are unchanged and nothing of the packet was delivered. -/
theorem pend_same {p s s' o a tr} (h0 : isFire p a = 0) (h1 : s'.cb = s.cb) (h2 : s'.cbPost = s.cbPost) (h3 : s'.phase.batch = s.phase.batch)
    (h4 : s'.c.port = s.c.port) (h5 : NoFind o) :
    pend p s' + deliveries p (o :: tr) = pend p s + isFire p a + deliveries p tr := by
  have : deliveries p (o :: tr) = deliveries p tr := by
    unfold deliveries
    rw [List.countP_cons_of_neg]
    cases o <;> first | exact absurd h5 id | simp
  rw [this, h0]
  unfold pend entries
  rw [h1, h2, h3, h4, Nat.add_zero]

theorem deliveries_other {p o} (h : ∀ k fd ev, o ≠ .deliver k fd p ev) (tr) : deliveries p (o :: tr) = deliveries p tr := by
  unfold deliveries
  rw [List.countP_cons_of_neg]
  cases o <;> try simp
  rename_i k fd q ev
  intro e; subst e; exact h _ _ _ rfl

theorem goCall_wtb {s t fault s' o} (h : goCall s t fault = some (s', o)) :
    s'.cb = s.cb ∧ s'.cbPost = s.cbPost ∧ s'.c.port = s.c.port := by
  unfold goCall at h
  split at h
  · split at h <;> (cases h; exact ⟨rfl, rfl, rfl⟩)
  · repeat' split at h
    all_goals (cases h; exact ⟨rfl, rfl, rfl⟩)
  · split at h
    · cases h; refine ⟨rfl, rfl, ?_⟩
      show (setEvents ..).2.port = _; unfold setEvents; split <;> rfl
    · cases h
  · cases h
    obtain ⟨_, _, _, _, b, _⟩ := beginDelete_frame fault s.c ‹_›
    exact ⟨rfl, rfl, b⟩
  · split at h
    all_goals
      rename_i hu; cases h
      exact ⟨rfl, rfl, (ustep_frame hu).2.2.2⟩
  · cases h; exact ⟨rfl, rfl, rfl⟩
  · cases h

/-- What a step does to the signals on their way. -/
theorem wtb_step {n P s tr a s' o p} (h : Reach n P s tr) (hk : kind (s.c.pk p) = .wtb) (hs : step n s a = some (s', o)) :
    (pend p s' + deliveries p (o :: tr) = pend p s + isFire p a + deliveries p tr) ∨
    (isFire p a = 0 ∧ deliveries p (o :: tr) = deliveries p tr ∧ pend p s' ≤ pend p s ∧
      ((∃ w e l, s.phase = .drain w e (p :: l)) ∨ ∃ e, a = .callbackPost p (some e))) := by
  obtain ⟨w0, hw0⟩ : ∃ w, s.c.pk p = .waitable w := by
    cases hp : s.c.pk p <;> rw [hp] at hk <;> first | exact ⟨_, rfl⟩ | cases hk
  cases a with
  | call t call =>
    left
    simp only [step] at hs
    repeat' split at hs
    all_goals cases hs
    all_goals exact pend_same rfl rfl rfl rfl rfl trivial
  | go t fault =>
    left
    simp only [step] at hs
    split at hs
    · cases hs
    · obtain ⟨h1, h2, h3⟩ := goCall_wtb hs
      obtain ⟨h4, h5⟩ := noFind_goCall hs
      exact pend_same rfl h1 h2 (by rw [h5]) h3 h4
  | newPacket ev =>
    left
    simp only [step] at hs
    repeat' split at hs
    all_goals cases hs
    all_goals exact pend_same rfl rfl rfl rfl rfl trivial
  | post q fault =>
    left
    simp only [step] at hs
    split at hs
    · rename_i ev hev
      have hq : q ≠ p := by rintro rfl; rw [hw0] at hev; cases hev
      split at hs
      · cases hs; exact pend_same rfl rfl rfl rfl rfl trivial
      · cases hs
        rw [deliveries_other (by nofun)]
        simp [pend, entries, isFire, hq]
    · cases hs
  | notifyCas t =>
    left
    simp only [step] at hs
    repeat' split at hs
    all_goals cases hs
    all_goals exact pend_same rfl rfl rfl rfl rfl trivial
  | notifyPost t fault =>
    left
    have hq : NOTIFIER ≠ p := by rintro rfl; rw [(reach_ti h).wake] at hw0; cases hw0
    simp only [step] at hs
    split at hs
    · split at hs
      · cases hs; exact pend_same rfl rfl rfl rfl rfl trivial
      · cases hs
        rw [deliveries_other (by nofun)]
        simp [pend, entries, isFire, hq]
    · cases hs
  | waitBegin timed cap =>
    left
    simp only [step] at hs
    split at hs
    · rename_i hp
      split at hs
      · cases hs
      · cases hs
        rw [deliveries_other (by nofun)]
        simp [pend, entries, isFire, hp, Phase.batch]
    · cases hs
  | waitBusy =>
    left
    simp only [step] at hs
    repeat' split at hs
    all_goals cases hs
    all_goals exact pend_same rfl rfl rfl rfl rfl trivial
  | wait fault =>
    simp only [step, goWait] at hs
    have hok := reach_opOk h
    split at hs
    · rename_i hp; cases hs; exact .inl (pend_same rfl rfl rfl (by rw [hp]; rfl) rfl trivial)
    · rename_i hp; cases hs; exact .inl (pend_same rfl rfl rfl (by rw [hp]; rfl) rfl trivial)
    · rename_i hp
      split at hs <;> (cases hs; exact .inl (pend_same rfl rfl rfl (by rw [hp]; rfl) rfl trivial))
    · rename_i w q hp
      obtain ⟨a, _, _, _, b, _⟩ := update_frame fault s.c q
      split at hs
      · rename_i c m he; rw [he] at a b
        cases hs; exact .inl (pend_same rfl rfl rfl (by rw [hp]; rfl) b (noFind_updateObs _ _))
      · rename_i e c m he; rw [he] at a b
        cases hs; exact .inl (pend_same rfl rfl rfl (by rw [hp]; rfl) b (noFind_updateObs _ _))
    · rename_i hp; cases hs; exact .inl (pend_same rfl rfl rfl (by rw [hp]; rfl) rfl trivial)
    · rename_i hp
      left
      unfold waitFail at hs
      split at hs
      all_goals
        cases hs
        rw [deliveries_other (by nofun)]
        simp [pend, entries, isFire, hp, Phase.batch]
    · rename_i hp
      left
      unfold waitFail at hs
      split at hs
      all_goals
        cases hs
        rw [deliveries_other (by nofun)]
        simp [pend, entries, isFire, hp, Phase.batch]
    · rename_i w e q batch hp
      cases hs
      have b : (dropEntry s.c q).port = _ := (dropEntries_frame s.c [q]).2
      by_cases hq : q = p
      · subst hq
        right
        refine ⟨rfl, deliveries_other (by nofun) _, ?_, .inl ⟨_, _, _, hp⟩⟩
        simp only [pend, entries, hp, Phase.batch, List.count_append, b, List.count_cons]
        omega
      · left
        rw [deliveries_other (by nofun)]
        simp [pend, entries, isFire, hp, Phase.batch, b, hq]
    · rename_i w q batch hp
      left
      obtain ⟨_, _, _, _, b, _⟩ := feed_frame s.c q
      have hns := feed_not_stuck h q
      by_cases hq : q = p
      · subst hq
        have hf : feed s.c q = (.update false w0.handle (some w0.interest),
            setPk s.c q (.waitable (if w0.mode = .oneshot then { w0 with interest := Event.none w0.interest.key } else w0))) := by
          unfold feed; rw [hw0]
        rw [hf] at hs b
        cases hs
        simp only [pend, entries, hp, Phase.batch, isFire, deliveries, List.countP_cons, List.count_append, List.count_cons]
        simp [setPk]
        omega
      · have key : ∀ {s' : S} {o}, s'.c.port = s.c.port → s'.phase.batch = batch → s'.cb = s.cb →
            s'.cbPost = s.cbPost → (∀ k fd ev, o ≠ .deliver k fd p ev) →
            pend p s' + deliveries p (o :: tr) = pend p s + isFire p (.wait fault) + deliveries p tr := by
          intro s' o h1 h3 h4 h5 h6
          rw [deliveries_other h6]
          unfold pend entries
          rw [h3, h1, h4, h5, hp]
          simp [Phase.batch, hq, isFire]
        split at hs
        · rename_i c he; rw [he] at b; cases hs; exact key b rfl rfl rfl (by nofun)
        · rename_i c he; rw [he] at b; cases hs; exact key b rfl rfl rfl (by nofun)
        · rename_i ev c he; rw [he] at b; cases hs; exact key b rfl rfl rfl (by nofun)
        · rename_i c he; rw [he] at hns; exact absurd rfl hns
        · rename_i k fd ev c he; rw [he] at b; cases hs
          refine key b rfl rfl rfl ?_
          intro k fd ev
          split
          · intro e; cases e; exact hq rfl
          · nofun
    · rename_i w batch u ev hp
      split at hs
      · rename_i hu; cases hs
        exact .inl (pend_same rfl rfl rfl (by rw [hp]; rfl) (ustep_frame hu).2.2.2 (noFind_ustep hu))
      · rename_i hu; cases hs
        exact .inl (pend_same rfl rfl rfl (by rw [hp]; rfl) (ustep_frame hu).2.2.2 (noFind_ustep hu))
      · rename_i hu; cases hs
        exact .inl (pend_same rfl rfl rfl (by rw [hp]; rfl) (ustep_frame hu).2.2.2 (noFind_ustep hu))
    · rename_i hp; cases hs; exact .inl (pend_same rfl rfl rfl (by rw [hp]; rfl) rfl trivial)
    · cases hs
  | get =>
    left
    simp only [step] at hs
    split at hs
    · rename_i w hp
      split at hs
      · cases hs
        rw [deliveries_other (by nofun)]
        unfold pend entries
        dsimp only
        rw [hp]
        show _ + List.count p (s.c.port.take w.cap ++ s.c.port.drop w.cap) + _ = _
        rw [List.take_append_drop]
        rfl
      · cases hs
    · cases hs
  | getFail e =>
    left
    simp only [step] at hs
    split at hs
    · rename_i hp; cases hs; exact pend_same rfl rfl rfl (by rw [hp]; rfl) rfl trivial
    · cases hs
  | decide e =>
    left
    simp only [step] at hs
    split at hs
    · rename_i hp
      split at hs <;> (cases hs; exact pend_same rfl rfl rfl (by rw [hp]; rfl) rfl trivial)
    · cases hs
  | complete q r =>
    left
    simp only [step] at hs
    split at hs
    · rename_i k hk'
      have hq : q ≠ p := by rintro rfl; rw [hw0] at hk'; cases hk'
      split at hs
      · split at hs
        · cases hs
          rw [deliveries_other (by nofun)]
          simp [pend, entries, isFire, hq]
        · cases hs
      · cases hs
    · cases hs
  | fire q =>
    left
    simp only [step] at hs
    split at hs
    · split at hs
      · cases hs
        rw [deliveries_other (by nofun)]
        show _ = _ + (if Act.fire q = Act.fire p then 1 else 0) + _
        simp only [pend, entries, List.count_cons, Act.fire.injEq]
        by_cases e : q = p
        · subst e; simp [setPk]; omega
        · simp [e, setPk]
      · cases hs
    · cases hs
  | callback q =>
    left
    simp only [step] at hs
    split at hs
    · split at hs
      · rename_i hm
        cases hs
        rw [deliveries_other (by nofun)]
        simp only [pend, entries, List.count_cons, isFire]
        by_cases e : q = p
        · subst e
          have := List.count_pos_iff.2 hm
          simp [setPk, List.count_erase_self]; omega
        · simp [e, setPk, List.count_erase_of_ne (Ne.symm e)]
      · cases hs
    · cases hs
  | callbackPost q fault =>
    simp only [step] at hs
    split at hs
    · rename_i hm
      cases hs
      by_cases e : q = p
      · subst e
        have := List.count_pos_iff.2 hm
        cases fault with
        | none =>
          left
          rw [deliveries_other (by nofun)]
          simp [pend, entries, isFire, List.count_cons, List.count_erase_self]; omega
        | some e =>
          right
          refine ⟨rfl, deliveries_other (by nofun) _, ?_, .inr ⟨e, rfl⟩⟩
          simp [pend, entries, List.count_erase_self]
      · left
        rw [deliveries_other (by nofun)]
        cases fault with
        | none => simp [pend, entries, isFire, List.count_cons, e, List.count_erase_of_ne (Ne.symm e)]
        | some _ => simp [pend, entries, isFire, e, List.count_erase_of_ne (Ne.symm e)]
    · cases hs

/-- A packet of a waitable handle stays one. -/
theorem reach_wtb_stays {n P s tr a s' o p} (h : Reach n P s tr) (hs : step n s a = some (s', o)) (hk : kind (s.c.pk p) = .wtb) :
    kind (s'.c.pk p) = .wtb := ent_wtb (reach_ei h) (reach_ent h hs) hk

/-- Nothing is on its way of a packet that does not exist yet. -/
theorem pend_new {n P s tr p} (h : Reach n P s tr) (hp : s.c.next ≤ p) : pend p s = 0 := by
  obtain ⟨hei, hcb⟩ := reach_cb h
  have h1 : p ∉ s.cb ++ s.cbPost := fun hm => by have := hcb p hm; rw [hei.low p hp] at this; cases this
  have h2 : p ∉ entries s := fun hm => by have := hei.live p hm; omega
  rw [List.mem_append, not_or] at h1
  unfold pend
  rw [List.count_eq_zero.2 h1.1, List.count_eq_zero.2 h1.2, List.count_eq_zero.2 h2]

/-- An event delivered was on its way. -/
theorem deliver_entry {n s a s' k fd p ev} (hs : step n s a = some (s', .deliver k fd p ev)) :
    p ∈ entries s ∧ ∃ fault, a = .wait fault := by
  cases a with
  | wait fault =>
    refine ⟨?_, _, rfl⟩
    simp only [step, goWait] at hs
    split at hs <;> try cases hs
    · split at hs <;> cases hs
    · split at hs <;> (unfold updateObs at hs; split at hs <;> cases hs)
    · unfold waitFail at hs; split at hs <;> cases hs
    · unfold waitFail at hs; split at hs <;> cases hs
    · rename_i w q batch hp
      have : q = p → p ∈ entries s := by rintro rfl; simp [entries, hp, Phase.batch]
      split at hs <;> try cases hs
      split at hs <;> cases hs
      exact this rfl
    · split at hs
      · rename_i hu; cases hs; exact absurd (noFind_ustep hu) id
      · rename_i hu; cases hs; exact absurd (noFind_ustep hu) id
      · rename_i hu; cases hs; exact absurd (noFind_ustep hu) id
  | go t fault =>
    simp only [step] at hs
    split at hs
    · cases hs
    · exact absurd (noFind_goCall hs).1 id
  | _ =>
    exfalso
    simp only [step] at hs
    repeat' split at hs
    all_goals cases hs

theorem cb_step {n s a s' o} (hs : step n s a = some (s', o)) : (∀ p, a ≠ .fire p) → ∀ p, p ∈ s'.cb ++ s'.cbPost → p ∈ s.cb ++ s.cbPost := by
  intro hf p hm
  have keep : s'.cb = s.cb → s'.cbPost = s.cbPost → p ∈ s.cb ++ s.cbPost := by
    intro h1 h2; rw [← h1, ← h2]; exact hm
  cases a with
  | fire p => exact absurd rfl (hf p)
  | go t fault =>
    simp only [step] at hs
    split at hs
    · cases hs
    · obtain ⟨h1, h2, _⟩ := goCall_wtb hs
      exact keep h1 h2
  | wait fault =>
    simp only [step, goWait, waitFail] at hs
    repeat' split at hs
    all_goals cases hs
    all_goals exact keep rfl rfl
  | callback q =>
    simp only [step] at hs
    split at hs
    · split at hs
      · rename_i hq
        cases hs
        dsimp only at hm
        rw [List.mem_append, List.mem_cons] at hm
        rw [List.mem_append]
        rcases hm with hm | rfl | hm
        · exact .inl (List.mem_of_mem_erase hm)
        · exact .inl hq
        · exact .inr hm
      · cases hs
    · cases hs
  | callbackPost q fault =>
    simp only [step] at hs
    split at hs
    · cases hs
      dsimp only at hm
      rw [List.mem_append] at hm ⊢
      rcases hm with hm | hm
      · exact .inl hm
      · exact .inr (List.mem_of_mem_erase hm)
    · cases hs
  | _ =>
    simp only [step] at hs
    repeat' split at hs
    all_goals cases hs
    all_goals exact keep rfl rfl

/-- A step changes nothing about a packet that does not exist yet, other than creating it. -/
theorem new_step {n P s tr a s' o p} (h : Reach n P s tr) (hp : s.c.next ≤ p) (hs : step n s a = some (s', o)) :
    pend p s' = 0 ∧ deliveries p (o :: tr) = deliveries p tr ∧ a ≠ .fire p := by
  obtain ⟨hei, hcb⟩ := reach_cb h
  have hfree := hei.low p hp
  have hfire : a ≠ .fire p := by
    rintro rfl
    simp only [step, hfree] at hs
    cases hs
  refine ⟨?_, ?_, hfire⟩
  · have h1 : p ∉ s'.cb ++ s'.cbPost := by
      intro hm
      have hin : p ∈ s.cb ++ s.cbPost := by
        by_cases ha : ∃ q, a = .fire q
        · obtain ⟨q, rfl⟩ := ha
          simp only [step] at hs
          split at hs
          · split at hs
            · cases hs
              dsimp only at hm
              rw [List.cons_append, List.mem_cons] at hm
              rcases hm with rfl | hm
              · exact absurd rfl hfire
              · exact hm
            · cases hs
          · cases hs
        · exact cb_step hs (fun q e => ha ⟨q, e⟩) p hm
      have := hcb p hin; rw [hfree] at this; cases this
    have h0 : p ∉ entries s := fun hm => by have := hei.live p hm; omega
    have h2 : p ∉ entries s' := by
      intro hm
      cases reach_ent h hs with
      | same _ e => rw [e] at hm; exact h0 hm
      | post _ e hlt => rw [e] at hm; simp at hm; rcases hm with hm | rfl; exact h0 hm; omega
      | complete _ e hk =>
        rw [e] at hm; simp at hm; rcases hm with hm | rfl
        · exact h0 hm
        · rw [hfree] at hk; cases hk
      | feed _ e => exact h0 (by rw [e]; simp [hm])
      | drop _ _ e => exact h0 (by rw [e]; simp [hm])
    rw [List.mem_append, not_or] at h1
    unfold pend
    rw [List.count_eq_zero.2 h1.1, List.count_eq_zero.2 h1.2, List.count_eq_zero.2 h2]
  · apply deliveries_other
    rintro k fd ev rfl
    have := hei.live p (deliver_entry hs).1
    omega

/-- A packet of another kind does not become one of a waitable handle. -/
theorem notWtb_step {n P s tr a s' o p} (h : Reach n P s tr) (hp : p < s.c.next) (hk : kind (s.c.pk p) ≠ .wtb)
    (hs : step n s a = some (s', o)) : p < s'.c.next ∧ kind (s'.c.pk p) ≠ .wtb := by
  cases reach_ent h hs with
  | same _ _ h3 h4 => exact ⟨by omega, by rw [h3 p hp]; exact hk⟩
  | post _ _ _ _ h5 h6 => exact ⟨by omega, by rw [h5]; exact hk⟩
  | @complete q _ _ h3 h4 h5 h6 =>
    refine ⟨by omega, ?_⟩
    by_cases e : p = q
    · subst e; rw [h4]; nofun
    · rw [h5 p e]; exact hk
  | feed _ _ h3 h4 =>
    refine ⟨by omega, ?_⟩
    rw [h4]; split
    · nofun
    · exact hk
  | drop _ _ _ h3 h4 =>
    refine ⟨by omega, ?_⟩
    rw [h4]; split
    · nofun
    · exact hk

theorem notWtb_run {n} : ∀ {s tr}, Reach n Any s tr → ∀ acts s' out, runActs n s acts = some (s', out) → ∀ p,
    p < s.c.next → kind (s.c.pk p) ≠ .wtb → kind (s'.c.pk p) ≠ .wtb := by
  intro s tr h acts
  induction acts generalizing s tr with
  | nil => intro s' out h; cases h; intro p _ h; exact h
  | cons a acts ih =>
    intro s' out hr p hp hk
    simp only [runActs] at hr
    cases hs : step n s a with
    | none => rw [hs] at hr; cases hr
    | some r =>
      obtain ⟨s1, o⟩ := r
      rw [hs, Option.bind_some] at hr
      cases hq : runActs n s1 acts with
      | none => rw [hq] at hr; cases hr
      | some q =>
        rw [hq] at hr; cases hr
        obtain ⟨h1, h2⟩ := notWtb_step h hp hk hs
        exact ih (h.step (P := Any) trivial hs) q.1 q.2 hq p h1 h2

/-- In every run: the events delivered for a waitable handle, with those on their way, are at most as many as its signals. -/
theorem run_wtb {n} : ∀ {s tr}, Reach n Any s tr → ∀ acts s' out, runActs n s acts = some (s', out) → ∀ p,
    kind (s'.c.pk p) = .wtb → (kind (s.c.pk p) = .wtb ∨ s.c.next ≤ p) →
    pend p s' + deliveries p (out ++ tr) ≤ pend p s + deliveries p tr + acts.count (.fire p) := by
  intro s tr h acts
  induction acts generalizing s tr with
  | nil => intro s' out h; cases h; intro p _ _; simp
  | cons a acts ih =>
    intro s' out hr p hk' hk
    simp only [runActs] at hr
    cases hs : step n s a with
    | none => rw [hs] at hr; cases hr
    | some r =>
      obtain ⟨s1, o⟩ := r
      rw [hs, Option.bind_some] at hr
      cases hq : runActs n s1 acts with
      | none => rw [hq] at hr; cases hr
      | some q =>
        rw [hq] at hr; cases hr
        have h1 := h.step (P := Any) trivial hs
        have := ih h1 q.1 q.2 hq p
        rw [List.append_assoc]
        show pend p q.1 + deliveries p (q.2 ++ o :: tr) ≤ _
        rw [List.count_cons]
        have h3 : (if (a == Act.fire p) = true then 1 else 0) = isFire p a := by unfold isFire; simp
        rw [h3]
        rcases hk with hk | hk
        · have := this hk' (.inl (reach_wtb_stays h hs hk))
          rcases wtb_step h hk hs with h2 | ⟨h2, h4, h5, _⟩ <;> omega
        · obtain ⟨h4, h5, h6⟩ := new_step h hk hs
          have h7 : isFire p a = 0 := if_neg h6
          have := pend_new h hk
          have hc : kind (s1.c.pk p) = .wtb ∨ s1.c.next ≤ p := by
            by_cases e1 : s1.c.next ≤ p
            · exact .inr e1
            · by_cases e2 : kind (s1.c.pk p) = .wtb
              · exact .inl e2
              · exact absurd hk' (notWtb_run h1 acts q.1 q.2 hq p (Nat.lt_of_not_le e1) e2)
          have := ih h1 q.1 q.2 hq p hk' hc
          omega

/-- The wait of the packet is cancelled. -/
def Cancelled : Pkt → Prop
  | .waitable w => w.status = .cancelled ∧ w.registered = false
  | _ => False

theorem cancelled_setPk {c : Core} {p q k} (h : Cancelled (c.pk p)) (hk : q = p → Cancelled k) : Cancelled ((setPk c q k).pk p) := by
  by_cases e : p = q
  · subst e; rw [setPk_self]; exact hk rfl
  · rw [setPk_other _ _ e]; exact h

theorem cancelled_update {fault c q p} (h : Cancelled (c.pk p)) : Cancelled ((update fault c q).2.1.pk p) := by
  unfold update
  split
  · rename_i hq
    exact cancelled_setPk h (by rintro rfl; rw [hq] at h; exact absurd h id)
  · rename_i w hq
    refine cancelled_setPk h ?_
    rintro rfl
    rw [hq] at h
    unfold updateWtb
    split
    · exact h
    · rw [if_pos (by rw [h.1]; nofun)]
      exact h
  · exact h

theorem cancelled_ustep {fault c u c' out o p} (hu : ustep fault c u = (c', out, o)) (h : Cancelled (c.pk p)) : Cancelled (c'.pk p) := by
  cases u with
  | load q => simp only [ustep] at hu; cases hu; exact h
  | run q => simp only [ustep] at hu; cases hu; exact cancelled_update h
  | push q => simp only [ustep] at hu; split at hu <;> (cases hu; exact h)
  | pop q m => simp only [ustep] at hu; split at hu <;> (cases hu; exact h)
  | drain q m r => simp only [ustep] at hu; cases hu; exact cancelled_update h

theorem cancelled_setEvents {c q ev mode p} (h : Cancelled (c.pk p)) : Cancelled ((setEvents c q ev mode).2.pk p) := by
  unfold setEvents
  split
  · rename_i hq
    exact cancelled_setPk h (by rintro rfl; rw [hq] at h; exact absurd h id)
  · rename_i w hq
    exact cancelled_setPk h (by rintro rfl; rw [hq] at h; exact h)
  · exact h

theorem cancelled_beginDelete {fault c q p} (h : Cancelled (c.pk p)) : Cancelled ((beginDelete fault c q).2.pk p) := by
  unfold beginDelete
  split
  · rename_i hq
    have : ∀ k, Cancelled ((setPk c q k).pk p) := fun k => cancelled_setPk h (by rintro rfl; rw [hq] at h; exact absurd h id)
    dsimp only
    split
    · exact h
    · split
      · exact this _
      · exact this _
  · rename_i w hq
    exact cancelled_setPk h (fun _ => ⟨rfl, rfl⟩)
  · exact h

theorem cancelled_feed {c q p} (h : Cancelled (c.pk p)) : Cancelled ((feed c q).2.pk p) := by
  have hs : ∀ s, c.pk q = .socket s → ∀ k, Cancelled ((setPk c q k).pk p) :=
    fun s hq k => cancelled_setPk h (by rintro rfl; rw [hq] at h; exact absurd h id)
  rcases feed_cases c q with ⟨s, r, e1, e2, e3, e4⟩ | ⟨s, r, e1, e2, e3, e4, e5⟩ | ⟨s, r, e1, e2, e3, e4, e5⟩ | ⟨w, e1, e5⟩ | ⟨e, e1, e2⟩ |
      ⟨e1, e2⟩ | ⟨e1, e2⟩
  · rw [e4]; exact hs _ e1 _
  · rw [e5]; exact hs _ e1 _
  · rw [e5]; exact hs _ e1 _
  · rw [e5]
    refine cancelled_setPk h ?_
    rintro rfl
    rw [e1] at h
    split
    · exact h
    · exact h
  · rw [e2]; exact h
  · rw [e2]; exact h
  · rw [e2]; exact h

theorem cancelled_drop {p} (batch : List PId) : ∀ {c : Core}, Cancelled (c.pk p) → Cancelled ((dropEntries c batch).pk p) := by
  induction batch with
  | nil => intro c h; exact h
  | cons q batch ih =>
    intro c h
    refine ih (c := dropEntry c q) ?_
    unfold dropEntry
    split
    · rename_i hq
      exact cancelled_setPk h (by rintro rfl; rw [hq] at h; exact absurd h id)
    · exact h

/-- Only a callback ends the state that `remove_waitable` leaves behind. -/
theorem cancelled_step {n s a s' o p} (hs : step n s a = some (s', o)) (hnew : s.c.next ≠ p) (ha : a ≠ .callback p) (h : Cancelled (s.c.pk p)) :
    Cancelled (s'.c.pk p) := by
  cases a with
  | go t fault =>
    simp only [step, goCall] at hs
    split at hs
    · cases hs
    split at hs
    · split at hs <;> (cases hs; exact h)
    · split at hs
      · split at hs
        · cases hs; exact h
        · cases hs
          exact cancelled_setPk h (fun e => absurd e hnew)
      · split at hs <;> (cases hs; exact h)
      · split at hs <;> (cases hs; exact h)
    · split at hs
      · cases hs; exact cancelled_setEvents h
      · cases hs
    · cases hs; exact cancelled_beginDelete h
    · split at hs
      · rename_i hu; cases hs; exact cancelled_ustep hu h
      · rename_i hu; cases hs; exact cancelled_ustep hu h
    · cases hs; exact h
    · cases hs
  | newPacket ev =>
    simp only [step] at hs
    split at hs
    · cases hs
    · cases hs; exact cancelled_setPk h (fun e => absurd e hnew)
  | wait fault =>
    simp only [step, goWait] at hs
    split at hs
    · cases hs; exact h
    · cases hs; exact h
    · split at hs <;> (cases hs; exact h)
    · rename_i w q hp
      have := cancelled_update (fault := fault) (q := q) h
      split at hs
      · rename_i he; rw [he] at this; cases hs; exact this
      · rename_i he; rw [he] at this; cases hs; exact this
    · cases hs; exact h
    · unfold waitFail at hs; split at hs <;> (cases hs; exact h)
    · unfold waitFail at hs; split at hs <;> (cases hs; exact h)
    · rename_i q _ _; cases hs; exact cancelled_drop [q] h
    · rename_i w q batch hp
      have := cancelled_feed (q := q) h
      split at hs
      all_goals rename_i he; rw [he] at this; cases hs; exact this
    · split at hs
      · rename_i hu; cases hs; exact cancelled_ustep hu h
      · rename_i hu; cases hs; exact cancelled_ustep hu h
      · rename_i hu; cases hs; exact cancelled_ustep hu h
    · cases hs; exact h
    · cases hs
  | complete q r =>
    simp only [step] at hs
    split at hs
    · rename_i k hk
      split at hs
      · split at hs
        · cases hs
          exact cancelled_setPk h (by rintro rfl; rw [hk] at h; exact absurd h id)
        · cases hs
      · cases hs
    · cases hs
  | fire q =>
    simp only [step] at hs
    split at hs
    · rename_i w hw
      split at hs
      · rename_i hreg
        cases hs
        refine cancelled_setPk h ?_
        rintro rfl
        rw [hw] at h
        exact ⟨h.1, rfl⟩
      · cases hs
    · cases hs
  | callback q =>
    have hq : q ≠ p := fun e => ha (by rw [e])
    simp only [step] at hs
    split at hs
    · split at hs
      · cases hs; exact cancelled_setPk h (fun e => absurd e hq)
      · cases hs
    · cases hs
  | callbackPost q fault =>
    simp only [step] at hs
    split at hs
    · cases hs; dsimp only; split <;> exact h
    · cases hs
  | _ =>
    simp only [step] at hs
    repeat' split at hs
    all_goals cases hs
    all_goals exact h

/-- The wait is cancelled, and no signal is on its way. -/
def Gone (p : PId) (s : S) : Prop := Cancelled (s.c.pk p) ∧ pend p s = 0

theorem gone_step {n P s tr a s' o p} (h : Reach n P s tr) (hg : Gone p s) (hs : step n s a = some (s', o)) :
    Gone p s' ∧ deliveries p (o :: tr) = deliveries p tr := by
  obtain ⟨hc, hp⟩ := hg
  obtain ⟨w, hw⟩ : ∃ w, s.c.pk p = .waitable w := by
    cases he : s.c.pk p <;> rw [he] at hc <;> first | exact ⟨_, rfl⟩ | exact absurd hc id
  have hk : kind (s.c.pk p) = .wtb := by rw [hw]; rfl
  have hnew : s.c.next ≠ p := by
    intro e
    have := (reach_ei h).low p (by omega)
    rw [hw] at this; cases this
  have hfire : isFire p a = 0 := by
    apply if_neg
    rintro rfl
    rw [hw] at hc
    simp only [step, hw, hc.2] at hs
    cases hs
  have hcb : a ≠ .callback p := by
    rintro rfl
    simp only [step, hw] at hs
    split at hs
    · rename_i hm
      have := List.count_pos_iff.2 hm
      unfold pend at hp
      omega
    · cases hs
  have h1 := cancelled_step hs hnew hcb hc
  rcases wtb_step h hk hs with h2 | ⟨_, h4, h5, _⟩
  · have : deliveries p tr ≤ deliveries p (o :: tr) := by unfold deliveries; rw [List.countP_cons]; omega
    exact ⟨⟨h1, by omega⟩, by omega⟩
  · exact ⟨⟨h1, by omega⟩, h4⟩

end Polling.IocpM
