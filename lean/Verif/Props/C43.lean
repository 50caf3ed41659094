import Verif.Props.PortCalls
import Verif.Props.KqDelivery

/-! C43: kqueue and event ports, a batch limit never loses an event.  (The kqueue part is in `KqDelivery`.) -/

namespace Polling.C43
open PortM Port Spec PollFlags

/-- An armed source of which an asked-for condition (or error, hang-up) holds has its event queued at the port. -/
theorem port_ready_is_queued (n : Nat) (P) (s : S) (tr : List (Obs EventExtra)) (h : Reach n P s tr) (fd : Fd) (cu : Current EventExtra)
    (hc : current tr fd = some cu) (hf : cu.fired = false) (i : Nat) (hi : Reported (s.k.cond fd) i)
    (hask : (cu.ev.readable = true ∧ (i = cIn ∨ i = cPri)) ∨ (cu.ev.writable = true ∧ i = cOut) ∨ i = cErr ∨ i = cHup) :
    .fd fd ∈ s.k.queue := by
  have hk := reach_ki h
  have hm := hk.reg fd
  rw [hc] at hm
  obtain ⟨_, _, ha⟩ := hm
  rw [hf] at ha
  apply Classical.byContradiction
  intro hq
  have h0 := hk.live fd _ ha hq
  have hi16 : i < 16 := by
    rcases hask with ⟨_, h | h⟩ | ⟨_, h⟩ | h | h <;> subst h <;> decide
  have : (s.k.cond fd &&& (assocFlags cu.ev ||| ALWAYS)).getLsbD i = false := by rw [h0]; simp
  unfold Reported at hi
  rw [BitVec.getLsbD_and, hi, BitVec.getLsbD_or, Bool.true_and, Bool.or_eq_false_iff] at this
  have hno : ¬ Reported (assocFlags cu.ev) i := by unfold Reported; rw [this.1]; simp
  rw [C20.port_asked_iff _ _ hi16] at hno
  rcases hask with ⟨h1, h | h⟩ | ⟨h1, h⟩ | h | h
  · exact hno (.inl ⟨h1, .inl h⟩)
  · exact hno (.inl ⟨h1, .inr (.inl h)⟩)
  · exact hno (.inr ⟨h1, .inl h⟩)
  · subst h; exact absurd this.2 (by decide)
  · subst h; exact absurd this.2 (by decide)

/-- The number of batches taken. -/
def batches : List (Obs EventExtra) → Nat
  | [] => 0
  | .deliver _ :: l => batches l + 1
  | _ :: l => batches l

theorem idx_left {e : Entry} {l l' : List Entry} (h : e ∈ l) : (l ++ l').idxOf e = l.idxOf e := by
  rw [List.idxOf_append, if_pos h]

theorem idx_right {e : Entry} {l l' : List Entry} (h : e ∉ l) : (l ++ l').idxOf e = l'.idxOf e + l.length := by
  rw [List.idxOf_append, if_neg h]

theorem idx_filter_le {e : Entry} {p : Entry → Bool} (hp : p e = true) (l : List Entry) : (l.filter p).idxOf e ≤ l.idxOf e := by
  induction l with
  | nil => simp
  | cons x l ih =>
    by_cases he : x = e
    · subst he; simp [hp]
    · have hb : (x == e) = false := by rw [beq_eq_false_iff_ne]; exact he
      have h1 : ∀ l : List Entry, (x :: l).idxOf e = l.idxOf e + 1 := by intro l; rw [List.idxOf_cons, hb]; rfl
      rw [h1, List.filter_cons]
      split
      · rw [h1]; omega
      · omega

theorem idx_wake {k : Kern} {fd g : Fd} {key : Flags} (h : .fd fd ∈ k.queue) :
    .fd fd ∈ (wake k g key).queue ∧ (wake k g key).queue.idxOf (.fd fd) = k.queue.idxOf (.fd fd) := by
  obtain ⟨l, hl⟩ := (wake_env k g key).2.2.2.2
  rw [← hl]
  exact ⟨List.mem_append_left _ h, idx_left h⟩

theorem idx_drop {k : Kern} {fd g : Fd} (h : .fd fd ∈ k.queue) (e : fd ≠ g) :
    .fd fd ∈ (drop k g).queue ∧ (drop k g).queue.idxOf (.fd fd) ≤ k.queue.idxOf (.fd fd) := by
  unfold drop
  dsimp only
  have hp : decide (Entry.fd fd ≠ Entry.fd g) = true := by simp [e]
  exact ⟨List.mem_filter.2 ⟨h, hp⟩, idx_filter_le hp _⟩

theorem idx_associate {k k' : Kern} {fd g : Fd} {ev u} (h : .fd fd ∈ k.queue) (e : fd ≠ g) (ha : associate none k g ev u = (.ok, k')) :
    .fd fd ∈ k'.queue ∧ k'.queue.idxOf (.fd fd) ≤ k.queue.idxOf (.fd fd) := by
  unfold associate at ha
  injection ha with _ ha
  subst ha
  obtain ⟨h1, h2⟩ := idx_drop h e
  obtain ⟨h3, h4⟩ := idx_wake (k := { drop k g with assoc := fun x => if x = g then some ⟨ev, u⟩ else (drop k g).assoc x }) (g := g) (key := (drop k g).cond g) h1
  exact ⟨h3, by rw [h4]; exact h2⟩

/-- A queued event is delivered by one of the next waits, however small the buffers are, whatever else is registered, becomes
ready, is delivered or notified meanwhile, and even if the condition goes away: along any run in which the source is not
registered anew, deleted or delivered, the number of batches taken is at most the number of entries queued before it. -/
theorem port_not_starved (n : Nat) (P) (fd : Fd) (acts : List Act) : ∀ (s s' : S) (tr obs : List (Obs EventExtra)),
    Reach n P s tr → (∀ s a, P s a) → runActs n s acts = some (s', obs) → .fd fd ∈ s.k.queue →
    (∀ ev mode, .reg fd ev mode ∉ obs) → .unreg fd ∉ obs → (∀ evs, .deliver evs ∈ obs → fd ∉ evs.map Prod.fst) →
    batches obs ≤ s.k.queue.idxOf (.fd fd) := by
  induction acts with
  | nil => intro s s' tr obs _ _ h; cases h; intros; exact Nat.zero_le _
  | cons a acts ih =>
    intro s s' tr obs hr hP hrun hq h1 h2 h3
    simp only [runActs, Option.bind_eq_some_iff, Option.map_eq_some_iff] at hrun
    obtain ⟨⟨s1, o⟩, hs, ⟨s2, obs2⟩, hrun2, he⟩ := hrun
    injection he with he1 he2
    subst he1 he2
    dsimp only at h1 h2 h3 ⊢
    have ho : o ∈ obs2 ++ [o] := by simp
    have happ : ∀ l : List (Obs EventExtra), batches (l ++ [o]) = batches l + batches [o] := by
      intro l
      induction l with
      | nil => simp [batches]
      | cons x l ihl => cases x <;> simp only [List.cons_append, batches, ihl] <;> omega
    have key : .fd fd ∈ s1.k.queue ∧ s1.k.queue.idxOf (.fd fd) + batches [o] ≤ s.k.queue.idxOf (.fd fd) := by
      clear ih hrun2
      cases a with
      | add g ev mode fault =>
        simp only [step] at hs
        split at hs
        · cases hs; exact ⟨hq, Nat.le_refl _⟩
        · rcases hm : PortM.add fault s.k g ev mode with ⟨r, k⟩
          rw [hm] at hs
          rcases add_cases hm with ⟨rfl, rfl, ha⟩ | ⟨⟨e, rfl⟩, rfl⟩ <;> cases hs
          · refine idx_associate hq ?_ ha
            rintro rfl; exact h1 ev .oneshot ho
          · exact ⟨hq, Nat.le_refl _⟩
      | modify g ev mode fault =>
        simp only [step] at hs
        split at hs
        · cases hs; exact ⟨hq, Nat.le_refl _⟩
        · rcases hm : PortM.modify fault s.k g ev mode with ⟨r, k⟩
          rw [hm] at hs
          rcases add_cases hm with ⟨rfl, rfl, ha⟩ | ⟨⟨e, rfl⟩, rfl⟩ <;> cases hs
          · refine idx_associate hq ?_ ha
            rintro rfl; exact h1 ev .oneshot ho
          · exact ⟨hq, Nat.le_refl _⟩
      | delete g fault =>
        simp only [step] at hs
        split at hs
        · cases hs
        · rcases hm : PortM.delete fault s.k g with ⟨r, k⟩
          rw [hm] at hs
          rcases delete_cases hm with ⟨rfl, rfl | ⟨rfl, _⟩⟩ | ⟨⟨e, rfl⟩, rfl⟩ <;> cases hs
          · refine idx_drop hq ?_
            rintro rfl; exact h2 ho
          · exact ⟨hq, Nat.le_refl _⟩
          · exact ⟨hq, Nat.le_refl _⟩
      | notifySend fault =>
        simp only [step] at hs
        repeat' split at hs
        all_goals cases hs
        · exact ⟨hq, Nat.le_refl _⟩
        · dsimp only
          rw [idx_left hq]
          exact ⟨List.mem_append_left _ hq, Nat.le_refl _⟩
      | getn =>
        simp only [step] at hs
        split at hs
        rotate_left
        · cases hs
        next dl cap to t0 hph =>
        have hcap : cap > 0 := by
          have hcapinv : ∀ {s tr}, Reach n P s tr → (∀ dl cap, s.phase = .top dl cap → cap > 0) ∧ ∀ dl cap to t0, s.phase = .polling dl cap to t0 → cap > 0 := by
            intro s tr h
            induction h with
            | init => exact ⟨nofun, nofun⟩
            | @step s tr a s' o hr hp hs ih =>
              obtain ⟨i1, i2⟩ := ih
              cases a with
              | waitBegin timeout cap =>
                simp only [step] at hs
                repeat' split at hs
                all_goals cases hs
                refine ⟨?_, nofun⟩
                intro dl c h; cases h; omega
              | compute =>
                simp only [step] at hs
                split at hs <;> cases hs
                next hph =>
                refine ⟨nofun, ?_⟩
                intro dl c to t0 h; injection h with h1 h2; subst h2; exact i1 _ _ hph
              | getnFail e =>
                simp only [step] at hs
                split at hs
                rotate_left
                · cases hs
                next hph =>
                split at hs <;> cases hs
                · refine ⟨?_, nofun⟩
                  intro dl c h; cases h; exact i2 _ _ _ _ hph
                · exact ⟨nofun, nofun⟩
              | finish =>
                simp only [step] at hs
                split at hs <;> cases hs
                exact ⟨nofun, nofun⟩
              | getn =>
                simp only [step] at hs
                repeat' split at hs
                all_goals cases hs
                all_goals exact ⟨nofun, nofun⟩
              | _ =>
                simp only [step] at hs
                repeat' split at hs
                all_goals cases hs
                all_goals exact ⟨i1, i2⟩
          exact (hcapinv hr).2 _ _ _ _ hph
        split at hs
        · cases hs
          have hnt : Entry.fd fd ∉ s.k.queue.take cap := fun hm => h3 _ ho ((mem_sources s.k _ fd).2 hm)
          have hsplit := List.take_append_drop cap s.k.queue
          have hd : Entry.fd fd ∈ s.k.queue.drop cap := by
            rw [← hsplit, List.mem_append] at hq
            exact hq.resolve_left hnt
          refine ⟨hd, ?_⟩
          have hlen : (s.k.queue.take cap).length ≥ 1 := by
            rw [List.length_take]
            have := List.length_pos_of_mem hq
            omega
          have hi := idx_right (l := s.k.queue.take cap) (l' := s.k.queue.drop cap) hnt
          rw [hsplit] at hi
          simp only [getn, batches]
          omega
        · next hq0 => rw [Classical.not_not.1 hq0] at hq; cases hq
      | setReady g flags key =>
        simp only [step] at hs
        split at hs
        · cases hs
        · cases hs
          obtain ⟨h4, h5⟩ := idx_wake (k := { s.k with cond := fun x => if x = g then flags else s.k.cond x }) (g := g) (key := key) hq
          exact ⟨h4, by rw [h5]; exact Nat.le_refl _⟩
      | _ =>
        simp only [step] at hs
        repeat' split at hs
        all_goals cases hs
        all_goals exact ⟨hq, Nat.le_refl _⟩
    have := ih s1 s2 (o :: tr) obs2 (hr.step (hP _ _) hs) hP hrun2 key.1 (fun ev mode hm => h1 ev mode (by simp [hm]))
      (fun hm => h2 (by simp [hm])) (fun evs hm => h3 evs (by simp [hm]))
    rw [happ]
    omega

/-- Three ready sources and room for one event: three waits. -/
example : (exTrace (fun _ => IN) ([7, 8, 9].map (fun fd => .add fd (Event.onlyReadable (BitVec.ofNat 64 fd)) .oneshot none) ++ waitActs 1 ++ waitActs 1 ++ waitActs 1)).map
      (fun tr => tr.filterMap fun o => match o with | .deliver evs => some (evs.map fun e => (e.1, e.2.key)) | _ => none) =
    some [[(9, 9)], [(8, 8)], [(7, 7)]] := by decide

end Polling.C43
