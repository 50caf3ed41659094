import Verif.Proof.EpollQueue

/-! C41: epoll, a batch limit never loses an event. -/

namespace Polling.C41
open EpollM Epoll Spec

/-- `starving c fd n s tr s' tr'`: from `s` (with history `tr`) the poller got to `s'`, by any steps of any threads;
`n` batches were taken from the OS on the way; source `fd` was not registered anew, modified or deleted, a watched
condition of it held whenever a batch was taken, but it was in none of them. -/
inductive Starving (c : Cfg) (fd : Fd) : Nat → S → List (Obs EventExtra) → S → List (Obs EventExtra) → Prop
  | refl (s tr) : Starving c fd 0 s tr s tr
  | other {n s tr s1 tr1 a s2 o} : Starving c fd n s tr s1 tr1 → step c s1 a = some (s2, o) →
      (∀ ev mode, o ≠ .reg fd ev mode) → o ≠ .unreg fd → (∀ evs, o ≠ .deliver evs) → Starving c fd n s tr s2 (o :: tr1)
  | batch {n s tr s1 tr1 a s2 evs} : Starving c fd n s tr s1 tr1 → step c s1 a = some (s2, .deliver evs) →
      fd ∉ evs.map Prod.fst → (∀ cu, current tr1 fd = some cu → EpollPending cu.ev (s1.k.user fd)) →
      Starving c fd (n + 1) s tr s2 (.deliver evs :: tr1)

/-- Along such a run the source stays registered and queued, and each batch moves it forward. -/
theorem starving_spec {c : Cfg} (hok : c.Ok) {fd : Fd} {n : Nat} {s s' : S} {tr tr' : List (Obs EventExtra)}
    (hrun : Starving c fd n s tr s' tr') (h : Reach c s tr) {cu : Current EventExtra} (hc : current tr fd = some cu)
    (hl : live cu = true) (hq : fd ∈ s.k.rdl) :
    Reach c s' tr' ∧ current tr' fd = some cu ∧ fd ∈ s'.k.rdl ∧ s'.k.rdl.idxOf fd + n ≤ s.k.rdl.idxOf fd := by
  induction hrun with
  | refl s tr => exact ⟨h, hc, hq, Nat.le_refl _⟩
  | other hprev hs h1 h2 h3 ih =>
    obtain ⟨hr, hcur, hmem, hidx⟩ := ih h hc hq
    obtain ⟨hm', hi'⟩ := queue_keeps hs h2 h3 hmem
    refine ⟨hr.step hs, ?_, hm', by omega⟩
    rename_i o
    cases o with
    | reg fd' ev mode =>
      simp only [current]
      rw [if_neg]
      · exact hcur
      · rintro rfl; exact h1 ev mode rfl
    | unreg fd' =>
      simp only [current]
      rw [if_neg]
      · exact hcur
      · rintro rfl; exact h2 rfl
    | deliver evs => exact absurd rfl (h3 evs)
    | _ => exact hcur
  | @batch m s0 tr0 s1 tr1 a s2 evs hprev hs hnot hpend ih =>
    obtain ⟨hr, hcur, hmem, hidx⟩ := ih h hc hq
    have hcap := reach_cap hr
    obtain ⟨_, dl, cap, to, t0, hph, _, rfl, rfl⟩ := deliver_inv hs
    rw [hph] at hcap
    have hk := reach_kinv hok hr
    have hf := (hk.r.curOk fd cu hcur).1
    have hhot := (hot_user hk hf).2 ⟨cu, hcur, hl, (pending_iff cu _).2 (hpend cu hcur)⟩
    have hnot' : fd ∉ ((harvest c s1.k cap).1.map Prod.fst) := by
      intro hm
      apply hnot
      rw [List.mem_map] at hm
      obtain ⟨e, he, rfl⟩ := hm
      simp only [List.map_map, List.mem_map, List.mem_filter, Function.comp]
      exact ⟨e, ⟨he, by simp [hf]⟩, rfl⟩
    obtain ⟨hm', hi'⟩ := batch_moves hk.l hhot hmem hnot'
    refine ⟨hr.step hs, ?_, hm', ?_⟩
    · simp only [current, hcur, Option.map_some, hnot, if_false]
    · simp only [Phase.capOk] at hcap ⊢
      omega

/-- A source in level or one-shot mode (armed) of which a watched condition holds is passed over by fewer batches than
there are registered sources (plus the poller's own two descriptors), as long as the condition lasts: `l` is any list
of all registered descriptors and the poller's own.  No hypothesis on the size of the buffer. -/
theorem epoll_no_starvation (c : Cfg) (hok : c.Ok) (fd : Fd) (n : Nat) (s s' : S) (tr tr' : List (Obs EventExtra))
    (h : Reach c s tr) (hrun : Starving c fd n s tr s' tr') (cu : Current EventExtra) (hc : current tr fd = some cu)
    (hm : cu.mode = .level ∨ (cu.mode = .oneshot ∧ cu.fired = false)) (hp : EpollPending cu.ev (s.k.user fd))
    (l : List Fd) (hall : ∀ x, (current tr x).isSome = true ∨ c.internal x = true → x ∈ l) : n < l.length := by
  have hk := reach_kinv hok h
  have hf := (hk.r.curOk fd cu hc).1
  have hl : live cu = true := by
    rcases hm with hm | ⟨_, hf⟩
    · simp [live, hm, oneshot]
    · simp [live, hf]
  have hq : fd ∈ s.k.rdl := by
    refine hk.l.linked fd (itemOf cu) (by rw [hk.r.user fd hf, hc]; rfl) ?_ ?_
    · rw [itemOf_et cu (hk.r.curOk fd cu hc).2.2]
      rcases hm with hm | hm <;> simp [hm]
    · rw [ready_user hf, itemOf_live cu hl]; exact (pending_iff cu _).2 hp
  obtain ⟨_, _, _, hidx⟩ := starving_spec hok hrun h hc hl hq
  have h1 := List.idxOf_lt_length_of_mem hq
  have h2 : s.k.rdl.length ≤ l.length := by
    refine List.Nodup.length_le_of_subset hk.l.nodup ?_
    intro x hx
    apply hall
    cases hi : c.internal x with
    | true => exact .inr rfl
    | false =>
      left
      have := hk.l.sub x hx
      rw [hk.r.user x hi] at this
      simpa using this
  omega

/-- In any mode, also edge-triggered: a source that the kernel has queued and that is not part of a batch is still
queued afterwards, hence part of a later one. -/
theorem epoll_left_out_stays_queued (c : Cfg) (hok : c.Ok) (fd : Fd) (n : Nat) (s s' : S) (tr tr' : List (Obs EventExtra))
    (h : Reach c s tr) (hrun : Starving c fd n s tr s' tr') (cu : Current EventExtra) (hc : current tr fd = some cu)
    (hl : ¬ (cu.fired = true ∧ oneshot cu.mode = true)) (hq : fd ∈ s.k.rdl) :
    fd ∈ s'.k.rdl ∧ n ≤ s.k.rdl.idxOf fd := by
  obtain ⟨_, _, h1, h2⟩ := starving_spec hok hrun h hc (by unfold live; cases h1 : cu.fired <;> cases h2 : oneshot cu.mode <;> simp_all) hq
  exact ⟨h1, by omega⟩

/-- Four edge-triggered sources become readable while nobody waits; the buffer holds one event: all four are delivered
by four waits. -/
example : (exTrace exCfg (fun _ => 0#32)
      ([.add 7 (Event.onlyReadable 17) .edge none, .add 8 (Event.all 18) .edge none, .add 9 (Event.all 19) .edge none,
        .add 10 (Event.all 20) .edge none, .setReady 9 IN IN, .setReady 8 IN IN, .setReady 10 IN IN, .setReady 7 IN IN] ++
        waitActs 1 ++ waitActs 1 ++ waitActs 1 ++ waitActs 1)).map
      (fun tr => tr.filterMap fun o => match o with | .deliver evs => some (evs.map fun e => e.1) | _ => none) =
    some [[7], [10], [8], [9]] := by decide

end Polling.C41
