import Verif.Spec.Live

/-! When an event may be expected (`Spec/Live.lean`): for traces in terms of `Spec/Trace.lean`. -/

namespace Polling.Live
open Spec

/-- How the visible part of a trace can be cut at an observation. -/
theorem flatMap_split {O : Type} (f : O → List Obs) : ∀ (tr : List O) (l2 : List Obs) (x : Obs) (l1 : List Obs), tr.flatMap f = l2 ++ x :: l1 →
    ∃ m2 o m1 a b, tr = m2 ++ o :: m1 ∧ f o = a ++ x :: b ∧ l2 = m2.flatMap f ++ a ∧ l1 = b ++ m1.flatMap f := by
  intro tr
  induction tr with
  | nil => intro l2 x l1 h; simp at h
  | cons o tr ih =>
    intro l2 x l1 h
    rw [List.flatMap_cons, List.append_eq_append_iff] at h
    rcases h with ⟨a', h1, h2⟩ | ⟨c', h1, h2⟩
    · obtain ⟨m2, o', m1, a, b, e1, e2, e3, e4⟩ := ih a' x l1 h2
      refine ⟨o :: m2, o', m1, a, b, by rw [e1]; rfl, e2, ?_, e4⟩
      rw [h1, e3, List.flatMap_cons, List.append_assoc]
    · cases c' with
      | nil =>
        obtain ⟨m2, o', m1, a, b, e1, e2, e3, e4⟩ := ih [] x l1 (by simpa using h2.symm)
        refine ⟨o :: m2, o', m1, a, b, by rw [e1]; rfl, e2, ?_, e4⟩
        rw [List.flatMap_cons, List.append_assoc, ← e3, h1]
        simp
      | cons y c' =>
        simp only [List.cons_append, List.cons.injEq] at h2
        exact ⟨[], o, tr, l2, c', rfl, by rw [h1, h2.1], by simp, h2.2⟩

variable {X : Type}

/-- A `wait` has taken events and not returned yet. -/
def openD : List (Spec.Obs X) → Bool
  | [] => false
  | .deliver _ :: _ => true
  | .waitOk _ _ :: _ => false
  | .waitErr _ :: _ => false
  | _ :: tr => openD tr

/-- What a `wait` takes it returns, and waits do not overlap. -/
structure Orderly (tr : List (Spec.Obs X)) : Prop where
  keys : EveryDelivery RightKey tr
  shows : ∀ later n evs earlier, tr = later ++ .waitOk n evs :: earlier → ∃ ds, lastDelivery earlier = some ds ∧ evs = ds.map Prod.snd
  starts : ∀ later o earlier, tr = later ++ o :: earlier → (o = .waitBegin ∨ ∃ evs, o = .deliver evs) → openD earlier = false

theorem Orderly.tail {o : Spec.Obs X} {tr : List (Spec.Obs X)} (h : Orderly (o :: tr)) : Orderly tr :=
  ⟨fun l d e he => h.keys (o :: l) d e (by rw [he]; rfl), fun l n d e he => h.shows (o :: l) n d e (by rw [he]; rfl),
    fun l x e he => h.starts (o :: l) x e (by rw [he]; rfl)⟩

/-- After a registration without further calls. -/
theorem after_reg {fd : Fd} {ev : Event X} {mode : PollMode} {m1 : List (Spec.Obs X)} : ∀ m2 : List (Spec.Obs X),
    Orderly (m2 ++ .reg fd ev mode :: m1) → (∀ u call, .begin u call ∈ m2.flatMap ofObs → call.fd ≠ fd) →
    ∃ b, current (m2 ++ .reg fd ev mode :: m1) fd = some ⟨ev, mode, b⟩ ∧
      (b = true → .waitErr ∈ m2.flatMap ofObs ∨ (∃ keys, .waitOk keys ∈ m2.flatMap ofObs ∧ ev.key ∈ keys) ∨
        openD (m2 ++ .reg fd ev mode :: m1) = true ∧
          ∃ ds e, lastDelivery (m2 ++ .reg fd ev mode :: m1) = some ds ∧ (fd, e) ∈ ds ∧ e.key = ev.key) := by
  intro m2
  induction m2 with
  | nil => intro _ _; exact ⟨false, by simp [current], nofun⟩
  | cons o m2 ih =>
    intro ho hb
    obtain ⟨b, hc, hf⟩ := ih ho.tail (fun u call hm => hb u call (by rw [List.flatMap_cons]; exact List.mem_append_right _ hm))
    simp only [List.cons_append]
    have keep : current (o :: (m2 ++ .reg fd ev mode :: m1)) fd = current (m2 ++ .reg fd ev mode :: m1) fd →
        openD (o :: (m2 ++ .reg fd ev mode :: m1)) = openD (m2 ++ .reg fd ev mode :: m1) →
        lastDelivery (o :: (m2 ++ .reg fd ev mode :: m1)) = lastDelivery (m2 ++ .reg fd ev mode :: m1) →
        ∃ b, current (o :: (m2 ++ .reg fd ev mode :: m1)) fd = some ⟨ev, mode, b⟩ ∧
          (b = true → .waitErr ∈ (o :: m2).flatMap ofObs ∨ (∃ keys, .waitOk keys ∈ (o :: m2).flatMap ofObs ∧ ev.key ∈ keys) ∨
            openD (o :: (m2 ++ .reg fd ev mode :: m1)) = true ∧
              ∃ ds e, lastDelivery (o :: (m2 ++ .reg fd ev mode :: m1)) = some ds ∧ (fd, e) ∈ ds ∧ e.key = ev.key) := by
      intro h1 h2 h3
      refine ⟨b, h1.trans hc, fun hb => ?_⟩
      rw [h2, h3, List.flatMap_cons]
      rcases hf hb with h | ⟨ks, h, hk⟩ | h
      · exact .inl (List.mem_append_right _ h)
      · exact .inr (.inl ⟨ks, List.mem_append_right _ h, hk⟩)
      · exact .inr (.inr h)
    -- what was the case before stays so, if nothing is on its way
    have old : openD (m2 ++ .reg fd ev mode :: m1) = false → b = true →
        .waitErr ∈ (o :: m2).flatMap ofObs ∨ ∃ keys, .waitOk keys ∈ (o :: m2).flatMap ofObs ∧ ev.key ∈ keys := by
      intro h2 hb
      rw [List.flatMap_cons]
      rcases hf hb with h | ⟨ks, h, hk⟩ | ⟨h, _⟩
      · exact .inl (List.mem_append_right _ h)
      · exact .inr ⟨ks, List.mem_append_right _ h, hk⟩
      · rw [h2] at h; cases h
    cases o with
    | reg g ev' mode' =>
      have hne : fd ≠ g := fun e => hb 0 (.set g ev'.key ev'.readable ev'.writable mode') (by simp [ofObs]) e.symm
      exact keep (by simp [current, hne]) rfl rfl
    | unreg g =>
      have hne : fd ≠ g := fun e => hb 0 (.delete g) (by simp [ofObs]) e.symm
      exact keep (by simp [current, hne]) rfl rfl
    | deliver ds =>
      have hop := ho.starts [] _ _ rfl (.inr ⟨ds, rfl⟩)
      by_cases hm : fd ∈ ds.map Prod.fst
      · refine ⟨true, by simp [current, hc, hm], fun _ => .inr (.inr ⟨rfl, ?_⟩)⟩
        obtain ⟨⟨g, e⟩, hm, hg⟩ := List.mem_map.mp hm
        have hg : g = fd := hg
        rw [hg] at hm
        obtain ⟨c, h1, h2⟩ := ho.keys [] ds (m2 ++ .reg fd ev mode :: m1) rfl fd e hm
        rw [hc] at h1
        cases h1
        exact ⟨ds, e, rfl, hm, h2⟩
      · refine ⟨b, by simp [current, hc, hm], fun hb => ?_⟩
        rcases old hop hb with h | h
        · exact .inl h
        · exact .inr (.inl h)
    | waitBegin =>
      have hop := ho.starts [] _ _ rfl (.inl rfl)
      refine ⟨b, hc, fun hb => ?_⟩
      rcases old hop hb with h | h
      · exact .inl h
      · exact .inr (.inl h)
    | waitOk n evs =>
      refine ⟨b, hc, fun hb => ?_⟩
      rw [List.flatMap_cons]
      rcases hf hb with h | ⟨ks, h, hk⟩ | ⟨_, ds, e, h1, h2, h3⟩
      · exact .inl (List.mem_append_right _ h)
      · exact .inr (.inl ⟨ks, List.mem_append_right _ h, hk⟩)
      · obtain ⟨ds', g1, g2⟩ := ho.shows [] n evs (m2 ++ .reg fd ev mode :: m1) rfl
        rw [h1] at g1
        cases g1
        refine .inr (.inl ⟨evs.map Event.key, by simp [ofObs], ?_⟩)
        rw [g2, List.map_map, List.mem_map]
        exact ⟨(fd, e), h2, h3⟩
    | waitErr e => exact ⟨b, hc, fun _ => .inl (by simp [ofObs])⟩
    | _ => exact keep rfl rfl rfl

/-- What a program waits for is registered, and armed. -/
theorem asked_current {tr : List (Spec.Obs X)} (ho : Orderly tr) (hcl : openD tr = false) {fd key r w mode}
    (h : Asked (tr.flatMap ofObs) fd key r w mode) :
    ∃ cu, current tr fd = some cu ∧ cu.ev.key = key ∧ cu.ev.readable = r ∧ cu.ev.writable = w ∧ cu.mode = mode ∧
      (mode = .level ∨ mode = .oneshot ∧ cu.fired = false) := by
  obtain ⟨l2, t, l1, he, _, hb, _, hm⟩ := h
  obtain ⟨m2, o, m1, a, b, rfl, e2, rfl, rfl⟩ := flatMap_split _ _ _ _ _ he
  have hreg : ∃ ev, o = .reg fd ev mode ∧ ev.key = key ∧ ev.readable = r ∧ ev.writable = w := by
    cases o with
    | reg g ev mode' =>
      cases a with
      | nil => cases e2
      | cons x a =>
        cases a with
        | nil => simp only [ofObs, List.cons_append, List.nil_append, List.cons.injEq, Obs.begin.injEq, Call.set.injEq] at e2
                 obtain ⟨_, ⟨_, rfl, rfl, rfl, rfl, rfl⟩, _⟩ := e2
                 exact ⟨ev, rfl, rfl, rfl, rfl⟩
        | cons y a => simp [ofObs] at e2
    | unreg g =>
      cases a with
      | nil => cases e2
      | cons x a =>
        cases a with
        | nil => simp [ofObs] at e2
        | cons y a => simp [ofObs] at e2
    | waitOk n evs => cases a <;> simp [ofObs] at e2
    | waitErr e => cases a <;> simp [ofObs] at e2
    | _ => simp [ofObs] at e2
  obtain ⟨ev, rfl, rfl, rfl, rfl⟩ := hreg
  obtain ⟨f, hc, hf⟩ := after_reg m2 ho (fun u call hm => hb u call (List.mem_append_left _ hm))
  refine ⟨_, hc, rfl, rfl, rfl, rfl, ?_⟩
  rcases hm with hm | ⟨hm, h1, h2⟩
  · exact .inl hm
  · refine .inr ⟨hm, ?_⟩
    cases f with
    | false => rfl
    | true =>
      rcases hf rfl with h | ⟨ks, h, hk⟩ | ⟨h, _⟩
      · exact absurd (List.mem_append_left _ h) h1
      · exact absurd hk (h2 ks (List.mem_append_left _ h))
      · rw [hcl] at h; cases h

end Polling.Live
