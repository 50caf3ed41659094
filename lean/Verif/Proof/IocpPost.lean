import Verif.Proof.IocpCov

/-! Packets of the user on their way, and events found but not yet returned. -/

namespace Polling.IocpM
open Iocp IocpSpec

/-- The packet of the user with this name, if it is one. -/
def posted? (c : Core) (p : PId) : Option (PId × Event EventExtra) :=
  match kind (c.pk p) with
  | .custom ev => some (p, ev)
  | _ => none

/-- The packets of the user that were posted and not yet found by a `wait`, oldest first. -/
def onTheWay (s : S) : List (PId × Event EventExtra) := (entries s).filterMap (posted? s.c)

theorem posted?_kind {c c' : Core} {p} (h : kind (c'.pk p) = kind (c.pk p)) : posted? c' p = posted? c p := by
  unfold posted?; rw [h]

theorem filterMap_posted {c c' : Core} {l : List PId} (h : ∀ p ∈ l, posted? c' p = posted? c p) : l.filterMap (posted? c') = l.filterMap (posted? c) := by
  induction l with
  | nil => rfl
  | cons p l ih => rw [List.filterMap_cons, List.filterMap_cons, h p (by simp), ih (fun q hq => h q (by simp [hq]))]

/-- The effect of a step on the packets of the user. -/
theorem ent_way {s o s'} (hei : EI s) (he : Ent s o s') (tr : List IObs) :
    ((receipts (o :: tr) ++ onTheWay s' = receipts tr ++ onTheWay s ∧ posts (o :: tr) = posts tr) ∨
     (∃ x, receipts (o :: tr) ++ onTheWay s' = receipts tr ++ onTheWay s ++ [x] ∧ posts (o :: tr) = posts tr ++ [x]) ∨
     ((∃ w e p batch, s.phase = .drain w e (p :: batch)) ∧ receipts (o :: tr) = receipts tr ∧ posts (o :: tr) = posts tr ∧
      (onTheWay s').Sublist (onTheWay s))) := by
  have hno : NoPost o → receipts (o :: tr) = receipts tr ∧ posts (o :: tr) = posts tr := by
    intro h; cases o <;> first | exact ⟨rfl, rfl⟩ | exact absurd h id
  cases he with
  | same h1 h2 h3 h4 h5 =>
    left
    rw [(hno h1).1, (hno h1).2]
    unfold onTheWay
    rw [h2, filterMap_posted fun p hp => posted?_kind (h3 p (hei.live p hp))]
    exact ⟨rfl, rfl⟩
  | @post p h1 h2 h3 h4 h5 h6 =>
    have : onTheWay s' = onTheWay s ++ (posted? s.c p).toList := by
      unfold onTheWay
      rw [h2, List.filterMap_append]
      have : posted? s'.c = posted? s.c := by funext q; unfold posted?; rw [h5]
      rw [this]
      cases hq : posted? s.c p <;> simp [List.filterMap_cons, hq]
    rcases h1 with ⟨ev, hk, rfl⟩ | ⟨hk, h1⟩
    · right; left
      refine ⟨(p, ev), ?_, rfl⟩
      have hp : posted? s.c p = some (p, ev) := by unfold posted?; rw [hk]
      rw [this, hp]
      simp [receipts]
    · left
      rw [(hno h1).1, (hno h1).2]
      have hp : posted? s.c p = none := by
        unfold posted?; split
        · rename_i ev he; exact absurd he (hk ev)
        · rfl
      rw [this, hp]; simp
  | @complete p h1 h2 h3 h4 h5 h6 =>
    left
    rw [(hno h1).1, (hno h1).2]
    refine ⟨?_, rfl⟩
    have hp : posted? s.c p = none := by unfold posted?; rw [h3]
    have hp' : posted? s'.c p = none := by unfold posted?; rw [h4]
    unfold onTheWay
    rw [h2, List.filterMap_append, filterMap_posted (c := s.c) (c' := s'.c)]
    · simp [List.filterMap_cons, hp']
    · intro q hq
      by_cases e : q = p
      · subst e; rw [hp, hp']
      · exact posted?_kind (by rw [h5 q e])
  | @feed p h1 h2 h3 h4 =>
    left
    have hsame : ∀ q, posted? s'.c q = posted? s.c q := by
      intro q
      have := h4 q
      split at this
      · rename_i hh
        obtain ⟨rfl, b, hb⟩ := hh
        unfold posted?; rw [this, hb]
      · exact posted?_kind this
    have hw : onTheWay s = (posted? s.c p).toList ++ onTheWay s' := by
      unfold onTheWay
      rw [h2, List.filterMap_cons, filterMap_posted (c := s.c) (c' := s'.c) fun q _ => hsame q]
      cases posted? s.c p <;> rfl
    rcases h1 with ⟨ev, hk, rfl⟩ | ⟨hk, h1⟩
    · have hp : posted? s.c p = some (p, ev) := by unfold posted?; rw [hk]
      rw [hw, hp]
      exact ⟨by simp [receipts], rfl⟩
    · have hp : posted? s.c p = none := by
        unfold posted?; split
        · rename_i ev he; exact absurd he (hk ev)
        · rfl
      rw [hw, hp, (hno h1).1, (hno h1).2]
      exact ⟨rfl, rfl⟩
  | @drop batch h1 h3 h4 h5 h6 =>
    right; right
    obtain ⟨w, e, p, l, hph, _⟩ := h3
    refine ⟨⟨w, e, p, l, hph⟩, (hno h1).1, (hno h1).2, ?_⟩
    have hsame : ∀ q, posted? s'.c q = posted? s.c q := by
      intro q
      have := h6 q
      split at this
      · rename_i hh
        obtain ⟨_, b, hb⟩ := hh
        unfold posted?; rw [this, hb]
      · exact posted?_kind this
    unfold onTheWay
    rw [h4, List.filterMap_append, filterMap_posted (c := s.c) (c' := s'.c) fun q _ => hsame q]
    exact List.sublist_append_right _ _

theorem reach_posts {n P s tr} (h : Reach n P s tr) : (receipts tr ++ onTheWay s).Sublist (posts tr) := by
  induction h with
  | init => exact .slnil
  | @step s tr a s' o hr hp hs ih =>
    rcases ent_way (reach_ei hr) (reach_ent hr hs) tr with ⟨h1, h2⟩ | ⟨x, h1, h2⟩ | ⟨_, h1, h2, h3⟩
    · rw [h1, h2]; exact ih
    · rw [h1, h2]; exact ih.append (List.Sublist.refl _)
    · rw [h1, h2]; exact (List.Sublist.append (List.Sublist.refl _) h3).trans ih

theorem reach_posts_eq {n P s tr} (hP : ∀ s a, P s a → NoFail s a) (h : Reach n P s tr) : posts tr = receipts tr ++ onTheWay s := by
  induction h with
  | init => rfl
  | @step s tr a s' o hr hp hs ih =>
    rcases ent_way (reach_ei hr) (reach_ent hr hs) tr with ⟨h1, h2⟩ | ⟨x, h1, h2⟩ | ⟨⟨w, e, p, b, hph⟩, _⟩
    · rw [h1, h2]; exact ih
    · rw [h1, h2, ih]
    · exact absurd hph (noFail hP hr _ _ _)

/-- What was found, and what of it was returned. -/
theorem reach_returned {n P s tr} (hP : ∀ s a, P s a → NoFail s a) (h : Reach n P s tr) :
    (everFound tr).filter (fun ev => ev.key != NOTIFY_KEY) = everReturned tr ++ (s.phase.collected.getD []).filter (fun ev => ev.key != NOTIFY_KEY) := by
  induction h with
  | init => rfl
  | @step s tr a s' o hr hp hs ih =>
    have hcnt := (reach_count hr).1
    have keep : everFound (o :: tr) = everFound tr → everReturned (o :: tr) = everReturned tr → s'.phase.collected.getD [] = s.phase.collected.getD [] →
        (everFound (o :: tr)).filter (fun ev => ev.key != NOTIFY_KEY) =
          everReturned (o :: tr) ++ (s'.phase.collected.getD []).filter (fun ev => ev.key != NOTIFY_KEY) := by
      intro h1 h2 h3; rw [h1, h2, h3]; exact ih
    have uob : UObs o → everFound (o :: tr) = everFound tr ∧ everReturned (o :: tr) = everReturned tr := by
      intro h; cases o <;> first | exact ⟨rfl, rfl⟩ | exact absurd h id
    cases a with
    | go t fault =>
      simp only [step] at hs
      split at hs
      · cases hs
      unfold goCall at hs
      split at hs
      case _ => split at hs <;> (cases hs; exact keep rfl rfl rfl)
      case _ => repeat' split at hs
                all_goals cases hs
                all_goals exact keep rfl rfl rfl
      case _ => split at hs <;> cases hs; exact keep rfl rfl rfl
      case _ => cases hs; exact keep rfl rfl rfl
      case _ =>
        split at hs
        · rename_i hu; have := uobs_ustep hu; cases hs; exact keep (uob this).1 (uob this).2 rfl
        · rename_i hu; have := uobs_ustep hu; cases hs; exact keep (uob this).1 (uob this).2 rfl
      case _ => cases hs; exact keep rfl rfl rfl
      case _ => cases hs
    | wait fault =>
      have hnf := noFail hP (hr.step hp hs)
      simp only [step, goWait] at hs
      split at hs
      · rename_i hph; cases hs; exact keep rfl rfl (by rw [hph]; rfl)
      · rename_i hph; cases hs; exact keep rfl rfl (by rw [hph]; rfl)
      · rename_i hph; split at hs <;> (cases hs; exact keep rfl rfl (by rw [hph]; rfl))
      · rename_i w q hph
        split at hs
        · rename_i m _
          have := uobs_updateObs q m
          cases hs; exact keep (uob this).1 (uob this).2 (by rw [hph]; rfl)
        · rename_i m _
          have := uobs_updateObs q m
          cases hs
          rw [hph] at hcnt
          have hcnt : w.evs = [] := hcnt
          exact keep (uob this).1 (uob this).2 (by rw [hph]; simp [Phase.collected, hcnt])
      · rename_i hph; cases hs; exact keep rfl rfl (by rw [hph]; rfl)
      · rename_i w e hph
        unfold waitFail at hs
        split at hs <;> (cases hs; exact keep rfl rfl (by rw [hph]; rfl))
      · rename_i hph; exact absurd hph (noFail hP hr _ _ _)
      · rename_i hph; exact absurd hph (noFail hP hr _ _ _)
      · rename_i w p batch hph
        have hcol : s.phase.collected.getD [] = w.evs := by rw [hph]; rfl
        rw [hcol] at ih
        split at hs
        · cases hs; exact keep rfl rfl (by rw [hph]; rfl)
        · cases hs; exact keep rfl rfl (by rw [hph]; rfl)
        · rename_i ev c _
          cases hs
          simp only [everFound, everReturned, Phase.collected, addEvent, Option.getD_some, List.filter_append, ih, List.append_assoc]
        · rename_i c he; exact absurd (congrArg Prod.fst he) (feed_not_stuck hr p)
        · rename_i k fd ev c _
          cases hs
          cases ev with
          | none =>
            simp only [everFound, everReturned, Phase.collected, Option.getD_some, Option.toList, List.append_nil]; exact ih
          | some ev =>
            simp only [everFound, everReturned, Phase.collected, Option.getD_some, Option.toList, List.filter_append, ih, List.append_assoc]
      · rename_i w b u ev hph
        have hcol : s.phase.collected.getD [] = w.evs ++ ev.toList := by rw [hph]; rfl
        split at hs
        · rename_i hu; have := uobs_ustep hu; cases hs; exact keep (uob this).1 (uob this).2 (by rw [hph]; rfl)
        · rename_i hu; have := uobs_ustep hu; cases hs
          refine keep (uob this).1 (uob this).2 ?_
          rw [hcol]
          cases ev <;> simp [addEvent, Phase.collected]
        · cases hs; exact absurd rfl (hnf _ _ _)
      · rename_i evs hph
        cases hs
        have hcol : s.phase.collected.getD [] = evs := by rw [hph]; rfl
        rw [hcol] at ih
        simp only [everFound, everReturned, Phase.collected, Option.getD_none, List.filter_nil, List.append_nil]
        exact ih
      · cases hs
    | waitBegin timed cap =>
      simp only [step] at hs
      split at hs
      · rename_i hph; split at hs <;> cases hs; exact keep rfl rfl (by rw [hph]; rfl)
      · cases hs
    | get =>
      simp only [step] at hs
      split at hs
      · rename_i hph; split at hs <;> cases hs; exact keep rfl rfl (by rw [hph]; rfl)
      · cases hs
    | getFail e =>
      simp only [step] at hs
      split at hs
      · rename_i w hph; cases hs
        rw [hph] at hcnt
        have hcnt : w.evs = [] := hcnt
        exact keep rfl rfl (by rw [hph]; simp [Phase.collected, hcnt])
      · cases hs
    | decide expired =>
      simp only [step] at hs
      split at hs
      · rename_i hph; split at hs <;> (cases hs; exact keep rfl rfl (by rw [hph]; rfl))
      · cases hs
    | _ =>
      simp only [step] at hs
      repeat' split at hs
      all_goals cases hs
      all_goals exact keep rfl rfl rfl

/-- The steps of an execution, with the states before them. -/
inductive Steps (n : Nat) : S → List (S × Act) → S → Prop
  | nil (s) : Steps n s [] s
  | cons {s a s' o l s''} : step n s a = some (s', o) → (∀ w e p b, s.phase ≠ .drain w e (p :: b)) → Steps n s' l s'' →
      Steps n s ((s, a) :: l) s''

/-- Some step processed the completion entry. -/
def Processed (l : List (S × Act)) (p : PId) : Prop := ∃ s a, (s, a) ∈ l ∧ ∃ w batch, s.phase = .feed w (p :: batch)

/-- An entry keeps its place: only those before it are processed before it. -/
theorem steps_place {n s l s' tr} {P : S → Act → Prop} (hr : Reach n P s tr) (hP : ∀ s a, P s a) (h : Steps n s l s') (p : PId) :
    ∀ l1 l2, entries s = l1 ++ p :: l2 → Processed l p ∨ ∃ i l2', entries s' = l1.drop i ++ p :: l2' := by
  induction h generalizing tr with
  | nil s => intro l1 l2 he; exact .inr ⟨0, l2, he⟩
  | @cons s a s' o l s'' hs hf _ ih =>
    intro l1 l2 he
    have hr' := hr.step (hP s a) hs
    have next : ∀ i l2', entries s' = l1.drop i ++ p :: l2' → Processed ((s, a) :: l) p ∨ ∃ i l2', entries s'' = l1.drop i ++ p :: l2' := by
      intro i l2' h
      rcases ih hr' _ _ h with ⟨s1, a1, hm, hh⟩ | ⟨j, l3, h⟩
      · exact .inl ⟨s1, a1, List.mem_cons_of_mem _ hm, hh⟩
      · exact .inr ⟨i + j, l3, by rw [h, List.drop_drop]⟩
    cases reach_ent hr hs with
    | same _ h2 => exact next 0 l2 (by rw [h2, he]; rfl)
    | @post q _ h2 => exact next 0 (l2 ++ [q]) (by rw [h2, he]; simp)
    | @complete q _ h2 => exact next 0 (l2 ++ [q]) (by rw [h2, he]; simp)
    | @feed q _ h2 _ _ h5 =>
      cases l1 with
      | nil =>
        rw [List.nil_append] at he
        rw [he] at h2
        injection h2 with h2 _
        subst h2
        exact .inl ⟨s, a, List.mem_cons_self, h5⟩
      | cons x l1 =>
        rw [List.cons_append] at he
        rw [he] at h2
        injection h2 with _ h2
        refine next 1 l2 ?_
        rw [← h2]; rfl
    | @drop batch _ h3 =>
      obtain ⟨w, e, p, l, hph, _⟩ := h3
      exact absurd hph (hf _ _ _ _)

end Polling.IocpM
