import Verif.Proof.ApiSeq
import Verif.Proof.PollView

/-! The portable contract on the poll backend: the marks of a run. -/

namespace Polling.Api
open PollP PollB PollSpec Spec

/-- The source and event pairs of a batch. -/
def pairs (tr : List PObs) (os : Fd → PollFlags.Flags → PollFlags.Flags) (order : List Fd) (l : List (Event PollB.EventExtra)) :
    List (Fd × Event PollB.EventExtra) :=
  (order.filter (readyNow os (current (history false tr)))).zip l

/-- A call takes effect when the table is changed. -/
def marksP : List PObs → List Mark
  | [] => []
  | .callBegin t op :: tr => .vis (.begin t (ofOp op)) :: marksP tr
  | .applied t op r :: tr => if r = .ok then .eff t (ofOp op) false :: marksP tr else marksP tr
  | .callEnd t r :: tr => .vis (.ret t (r == .ok)) :: marksP tr
  | .round _ os order _ (.events l) :: tr => takesOf (pairs tr os order l) ++ marksP tr
  | .waitBegin _ :: tr => .vis .waitBegin :: marksP tr
  | .waitOk _ _ evs :: tr => .vis (.waitOk (evs.map view)) :: marksP tr
  | .waitErr _ _ :: tr => .vis .waitErr :: marksP tr
  | _ :: tr => marksP tr

theorem erase_marksP (tr : List PObs) : erase (marksP tr) = ofPObs tr := by
  induction tr with
  | nil => rfl
  | cons o tr ih =>
    cases o
    case applied t op r => simp only [marksP, ofPObs]; split <;> simpa only [erase] using ih
    case round t os order b out =>
      cases out
      case events l => simp only [marksP, ofPObs]; rw [erase_takes]; exact ih
      all_goals exact ih
    all_goals simp only [marksP, ofPObs, erase, ih]

/-- The marks of a call in progress. -/
def StP (tr : List PObs) (t : Tid) : CallSt → Prop
  | .idle => busy (marksP tr) t = none
  | .begun op => busy (marksP tr) t = some (ofOp op) ∧ done (marksP tr) t false = false ∧ .begin t (ofOp op) ∈ ofPObs tr
  | .done r => busy (marksP tr) t ≠ none ∧ done (marksP tr) t false = (r == .ok)

theorem done_parts (tr : List PObs) (t : Tid) : done (marksP tr) t true = false := by
  induction tr with
  | nil => rfl
  | cons o tr ih =>
    cases o
    case applied u op r => simp only [marksP]; split <;> simp [done, ih]
    case round u os order b out =>
      cases out
      case events l => simp only [marksP]; rw [done_takes]; exact ih
      all_goals exact ih
    case callBegin u op => simp [marksP, done, ih]
    case callEnd u r => simp [marksP, done, ih]
    all_goals exact ih

theorem stP {tr : List PObs} {t : Tid} {st : CallSt} (h : callState t tr = some st) : StP tr t st := by
  induction tr generalizing st with
  | nil => cases h; rfl
  | cons o tr ih =>
    simp only [callState, Option.bind_eq_some_iff] at h
    obtain ⟨st0, h0, h⟩ := h
    have ih := ih h0
    have keep : (∀ t', busy (marksP (o :: tr)) t' = busy (marksP tr) t') → (∀ t' c, done (marksP (o :: tr)) t' c = done (marksP tr) t' c) →
        ofPObs (o :: tr) = ofPObs tr ∨ (∃ x, ofPObs (o :: tr) = x :: ofPObs tr) → StP (o :: tr) t st0 := by
      intro hb hd hv
      cases st0 with
      | idle => exact (hb t).trans ih
      | begun op =>
        obtain ⟨h1, h2, h3⟩ := ih
        refine ⟨(hb t).trans h1, (hd t _).trans h2, ?_⟩
        rcases hv with hv | ⟨x, hv⟩ <;> rw [hv]
        · exact h3
        · exact List.mem_cons_of_mem _ h3
      | done r =>
        obtain ⟨h1, h2⟩ := ih
        exact ⟨by rw [hb t]; exact h1, (hd t _).trans h2⟩
    cases o
    case callBegin u op =>
      simp only [callNext] at h
      split at h
      · rename_i hu
        cases h
        cases st with
        | idle => simpa [StP, marksP, busy, hu] using ih
        | begun op' =>
          obtain ⟨h1, h2, h3⟩ := ih
          exact ⟨by simpa [marksP, busy, hu] using h1, by simpa [marksP, done, hu] using h2, List.mem_cons_of_mem _ h3⟩
        | done r =>
          obtain ⟨h1, h2⟩ := ih
          exact ⟨by simpa [marksP, busy, hu] using h1, by simpa [marksP, done, hu] using h2⟩
      · rename_i hu
        have hu : u = t := by simpa using hu
        subst hu
        split at h
        · cases h
          exact ⟨by simp [marksP, busy], by simp [marksP, done], by simp [ofPObs]⟩
        · cases h
    case applied u op r =>
      simp only [callNext] at h
      split at h
      · rename_i hu
        cases h
        cases st with
        | idle => simp only [StP, marksP]; split <;> simpa [StP, busy] using ih
        | begun op' =>
          obtain ⟨h1, h2, h3⟩ := ih
          refine ⟨?_, ?_, h3⟩
          · simp only [marksP]; split <;> simpa [busy] using h1
          · simp only [marksP]; split <;> simpa [done, hu] using h2
        | done r' =>
          obtain ⟨h1, h2⟩ := ih
          refine ⟨?_, ?_⟩
          · simp only [marksP]; split <;> simpa [busy] using h1
          · simp only [marksP]; split <;> simpa [done, hu] using h2
      · rename_i hu
        have hu : u = t := by simpa using hu
        subst hu
        split at h
        · rename_i hst
          subst hst
          cases h
          obtain ⟨h1, h2, h3⟩ := ih
          refine ⟨?_, ?_⟩
          · simp only [marksP]; split <;> simp [busy, h1]
          · simp only [marksP]
            split
            · rename_i hr; subst hr; simp [done]
            · rename_i hr; rw [h2]; exact (beq_eq_false_iff_ne.mpr hr).symm
        · cases h
    case callEnd u r =>
      simp only [callNext] at h
      split at h
      · rename_i hu
        cases h
        cases st with
        | idle => simpa [StP, marksP, busy, hu] using ih
        | begun op' =>
          obtain ⟨h1, h2, h3⟩ := ih
          exact ⟨by simpa [marksP, busy, hu] using h1, by simpa [marksP, done, hu] using h2, List.mem_cons_of_mem _ h3⟩
        | done r =>
          obtain ⟨h1, h2⟩ := ih
          exact ⟨by simpa [marksP, busy, hu] using h1, by simpa [marksP, done, hu] using h2⟩
      · rename_i hu
        have hu : u = t := by simpa using hu
        subst hu
        split at h
        · cases h; simp [StP, marksP, busy]
        · cases h
    case round u os order b out =>
      cases h
      cases out
      case events l => exact keep (fun t' => by simp only [marksP]; exact busy_takes _ _ _) (fun t' c => by simp only [marksP]; exact done_takes _ _ _ _) (.inl rfl)
      all_goals exact keep (fun _ => rfl) (fun _ _ => rfl) (.inl rfl)
    all_goals (cases h; exact keep (fun _ => rfl) (fun _ _ => rfl) (by first | exact .inl rfl | exact .inr ⟨_, rfl⟩))

theorem history_cons (b : Bool) (o : PObs) (tr : List PObs) : ∃ x, history b (o :: tr) = x :: history b tr := by
  cases o
  case applied t op r =>
    cases op <;> cases r
    case modify.err fd ev mode e => cases e <;> exact ⟨_, rfl⟩
    all_goals exact ⟨_, rfl⟩
  case round t os order n out => cases out <;> exact ⟨_, rfl⟩
  all_goals exact ⟨_, rfl⟩

theorem agreesP (tr : List PObs) : Agrees (marksP tr) (current (history false tr)) := by
  induction tr with
  | nil => intro fd c h; cases h
  | cons o tr ih =>
    cases o
    case applied t op r =>
      cases op <;> cases r
      case modify.err fd ev mode e => cases e <;> exact ih
      case add.ok fd ev mode => exact agrees_reg ih t fd ev mode
      case modify.ok fd ev mode => exact agrees_reg ih t fd ev mode
      case delete.ok fd => exact agrees_unreg ih t fd
      all_goals exact ih
    case round t os order b out =>
      cases out
      case events l => exact agrees_takes ih
      all_goals exact ih
    all_goals exact ih

/-- Every registration comes from a call. -/
theorem oneshotP {c P s tr} (h : Reach c P s tr) (ha : AllOneshot (ofPObs tr)) (fd : Fd) (cu : Current PollB.EventExtra)
    (hc : current (history false tr) fd = some cu) : oneshot cu.mode = true := by
  induction tr generalizing s cu with
  | nil => cases hc
  | cons o tr ih =>
    obtain ⟨s', h'⟩ := reach_tail h
    have hsub : ∀ x ∈ ofPObs tr, x ∈ ofPObs (o :: tr) := by
      intro x hx
      cases o <;> first | exact hx | exact List.mem_cons_of_mem _ hx
    have ih := ih h' (fun t fd k b hm => ha t fd k b (hsub _ hm))
    have hbeg : ∀ t op r, o = .applied t op r → .begin t (ofOp op) ∈ ofPObs tr := by
      intro t op r he
      subst he
      have h1 := reach_call h t
      simp only [callState, Option.bind_eq_some_iff] at h1
      obtain ⟨st0, h0, h1⟩ := h1
      simp only [callNext, ne_eq, not_true_eq_false, if_false] at h1
      split at h1
      · rename_i hst; subst hst
        exact (stP h0).2.2
      · cases h1
    cases o
    case applied t op r =>
      have hb := hbeg t op r rfl
      cases op <;> cases r
      case modify.err fd' ev mode e => cases e <;> exact ih cu hc
      case add.ok fd' ev mode =>
        simp only [history, current] at hc
        split at hc
        · cases hc; exact ha t fd' ev.key _ (hsub _ hb)
        · exact ih cu hc
      case modify.ok fd' ev mode =>
        simp only [history, current] at hc
        split at hc
        · cases hc; exact ha t fd' ev.key _ (hsub _ hb)
        · exact ih cu hc
      case delete.ok fd' =>
        simp only [history, current] at hc
        split at hc
        · cases hc
        · exact ih cu hc
      all_goals exact ih cu hc
    case round t os order b out =>
      cases out
      case events l =>
        simp only [history, current] at hc
        cases hcur : current (history false tr) fd with
        | none => rw [hcur] at hc; cases hc
        | some c0 =>
          rw [hcur] at hc
          simp only [Option.map_some, Option.some.injEq] at hc
          have := ih c0 hcur
          subst hc
          split <;> exact this
      all_goals exact ih cu hc
    all_goals exact ih cu hc

/-- What the `wait` in progress has collected was taken. -/
theorem pendP {c P s tr} (h : Reach c P s tr) (hno : NoRejectedModify tr) {t : Tid} {l : List (Event PollB.EventExtra)}
    (hw : waitState tr = some (.got t l)) :
    ∃ ds rest, pend (marksP tr) = List.map (fun d : Fd × Event PollB.EventExtra => (false, d.2.key)) ds ++ rest ∧ ds.map Prod.snd = l := by
  induction tr generalizing s l with
  | nil => cases hw
  | cons o tr ih =>
    obtain ⟨s', h'⟩ := reach_tail h
    have hno' : NoRejectedModify tr := fun t fd ev mode hm => hno t fd ev mode (List.mem_cons_of_mem _ hm)
    simp only [waitState, Option.bind_eq_some_iff] at hw
    obtain ⟨st0, h0, hw⟩ := hw
    have keep : pend (marksP (o :: tr)) = pend (marksP tr) → st0 = .got t l →
        ∃ ds rest, pend (marksP (o :: tr)) = List.map (fun d : Fd × Event PollB.EventExtra => (false, d.2.key)) ds ++ rest ∧ ds.map Prod.snd = l := by
      intro hp he
      subst he
      rw [hp]
      exact ih h' hno' h0
    cases o
    case waitBegin u => simp only [waitNext] at hw; split at hw <;> cases hw
    case polled u tb =>
      simp only [waitNext] at hw; split at hw
      · rename_i h; subst h; cases hw
      · cases hw
    case pollFailed u =>
      simp only [waitNext] at hw; split at hw
      · rename_i h; subst h; cases hw
      · cases hw
    case round u os order b out =>
      cases out
      case again =>
        simp only [waitNext] at hw; split at hw
        · rename_i h; subst h; cases hw
        · cases hw
      case res r => cases hw
      case events l' =>
        simp only [waitNext] at hw; split at hw
        · cases hw
          refine ⟨pairs tr os order l, pend (marksP tr), ?_, ?_⟩
          · simp only [marksP]; exact pend_takes _ _
          · have := (batch_spec h).all
            rw [history_clean hno' true] at this
            exact this
        · cases hw
    case waitOk u n evs =>
      simp only [waitNext] at hw
      split at hw <;> (try split at hw) <;> cases hw
    case waitErr u e => simp only [waitNext] at hw; split at hw <;> cases hw
    case waitBusy u =>
      simp only [waitNext] at hw; split at hw
      · cases hw
      · cases hw; exact keep rfl rfl
    case applied u op r => cases hw; exact keep (by simp only [marksP]; split <;> rfl) rfl
    all_goals (cases hw; exact keep rfl rfl)

/-- **The marks of a run of the poll backend obey the rules.** -/
theorem wf_poll {c P s tr} {once : Prop} (h : Reach c P s tr) (hno : NoRejectedModify tr) (hk : EveryDelivery RightKey (history false tr))
    (ho : once → EveryDelivery OneShot (history false tr) ∧ AllOneshot (ofPObs tr)) : WF [false] True once (marksP tr) := by
  induction tr generalizing s with
  | nil => exact .nil
  | cons o tr ih =>
    obtain ⟨s', h'⟩ := reach_tail h
    have hno' : NoRejectedModify tr := fun t fd ev mode hm => hno t fd ev mode (List.mem_cons_of_mem _ hm)
    have hob : once → AllOneshot (ofPObs tr) := fun hon t fd k b hm => (ho hon).2 t fd k b (by
      cases o <;> first | exact hm | exact List.mem_cons_of_mem _ hm)
    obtain ⟨x, hx⟩ := history_cons false o tr
    have hsuf : ∀ Pr : (Fd → Option (Current PollB.EventExtra)) → List (Fd × Event PollB.EventExtra) → Prop,
        EveryDelivery Pr (history false (o :: tr)) → EveryDelivery Pr (history false tr) := by
      intro Pr hp later evs earlier he
      exact hp (x :: later) evs earlier (by rw [hx, he]; rfl)
    have ih := ih h' hno' (hsuf _ hk) (fun hon => ⟨hsuf _ (ho hon).1, hob hon⟩)
    have hcall := reach_call h
    cases o
    case callBegin t op =>
      refine .cons ih ?_
      have h1 := hcall t
      simp only [callState, Option.bind_eq_some_iff] at h1
      obtain ⟨st0, h0, h1⟩ := h1
      simp only [callNext, ne_eq, not_true_eq_false, if_false] at h1
      split at h1
      · rename_i hst; subst hst; exact stP h0
      · cases h1
    case applied t op r =>
      simp only [marksP]
      split
      · refine .cons ih ?_
        have h1 := hcall t
        simp only [callState, Option.bind_eq_some_iff] at h1
        obtain ⟨st0, h0, h1⟩ := h1
        simp only [callNext, ne_eq, not_true_eq_false, if_false] at h1
        split at h1
        · rename_i hst; subst hst
          obtain ⟨h2, h3, _⟩ := stP h0
          exact ⟨h2, h3⟩
        · cases h1
      · exact ih
    case callEnd t r =>
      refine .cons ih ?_
      have h1 := hcall t
      simp only [callState, Option.bind_eq_some_iff] at h1
      obtain ⟨st0, h0, h1⟩ := h1
      simp only [callNext, ne_eq, not_true_eq_false, if_false] at h1
      split at h1
      · rename_i hst; subst hst
        obtain ⟨h2, h3⟩ := stP h0
        refine ⟨h2, ?_, ?_⟩
        · intro hr c hc
          cases List.mem_singleton.mp hc
          rw [h3, hr]
        · intro _ hr _ _ _ _ c
          cases c with
          | false => rw [h3, hr]
          | true => exact done_parts tr t
      · cases h1
    case round t os order b out =>
      cases out
      case events l =>
        have hd := hk [] (pairs tr os order l) (history false tr) rfl
        refine wf_takes ih (agreesP tr) hd (fun hon => ⟨(ho hon).1 [] (pairs tr os order l) (history false tr) rfl, fun fd cu hc => oneshotP h' (hob hon) fd cu hc⟩)
      all_goals exact ih
    case waitBegin t => exact .cons ih trivial
    case waitErr t e => exact .cons ih trivial
    case waitOk t n evs =>
      refine .cons ih ?_
      obtain ⟨st, hst, _⟩ := reach_wait h
      simp only [waitState, Option.bind_eq_some_iff] at hst
      obtain ⟨st0, h0, h1⟩ := hst
      simp only [waitNext] at h1
      split at h1
      · split at h1
        · rename_i he
          obtain ⟨_, _, rfl⟩ := he
          exact ok_waitOk (X := PollB.EventExtra) (ds := []) (rest := pend (marksP tr)) rfl (List.Sublist.slnil)
        · cases h1
      · rename_i u l
        split at h1
        · rename_i he
          obtain ⟨_, _, rfl⟩ := he
          obtain ⟨ds, rest, h2, h3⟩ := pendP h' hno' h0
          exact ok_waitOk h2 (h3 ▸ List.filter_sublist)
        · cases h1
      · cases h1
    all_goals exact ih

end Polling.Api
