import Verif.Spec.ApiView
import Verif.Proof.ApiCount

/-! The portable contract for traces in terms of `Spec/Trace.lean`. -/

namespace Polling.Api
open Spec

variable {X : Type}

/-- The events taken. -/
def takesOf (ds : List (Fd × Event X)) : List Mark := ds.map fun d => .take d.1 false d.2.key

/-- The marks agree with the registrations. -/
def Agrees (m : List Mark) (cur : Fd → Option (Current X)) : Prop :=
  ∀ fd c, cur fd = some c → lastEff m fd false = some (.set fd c.ev.key (oneshot c.mode)) ∧ (c.fired = false → fresh m fd false = true)

theorem lastEff_takes (ds : List (Fd × Event X)) (m : List Mark) (fd : Fd) (c : Bool) : lastEff (takesOf ds ++ m) fd c = lastEff m fd c := by
  induction ds with
  | nil => rfl
  | cons d ds ih => exact ih

theorem fresh_takes (ds : List (Fd × Event X)) (m : List Mark) (fd : Fd) (h : fd ∉ ds.map Prod.fst) :
    fresh (takesOf ds ++ m) fd false = fresh m fd false := by
  induction ds with
  | nil => rfl
  | cons d ds ih =>
    simp only [List.map_cons, List.mem_cons, not_or] at h
    have : fresh (takesOf (d :: ds) ++ m) fd false = fresh (takesOf ds ++ m) fd false := by
      simp [takesOf, fresh, Ne.symm h.1]
    rw [this, ih h.2]

theorem busy_takes (ds : List (Fd × Event X)) (m : List Mark) (t : Tid) : busy (takesOf ds ++ m) t = busy m t := by
  induction ds with
  | nil => rfl
  | cons d ds ih => exact ih

theorem done_takes (ds : List (Fd × Event X)) (m : List Mark) (t : Tid) (c : Bool) : done (takesOf ds ++ m) t c = done m t c := by
  induction ds with
  | nil => rfl
  | cons d ds ih => exact ih

theorem erase_takes (ds : List (Fd × Event X)) (m : List Mark) : erase (takesOf ds ++ m) = erase m := by
  induction ds with
  | nil => rfl
  | cons d ds ih => exact ih

theorem pend_takes (ds : List (Fd × Event X)) (m : List Mark) : pend (takesOf ds ++ m) = ds.map (fun d => (false, d.2.key)) ++ pend m := by
  induction ds with
  | nil => rfl
  | cons d ds ih => exact congrArg _ ih

theorem wf_takes {strict once : Prop} {m : List Mark} {cur : Fd → Option (Current X)} {ds : List (Fd × Event X)}
    (hm : WF [false] strict once m) (ha : Agrees m cur) (hk : RightKey cur ds)
    (ho : once → OneShot cur ds ∧ ∀ fd c, cur fd = some c → oneshot c.mode = true) :
    WF [false] strict once (takesOf ds ++ m) := by
  induction ds with
  | nil => exact hm
  | cons d ds ih =>
    have ih := ih (fun fd e h => hk fd e (List.mem_cons_of_mem _ h)) (fun h => ⟨fun fd c hc hs => by
        obtain ⟨h1, h2⟩ := (ho h).1 fd c hc hs
        simp only [List.map_cons, List.mem_cons, not_or, List.count_cons] at h1 h2
        exact ⟨fun hf => (h1 hf).2, by omega⟩, (ho h).2⟩)
    refine .cons ih ?_
    obtain ⟨c, hc, hkey⟩ := hk d.1 d.2 List.mem_cons_self
    obtain ⟨h1, h2⟩ := ha d.1 c hc
    refine ⟨by simp, ⟨oneshot c.mode, ?_⟩, ?_⟩
    · have := lastEff_takes ds m d.1 false
      rw [show (List.map (fun d => Mark.take d.1 false d.2.key) ds).append m = takesOf ds ++ m from rfl, this, h1, hkey]
    · intro h
      obtain ⟨h3, h4⟩ := ho h
      obtain ⟨h5, h6⟩ := h3 d.1 c hc (h4 d.1 c hc)
      have hnot : d.1 ∉ ds.map Prod.fst := by
        intro hin
        have := List.count_pos_iff.mpr hin
        simp only [List.map_cons, List.count_cons_self] at h6
        omega
      have := fresh_takes ds m d.1 hnot
      rw [show (List.map (fun d => Mark.take d.1 false d.2.key) ds).append m = takesOf ds ++ m from rfl, this]
      refine h2 ?_
      cases hf : c.fired with
      | false => rfl
      | true => exact absurd (by simp) (h5 hf)

theorem agrees_takes {m : List Mark} {cur : Fd → Option (Current X)} {ds : List (Fd × Event X)} (ha : Agrees m cur) :
    Agrees (takesOf ds ++ m) (fun x => (cur x).map fun c => if x ∈ ds.map Prod.fst then { c with fired := true } else c) := by
  intro fd c hc
  dsimp only at hc
  cases hcur : cur fd with
  | none => rw [hcur] at hc; cases hc
  | some c0 =>
    rw [hcur] at hc
    simp only [Option.map_some, Option.some.injEq] at hc
    obtain ⟨h1, h2⟩ := ha fd c0 hcur
    rw [lastEff_takes]
    by_cases hin : fd ∈ ds.map Prod.fst
    · rw [if_pos hin] at hc
      subst hc
      exact ⟨h1, nofun⟩
    · rw [if_neg hin] at hc
      subst hc
      refine ⟨h1, ?_⟩
      rw [fresh_takes ds m fd hin]
      exact h2

theorem agrees_call {m : List Mark} {cur : Fd → Option (Current X)} (ha : Agrees m cur) (o : Obs) : Agrees (.vis o :: m) cur := ha

theorem agrees_reg {m : List Mark} {cur : Fd → Option (Current X)} (ha : Agrees m cur) (t : Tid) (fd : Fd) (ev : Event X) (mode : PollMode) :
    Agrees (.eff t (.set fd ev.key (oneshot mode)) false :: m) (fun x => if x = fd then some ⟨ev, mode, false⟩ else cur x) := by
  intro x c hc
  by_cases hx : x = fd
  · subst hx
    simp only [if_true, Option.some.injEq] at hc
    subst hc
    exact ⟨by simp [lastEff, Call.fd], fun _ => by simp [fresh, Call.fd]⟩
  · simp only [if_neg hx] at hc
    obtain ⟨h1, h2⟩ := ha x c hc
    exact ⟨by simpa [lastEff, Call.fd, Ne.symm hx] using h1, fun hf => by simpa [fresh, Call.fd, Ne.symm hx] using h2 hf⟩

theorem agrees_unreg {m : List Mark} {cur : Fd → Option (Current X)} (ha : Agrees m cur) (t : Tid) (fd : Fd) :
    Agrees (.eff t (.delete fd) false :: m) (fun x => if x = fd then none else cur x) := by
  intro x c hc
  by_cases hx : x = fd
  · simp only [if_pos hx] at hc; cases hc
  · simp only [if_neg hx] at hc
    obtain ⟨h1, h2⟩ := ha x c hc
    exact ⟨by simpa [lastEff, Call.fd, Ne.symm hx] using h1, fun hf => by simpa [fresh, Call.fd, Ne.symm hx] using h2 hf⟩

/-- What `wait` returns was taken. -/
theorem ok_waitOk {strict once : Prop} {m : List Mark} {ds : List (Fd × Event X)} {evs : List (Event X)} {rest : List (Bool × Key)}
    (hp : pend m = ds.map (fun d => (false, d.2.key)) ++ rest) (hs : evs.Sublist (ds.map Prod.snd)) :
    Ok [false] strict once m (.vis (.waitOk (evs.map view))) := by
  constructor
  · intro e he
    obtain ⟨e', he', rfl⟩ := List.mem_map.mp he
    obtain ⟨d, hd, rfl⟩ := List.mem_map.mp (hs.subset he')
    exact ⟨false, by rw [hp]; exact List.mem_append_left _ (List.mem_map.mpr ⟨d, hd, rfl⟩)⟩
  · intro _ k
    have h1 : (evs.map view).countP (fun e => e.readable && e.key == k) ≤ (evs.map Event.key).count k := by
      clear hs
      induction evs with
      | nil => simp
      | cons e evs ih =>
        rw [List.map_cons, List.map_cons, List.countP_cons, List.count_cons]
        have : (view e).key = e.key := rfl
        rw [this]
        by_cases hk : e.key = k
        · simp only [hk, beq_self_eq_true, Bool.and_true, if_true]
          split <;> omega
        · simp only [beq_eq_false_iff_ne.mpr hk, Bool.and_false, Bool.false_eq_true, if_false, Nat.add_zero]; exact ih
    have h2 : (evs.map Event.key).count k ≤ ((ds.map Prod.snd).map Event.key).count k := (hs.map _).count_le k
    have h3 : ((ds.map Prod.snd).map Event.key).count k = (ds.map (fun d => (false, d.2.key))).count (false, k) := by
      clear hp hs h2
      induction ds with
      | nil => rfl
      | cons d ds ih => rw [List.map_cons, List.map_cons, List.map_cons, List.count_cons, List.count_cons, ih]; simp
    rw [hp, List.count_append]
    omega

/-- The marks of a trace: calls take effect at once. -/
def marks : List (Spec.Obs X) → List Mark
  | [] => []
  | .reg fd ev mode :: tr =>
    .vis (.ret 0 true) :: .eff 0 (.set fd ev.key (oneshot mode)) false :: .vis (.begin 0 (.set fd ev.key (oneshot mode))) :: marks tr
  | .unreg fd :: tr => .vis (.ret 0 true) :: .eff 0 (.delete fd) false :: .vis (.begin 0 (.delete fd)) :: marks tr
  | .deliver ds :: tr => takesOf ds ++ marks tr
  | .waitBegin :: tr => .vis .waitBegin :: marks tr
  | .waitOk _ evs :: tr => .vis (.waitOk (evs.map view)) :: marks tr
  | .waitErr _ :: tr => .vis .waitErr :: marks tr
  | _ :: tr => marks tr

theorem erase_marks (tr : List (Spec.Obs X)) : erase (marks tr) = ofObs tr := by
  induction tr with
  | nil => rfl
  | cons o tr ih =>
    cases o with
    | deliver ds => simp only [marks, ofObs]; rw [erase_takes]; exact ih
    | _ => simp only [marks, ofObs, erase, ih]

theorem busy_marks (tr : List (Spec.Obs X)) (t : Tid) : busy (marks tr) t = none := by
  induction tr with
  | nil => rfl
  | cons o tr ih =>
    cases o with
    | deliver ds => simp only [marks]; rw [busy_takes]; exact ih
    | reg => simp only [marks, busy]; split <;> first | rfl | (rename_i h; exact ih)
    | unreg => simp only [marks, busy]; split <;> first | rfl | (rename_i h; exact ih)
    | _ => simpa only [marks, busy] using ih

theorem pend_marks {tr : List (Spec.Obs X)} {ds : List (Fd × Event X)} (h : lastDelivery tr = some ds) :
    ∃ rest, pend (marks tr) = ds.map (fun d => (false, d.2.key)) ++ rest := by
  induction tr with
  | nil => cases h
  | cons o tr ih =>
    cases o with
    | deliver evs => simp only [lastDelivery, Option.some.injEq] at h; subst h; exact ⟨_, pend_takes _ _⟩
    | waitBegin => cases h
    | waitOk _ _ => cases h
    | waitErr _ => cases h
    | _ => exact ih h

theorem call_wf {strict once : Prop} {m : List Mark} {t : Tid} {call : Call} (hm : WF [false] strict once m) (hb : busy m t = none) :
    WF [false] strict once (.vis (.ret t true) :: .eff t call false :: .vis (.begin t call) :: m) := by
  refine .cons (.cons (.cons hm hb) ⟨by simp [busy], by simp [done]⟩) ⟨by simp [busy], ?_, nofun⟩
  intro _ c hc
  cases List.mem_singleton.mp hc
  simp [done]

theorem current_oneshot {tr : List (Spec.Obs X)} (h : AllOneshot (ofObs tr)) (fd : Fd) (c : Current X) (hc : current tr fd = some c) :
    oneshot c.mode = true := by
  induction tr generalizing c with
  | nil => cases hc
  | cons o tr ih =>
    have sub : (∀ x ∈ ofObs tr, x ∈ ofObs (o :: tr)) → AllOneshot (ofObs tr) := fun hs t fd k o hm => h t fd k o (hs _ hm)
    cases o with
    | reg fd' ev mode =>
      simp only [current] at hc
      split at hc
      · cases hc
        exact h 0 fd' ev.key (oneshot mode) (by simp [ofObs])
      · exact ih (sub fun x hx => by simp [ofObs, hx]) c hc
    | unreg fd' =>
      simp only [current] at hc
      split at hc
      · cases hc
      · exact ih (sub fun x hx => by simp [ofObs, hx]) c hc
    | deliver ds =>
      simp only [current] at hc
      cases hcur : current tr fd with
      | none => rw [hcur] at hc; cases hc
      | some c0 =>
        rw [hcur] at hc
        simp only [Option.map_some, Option.some.injEq] at hc
        have := ih (sub fun x hx => hx) c0 hcur
        subst hc
        split <;> exact this
    | waitBegin => exact ih (sub fun x hx => by simp [ofObs, hx]) c hc
    | waitOk _ _ => exact ih (sub fun x hx => by simp [ofObs, hx]) c hc
    | waitErr _ => exact ih (sub fun x hx => by simp [ofObs, hx]) c hc
    | _ => exact ih (sub fun x hx => hx) c hc

theorem agrees_marks (tr : List (Spec.Obs X)) : Agrees (marks tr) (current tr) := by
  induction tr with
  | nil => intro fd c h; cases h
  | cons o tr ih =>
    cases o with
    | deliver ds => exact agrees_takes ih
    | reg fd ev mode => exact agrees_reg ih 0 fd ev mode
    | unreg fd => exact agrees_unreg ih 0 fd
    | _ => exact ih

/-- **Traces with the right keys obey the contract**; and if one-shot sources are delivered once only, then events come at most
once per request. -/
theorem wf_marks {once : Prop} {tr : List (Spec.Obs X)} (hk : EveryDelivery RightKey tr)
    (ho : once → EveryDelivery OneShot tr ∧ AllOneshot (ofObs tr))
    (hw : ∀ later n evs earlier, tr = later ++ .waitOk n evs :: earlier → ∃ ds, lastDelivery earlier = some ds ∧ evs.Sublist (ds.map Prod.snd)) :
    WF [false] True once (marks tr) := by
  induction tr with
  | nil => exact .nil
  | cons o tr ih =>
    have hob : once → AllOneshot (ofObs tr) := fun h t fd k o' hm => (ho h).2 t fd k o' (by cases o <;> simp [ofObs, hm])
    have ih := ih (fun later evs earlier he => hk (o :: later) evs earlier (by rw [he]; rfl))
      (fun h => ⟨fun later evs earlier he => (ho h).1 (o :: later) evs earlier (by rw [he]; rfl), hob h⟩)
      (fun later n evs earlier he => hw (o :: later) n evs earlier (by rw [he]; rfl))
    cases o with
    | reg fd ev mode => exact call_wf ih (busy_marks tr 0)
    | unreg fd => exact call_wf ih (busy_marks tr 0)
    | deliver ds =>
      refine wf_takes ih (agrees_marks tr) (hk [] ds tr rfl) (fun h => ⟨(ho h).1 [] ds tr rfl, fun fd c hc => current_oneshot (hob h) fd c hc⟩)
    | waitBegin => exact .cons ih trivial
    | waitErr _ => exact .cons ih trivial
    | waitOk n evs =>
      obtain ⟨ds, h1, h2⟩ := hw [] n evs tr rfl
      obtain ⟨rest, h3⟩ := pend_marks h1
      exact .cons ih (ok_waitOk h3 h2)
    | _ => exact ih

end Polling.Api
