import Verif.Spec.ApiView
import Verif.Proof.ApiCount
import Verif.Proof.KqTaken

/-! The portable contract on kqueue: the marks of a run.  A source has two parts, the filters for reading and writing. -/

namespace Polling.Api
open KqM Kqueue KqSpec

/-- The source and the part a filter belongs to. -/
def comp : Filter → Option (Fd × Bool)
  | .read fd => some (fd, false)
  | .write fd => some (fd, true)
  | _ => none

/-- A change of a filter by `t` is the effect of the call in progress. -/
def effK (m : List Mark) (t : Tid) (f : Filter) : List Mark :=
  match busy m t, comp f with
  | some call, some (fd, b) => if call.fd = fd then .eff t call b :: m else m
  | _, _ => m

def got (e : KEvent) : Option (Bool × Key) := (comp e.filter).map fun x => (x.2, u64ToKey 64 e.udata)

def takesK (evs : List KEvent) : List Mark :=
  evs.filterMap fun e => (comp e.filter).map fun x => .take x.1 x.2 (u64ToKey 64 e.udata)

/-- A call takes effect on a filter when the OS accepts the change, or says that there is nothing to change: the filter was not
watched (ENOENT), or cannot be (EPIPE). -/
def marksK : List KObs → List Mark
  | [] => []
  | .begin t call :: tr =>
    match ofKCall call with
    | some c => .vis (.begin t c) :: marksK tr
    | none => marksK tr
  | .ret t _ r :: tr => if busy (marksK tr) t = none then marksK tr else .vis (.ret t (r == .res .ok)) :: marksK tr
  | .armed t f _ _ _ :: tr => effK (marksK tr) t f
  | .disarmed t f :: tr => effK (marksK tr) t f
  | .refused t f e :: tr => if e = ENOENT ∨ e = EPIPE then effK (marksK tr) t f else marksK tr
  | .deliver _ evs :: tr => takesK evs ++ marksK tr
  | .waitBegin _ :: tr => .vis .waitBegin :: marksK tr
  | .waitOk _ _ evs :: tr => .vis (.waitOk (evs.map view)) :: marksK tr
  | .waitErr _ _ :: tr => .vis .waitErr :: marksK tr
  | _ :: tr => marksK tr

theorem busy_erase (m : List Mark) (t : Tid) : busy m t = calling (erase m) t := by
  induction m with
  | nil => rfl
  | cons o m ih =>
    cases o with
    | vis o => cases o <;> simp only [busy, erase, calling, ih]
    | eff => exact ih
    | take => exact ih

theorem erase_effK (m : List Mark) (t : Tid) (f : Filter) : erase (effK m t f) = erase m := by
  unfold effK
  split
  · split <;> rfl
  · rfl

theorem takesK_cons (e : KEvent) (evs : List KEvent) (m : List Mark) :
    takesK (e :: evs) ++ m = takesK evs ++ m ∧ comp e.filter = none ∨
    ∃ fd b, comp e.filter = some (fd, b) ∧ takesK (e :: evs) ++ m = .take fd b (u64ToKey 64 e.udata) :: (takesK evs ++ m) := by
  cases h : comp e.filter with
  | none => exact .inl ⟨by simp [takesK, h], rfl⟩
  | some x => exact .inr ⟨x.1, x.2, rfl, by simp [takesK, h]⟩

theorem erase_takesK (evs : List KEvent) (m : List Mark) : erase (takesK evs ++ m) = erase m := by
  induction evs with
  | nil => rfl
  | cons e evs ih => rcases takesK_cons e evs m with ⟨h, _⟩ | ⟨fd, b, _, h⟩ <;> rw [h] <;> exact ih

theorem busy_takesK (evs : List KEvent) (m : List Mark) (t : Tid) : busy (takesK evs ++ m) t = busy m t := by
  rw [busy_erase, erase_takesK, busy_erase]

theorem done_takesK (evs : List KEvent) (m : List Mark) (t : Tid) (c : Bool) : done (takesK evs ++ m) t c = done m t c := by
  induction evs with
  | nil => rfl
  | cons e evs ih => rcases takesK_cons e evs m with ⟨h, _⟩ | ⟨fd, b, _, h⟩ <;> rw [h] <;> exact ih

theorem lastEff_takesK (evs : List KEvent) (m : List Mark) (fd : Fd) (c : Bool) : lastEff (takesK evs ++ m) fd c = lastEff m fd c := by
  induction evs with
  | nil => rfl
  | cons e evs ih => rcases takesK_cons e evs m with ⟨h, _⟩ | ⟨fd, b, _, h⟩ <;> rw [h] <;> exact ih

theorem comp_inj {f g : Filter} {x : Fd × Bool} (hf : comp f = some x) (hg : comp g = some x) : f = g := by
  cases f <;> cases hf <;> cases g <;> cases hg <;> rfl

theorem fresh_takesK {f : Filter} {fd : Fd} {c : Bool} (hf : comp f = some (fd, c)) (evs : List KEvent) (m : List Mark)
    (h : f ∉ evs.map KEvent.filter) : fresh (takesK evs ++ m) fd c = fresh m fd c := by
  induction evs with
  | nil => rfl
  | cons e evs ih =>
    simp only [List.map_cons, List.mem_cons, not_or] at h
    rcases takesK_cons e evs m with ⟨h', _⟩ | ⟨fd', b, hb, h'⟩ <;> rw [h']
    · exact ih h.2
    · have : ¬ (fd' = fd ∧ b = c) := by
        rintro ⟨rfl, rfl⟩
        exact h.1 (comp_inj hf hb)
      simp only [fresh, if_neg this]
      exact ih h.2

theorem pend_takesK (evs : List KEvent) (m : List Mark) : pend (takesK evs ++ m) = evs.filterMap got ++ pend m := by
  induction evs with
  | nil => rfl
  | cons e evs ih =>
    rcases takesK_cons e evs m with ⟨h', hn⟩ | ⟨fd', b, hb, h'⟩ <;> rw [h']
    · rw [ih]; simp [got, hn]
    · simp only [pend, ih]; simp [got, hb]

theorem erase_marksK (tr : List KObs) : erase (marksK tr) = ofKObs tr := by
  induction tr with
  | nil => rfl
  | cons o tr ih =>
    cases o
    case begin t call => cases hc : ofKCall call <;> simp only [marksK, ofKObs, hc, erase, ih]
    case ret t call r =>
      simp only [marksK, ofKObs]
      rw [busy_erase, ih]
      split <;> simp only [erase, ih]
    case armed => simp only [marksK, ofKObs]; rw [erase_effK, ih]
    case disarmed => simp only [marksK, ofKObs]; rw [erase_effK, ih]
    case refused => simp only [marksK, ofKObs]; split <;> simp only [erase_effK, ih]
    case deliver => simp only [marksK, ofKObs]; rw [erase_takesK, ih]
    all_goals simp only [marksK, ofKObs, erase, ih]

/-- How far the call at a position has taken effect. -/
def PosK (strict : Prop) (m : List Mark) (t : Tid) : Pc → Prop
  | .insert _ | .has _ => ∀ c, done m t c = false
  | .submit (.call _) todo dn => (2 ≤ todo.length → done m t false = false) ∧ (1 ≤ todo.length → done m t true = false) ∧
      (submitResult dn = .ok → (todo.length ≤ 1 → done m t false = true) ∧ (todo.length = 0 → done m t true = true)) ∧
      (strict → submitResult dn = .ok)
  | .remove call | .ending call => isDelete call = true ∧ ∀ c, done m t c = true
  | _ => True

/-- Why a filter is watched. -/
def NoteK (once : Prop) (m : List Mark) (f : Filter) (n : Knote) : Prop :=
  ∃ fd b k o, comp f = some (fd, b) ∧ lastEff m fd b = some (.set fd k o) ∧ u64ToKey 64 n.udata = k ∧
    (once → n.oneshot = true ∧ fresh m fd b = true)

/-- The events in the buffer of a `wait` were taken by it. -/
def PendK (c : Cfg) (m : List Mark) (evs : List KEvent) : Prop :=
  (∃ rest, pend m = (evs.filter fun e => !c.internal e.filter).filterMap got ++ rest) ∧
    ∀ e ∈ evs, c.internal e.filter = false → comp e.filter ≠ none

structure KInv (c : Cfg) (strict once : Prop) (s : S) (m : List Mark) : Prop where
  wf : WF [false, true] strict once m
  busy : ∀ t, busy m t = (callAt (s.pc t)).bind ofKCall
  pos : ∀ t, PosK strict m t (s.pc t)
  note : ∀ f n, c.internal f = false → s.k.knotes f = some n → NoteK once m f n
  pend : ∀ t evs, evsAt (s.pc t) = some evs → PendK c m evs

theorem posK_congr {strict : Prop} {m m' : List Mark} {t : Tid} {p : Pc} (h : ∀ c, done m' t c = done m t c) (hp : PosK strict m t p) : PosK strict m' t p := by
  cases p with
  | submit w todo dn =>
    cases w with
    | call call => obtain ⟨h1, h2, h3, h4⟩ := hp; exact ⟨by rw [h]; exact h1, by rw [h]; exact h2, by rw [h, h]; exact h3, h4⟩
    | _ => trivial
  | insert => exact fun c => (h c).trans (hp c)
  | has => exact fun c => (h c).trans (hp c)
  | remove => exact ⟨hp.1, fun c => (h c).trans (hp.2 c)⟩
  | ending => exact ⟨hp.1, fun c => (h c).trans (hp.2 c)⟩
  | _ => trivial

theorem noteK_congr {once : Prop} {m m' : List Mark} {f : Filter} {n : Knote} (h1 : ∀ fd b, lastEff m' fd b = lastEff m fd b)
    (h2 : ∀ fd b, fresh m' fd b = fresh m fd b) (h : NoteK once m f n) : NoteK once m' f n := by
  obtain ⟨fd, b, k, o, h3, h4, h5, h6⟩ := h
  exact ⟨fd, b, k, o, h3, by rw [h1]; exact h4, h5, by rw [h2]; exact h6⟩

/-- A step of `t`. -/
theorem KInv.next {c : Cfg} {strict once : Prop} {s s' : S} {m m' : List Mark} (t : Tid) (h : KInv c strict once s m)
    (wf : WF [false, true] strict once m') (hpc : ∀ u, u ≠ t → s'.pc u = s.pc u) (hb : ∀ u, u ≠ t → Api.busy m' u = Api.busy m u)
    (hd : ∀ u, u ≠ t → ∀ b, done m' u b = done m u b) (hbt : Api.busy m' t = (callAt (s'.pc t)).bind ofKCall) (hpt : PosK strict m' t (s'.pc t))
    (hn : ∀ f n, c.internal f = false → s'.k.knotes f = some n → NoteK once m' f n)
    (hp : ∀ u evs, evsAt (s'.pc u) = some evs → PendK c m' evs) :
    KInv c strict once s' m' := by
  refine ⟨wf, ?_, ?_, hn, hp⟩
  · intro u
    by_cases e : u = t
    · subst e; exact hbt
    · rw [hb u e, hpc u e]; exact h.busy u
  · intro u
    by_cases e : u = t
    · subst e; exact hpt
    · rw [hpc u e]; exact posK_congr (hd u e) (h.pos u)

/-- A step that is not marked. -/
theorem KInv.quiet {c : Cfg} {strict once : Prop} {s s' : S} {m : List Mark} (t : Tid) (h : KInv c strict once s m)
    (hpc : ∀ u, u ≠ t → s'.pc u = s.pc u) (hbt : (callAt (s'.pc t)).bind ofKCall = (callAt (s.pc t)).bind ofKCall) (hpt : PosK strict m t (s'.pc t))
    (hn : ∀ f, c.internal f = false → s'.k.knotes f = s.k.knotes f)
    (hp : ∀ evs, evsAt (s'.pc t) = some evs → evsAt (s.pc t) = some evs) : KInv c strict once s' m := by
  refine h.next t h.wf hpc (fun _ _ => rfl) (fun _ _ _ => rfl) ((h.busy t).trans hbt.symm) hpt
    (fun f n hi hk => h.note f n hi (by rw [← hn f hi]; exact hk)) ?_
  intro u evs he
  by_cases e : u = t
  · subst e; exact h.pend u evs (hp evs he)
  · rw [hpc u e] at he; exact h.pend u evs he

/-- A `wait` begins or ends. -/
theorem KInv.wait {c : Cfg} {strict once : Prop} {s s' : S} {m : List Mark} {o : Obs} (t : Tid) (h : KInv c strict once s m)
    (hpc : ∀ u, u ≠ t → s'.pc u = s.pc u) (hlib : ∀ u, s.lib = some u ↔ inWait (s.pc u) = true) (hl : s.lib = none ∨ s.lib = some t)
    (ho : Ok [false, true] strict once m (.vis o)) (hv : ∀ m u, Api.busy (.vis o :: m) u = Api.busy m u)
    (hd : ∀ m u b, done (.vis o :: m) u b = done m u b)
    (hbt : callAt (s.pc t) = none) (hbt' : callAt (s'.pc t) = none) (hpt : PosK strict (.vis o :: m) t (s'.pc t)) (hk : s'.k = s.k) (hp : evsAt (s'.pc t) = none) :
    KInv c strict once s' (.vis o :: m) := by
  refine h.next t (.cons h.wf ho) hpc (fun u _ => hv m u) (fun u _ b => hd m u b) ?_ hpt ?_ ?_
  · rw [hv, h.busy, hbt, hbt']
  · intro f n hi hn
    rw [hk] at hn
    exact h.note f n hi hn
  · intro u evs he
    by_cases e : u = t
    · subst e; rw [hp] at he; cases he
    · rw [hpc u e] at he
      have : inWait (s.pc u) = true := by
        cases hpu : s.pc u with
        | submit w todo dn => rw [hpu] at he; cases w <;> first | rfl | cases he
        | _ => rw [hpu] at he; first | rfl | cases he
      have := (hlib u).mpr this
      rcases hl with hl | hl
      · rw [hl] at this; cases this
      · rw [hl] at this; cases this; exact absurd rfl e

/-- The OS says that a filter cannot be watched (EPIPE) only if it was not, and that there is nothing to remove (ENOENT) only if
there is nothing. -/
def Attach (s : S) (t : Tid) (a : Act) : Prop :=
  match s.pc t, a with
  | .submit (.call _) (ev :: _) _, .change fault =>
    fault ≠ some ENOENT ∧ (fault = some EPIPE → ev.flags.add = true ∧ s.k.knotes ev.filter = none)
  | _, _ => True

/-- The OS accepts the changes of registration calls. -/
def Accept (s : S) (t : Tid) (a : Act) : Prop :=
  match s.pc t, a with
  | .submit (.call _) _ _, .change fault => fault = none
  | .submit (.call _) _ _, .kfail _ => False
  | _, _ => True

theorem attach_of_accept {s : S} {t : Tid} {a : Act} (h : Accept s t a) : Attach s t a := by
  unfold Attach
  split
  · rename_i hp
    unfold Accept at h
    rw [hp] at h
    subst h
    exact ⟨nofun, nofun⟩
  · trivial

theorem changes_of {call : KqSpec.Call} {c : Call} (h : ofKCall call = some c) : ∃ ev mode, changes call = fdChanges c.fd ev mode ∧
    (ev.readable = true ∨ ev.writable = true → c = .set c.fd ev.key (oneshotMode mode)) := by
  cases call <;> cases h
  case add fd ev mode => exact ⟨ev, mode, rfl, fun _ => rfl⟩
  case modify fd ev mode => exact ⟨ev, mode, rfl, fun _ => rfl⟩
  case delete fd => exact ⟨Event.none 0, .oneshot, rfl, by simp [Event.none, Event.new]⟩

theorem submitResult_snoc (l : List KEvent) (ev : KEvent) (errno : Nat) : submitResult (l ++ [receipt ev errno]) = .ok ↔
    submitResult l = .ok ∧ (errno = 0 ∨ errno = ENOENT ∨ errno = EPIPE) := by
  induction l with
  | nil =>
    simp only [List.nil_append, submitResult, receipt, Bool.true_and]
    by_cases h0 : errno = 0
    · simp [h0]
    · by_cases h1 : errno = ENOENT
      · simp [h1]
      · by_cases h2 : errno = EPIPE
        · simp [h2]
        · have : ((errno : Int) != 0 && (errno : Int) != (ENOENT : Int) && (errno : Int) != (EPIPE : Int)) = true := by
            simp only [Bool.and_eq_true, bne_iff_ne, ne_eq]; omega
          rw [if_pos this]
          simp [h0, h1, h2]
  | cons e l ih =>
    simp only [List.cons_append, submitResult]
    split
    · simp
    · exact ih

theorem marksK_change {t : Tid} {ev : KEvent} {errno : Nat} {tr : List KObs} (h : errno = 0 ∨ errno = ENOENT ∨ errno = EPIPE) :
    marksK (changeObs t ev errno :: tr) = effK (marksK tr) t ev.filter := by
  unfold changeObs
  split
  · rename_i hne
    simp only [marksK]
    rw [if_pos (by rcases h with h | h; exact absurd h hne; exact h)]
  · split <;> rfl

theorem marksK_refuse {t : Tid} {ev : KEvent} {errno : Nat} {tr : List KObs} (h : ¬ (errno = 0 ∨ errno = ENOENT ∨ errno = EPIPE)) :
    marksK (changeObs t ev errno :: tr) = marksK tr := by
  simp only [not_or] at h
  unfold changeObs
  rw [if_pos h.1]
  simp only [marksK]
  rw [if_neg (by simp only [not_or]; exact h.2)]

theorem begun_calling {call : KqSpec.Call} {t : Tid} {tr : List KObs} (h : KqSpec.calling tr t = some call) : .begin t call ∈ tr := by
  induction tr with
  | nil => cases h
  | cons o tr ih =>
    cases o
    case begin u call' =>
      simp only [KqSpec.calling] at h
      split at h
      · rename_i hu; cases h; subst hu; exact List.mem_cons_self
      · exact List.mem_cons_of_mem _ (ih h)
    case ret u call' r =>
      simp only [KqSpec.calling] at h
      split at h
      · cases h
      · exact List.mem_cons_of_mem _ (ih h)
    all_goals exact List.mem_cons_of_mem _ (ih h)

theorem begun_view {call : KqSpec.Call} {c : Call} {t : Tid} {tr : List KObs} (h : .begin t call ∈ tr) (hc : ofKCall call = some c) :
    .begin t c ∈ ofKObs tr := by
  induction tr with
  | nil => cases h
  | cons o tr ih =>
    rcases List.mem_cons.mp h with he | h
    · subst he; simp [ofKObs, hc]
    · have ih := ih h
      cases o
      case begin u call' => simp only [ofKObs]; split <;> first | exact List.mem_cons_of_mem _ ih | exact ih
      case ret u call' r => simp only [ofKObs]; split <;> first | exact List.mem_cons_of_mem _ ih | exact ih
      all_goals first | exact ih | exact List.mem_cons_of_mem _ ih

theorem view_cons (o : KObs) (tr : List KObs) : ofKObs (o :: tr) = ofKObs tr ∨ ∃ x, ofKObs (o :: tr) = x :: ofKObs tr := by
  cases o
  case begin u call' => simp only [ofKObs]; split <;> first | exact .inl rfl | exact .inr ⟨_, rfl⟩
  case ret u call' r => simp only [ofKObs]; split <;> first | exact .inl rfl | exact .inr ⟨_, rfl⟩
  all_goals first | exact .inl rfl | exact .inr ⟨_, rfl⟩

theorem kPortable_tail {o : KObs} {tr : List KObs} (h : KPortable (o :: tr)) : KPortable tr :=
  fun t call hm => h t call (List.mem_cons_of_mem _ hm)

theorem allOneshot_tail {o : KObs} {tr : List KObs} (h : AllOneshot (ofKObs (o :: tr))) : AllOneshot (ofKObs tr) := by
  intro t fd k b hm
  refine h t fd k b ?_
  rcases view_cons o tr with he | ⟨x, he⟩ <;> rw [he]
  · exact hm
  · exact List.mem_cons_of_mem _ hm

/-- `kevent` processes a change of a call. -/
theorem kinv_change {c : Cfg} {P} {strict once : Prop} {s : S} {tr : List KObs} {t : Tid} {fault : Option Nat} {call : KqSpec.Call}
    {ev : KEvent} {todo dn : List KEvent} {errno : Nat} {k : Kern} (hr : Reach c P s tr)
    (hp : s.pc t = .submit (.call call) (ev :: todo) dn) (hf0 : fault ≠ some 0) (hreg : register c fault s.k ev = (errno, k))
    (hP : Attach s t (.change fault)) (hst : strict → fault = none) (hport : KPortable tr) (hone : once → AllOneshot (ofKObs tr))
    (h : KInv c strict once s (marksK tr)) :
    KInv c strict once { s with k, pc := upd s.pc t (.submit (.call call) todo (dn ++ [receipt ev errno])) }
      (marksK (changeObs t ev errno :: tr)) := by
  have hreg := register_reg hreg
  have hpk := reach_pcOk hr t
  rw [hp] at hpk
  obtain ⟨hacc, pre, errs, hch, hlen, _⟩ := hpk
  have hcall : KqSpec.calling tr t = some call := by rw [(reach_calls hr).calling t, hp]; rfl
  have hbeg := begun_calling hcall
  cases hc0 : ofKCall call with
  | none => exact absurd hc0 (hport t call hbeg)
  | some c0 =>
  have hfil := changes_filter (call := call) hacc (ev := ev) (by
    have : changes call = pre ++ ev :: todo := hch
    rw [this]; simp)
  obtain ⟨e0, mode, hch0, hset⟩ := changes_of hc0
  have hch' : fdChanges c0.fd e0 mode = pre ++ ev :: todo := by rw [← hch0]; exact hch
  have hpos := h.pos t
  rw [hp] at hpos
  obtain ⟨hp1, hp2, hp3, hp4⟩ := hpos
  have hbusy : Api.busy (marksK tr) t = some c0 := by rw [h.busy t, hp]; exact hc0
  -- which part
  obtain ⟨b, wanted, hcomp, hud, hfl, hwant, hd0, htd⟩ : ∃ b wanted, comp ev.filter = some (c0.fd, b) ∧ ev.udata = keyToU64 e0.key ∧
      ev.flags = changeFlags wanted mode ∧ (wanted = true → c0 = .set c0.fd e0.key (oneshotMode mode)) ∧
      done (marksK tr) t b = false ∧ (b = false ∧ todo.length = 1 ∨ b = true ∧ todo.length = 0) := by
    unfold fdChanges at hch'
    match pre, hch' with
    | [], hch' =>
      simp only [List.nil_append, List.cons.injEq] at hch'
      obtain ⟨rfl, rfl⟩ := hch'
      exact ⟨false, e0.readable, rfl, rfl, rfl, fun hw => hset (.inl hw), hp1 (by simp), .inl ⟨rfl, rfl⟩⟩
    | [x], hch' =>
      simp only [List.cons_append, List.nil_append, List.cons.injEq] at hch'
      obtain ⟨_, rfl, rfl⟩ := hch'
      exact ⟨true, e0.writable, rfl, rfl, rfl, fun hw => hset (.inr hw), hp2 (by simp), .inr ⟨rfl, rfl⟩⟩
    | x :: y :: l, hch' =>
      simp only [List.cons_append, List.cons.injEq] at hch'
      have := congrArg List.length hch'.2.2
      simp at this
  have hother : ∀ u, u ≠ t → (upd s.pc t (.submit (.call call) todo (dn ++ [receipt ev errno]))) u = s.pc u := fun u e => upd_other _ e
  have hev : ∀ u evs, evsAt ((upd s.pc t (.submit (.call call) todo (dn ++ [receipt ev errno]))) u) = some evs → evsAt (s.pc u) = some evs := by
    intro u evs he
    by_cases e : u = t
    · subst e; rw [upd_self] at he; cases he
    · rwa [hother u e] at he
  by_cases hgood : errno = 0 ∨ errno = ENOENT ∨ errno = EPIPE
  · rw [marksK_change hgood]
    have heff : effK (marksK tr) t ev.filter = .eff t c0 b :: marksK tr := by
      unfold effK; rw [hbusy, hcomp]; simp
    rw [heff]
    refine h.next t (.cons h.wf ⟨hbusy, hd0⟩) hother (fun _ _ => rfl) ?_ ?_ ?_ ?_ (fun u evs he => h.pend u evs (hev u evs he))
    · intro u hu b'
      simp only [done]
      rw [if_neg (fun e => hu e.1.symm)]
    · dsimp only; rw [upd_self]; exact hbusy.trans hc0.symm
    · dsimp only; rw [upd_self]
      have hdb : ∀ b', b' ≠ b → done (.eff t c0 b :: marksK tr) t b' = done (marksK tr) t b' := by
        intro b' hb'; simp only [done]; rw [if_neg (fun e => hb' e.2.symm)]
      have hdb' : done (.eff t c0 b :: marksK tr) t b = true := by simp [done]
      rcases htd with ⟨rfl, htl⟩ | ⟨rfl, htl⟩
      · refine ⟨fun hl => by omega, fun _ => ?_, fun hok => ⟨fun _ => hdb', fun hl => by omega⟩, fun hs => ?_⟩
        · rw [hdb true nofun]; exact hp2 (by simp)
        · exact (submitResult_snoc _ _ _).mpr ⟨hp4 hs, hgood⟩
      · refine ⟨fun hl => by omega, fun hl => by omega, fun hok => ⟨fun _ => ?_, fun hl => hdb'⟩, fun hs => ?_⟩
        · rw [hdb false nofun]
          exact (hp3 ((submitResult_snoc _ _ _).mp hok).1).1 (by simp [htl])
        · exact (submitResult_snoc _ _ _).mpr ⟨hp4 hs, hgood⟩
    · intro f n hi hn
      by_cases hf : f = ev.filter
      · subst hf
        have addCase : ev.flags.add = true → n = added c (s.k.knotes ev.filter) ev → NoteK once (.eff t c0 b :: marksK tr) ev.filter n := by
          intro hadd hne
          have hw : wanted = true := by
            rw [hfl] at hadd
            cases wanted with
            | true => rfl
            | false => cases hadd
          have hc1 := hwant hw
          refine ⟨c0.fd, b, e0.key, oneshotMode mode, hcomp, by simp [lastEff, ← hc1], ?_, ?_⟩
          · have : n.udata = ev.udata := by
              rw [hne]; unfold added
              split
              · split <;> rfl
              · rfl
            rw [this, hud]; simp [u64ToKey, keyToU64]
          · intro hon
            refine ⟨?_, by simp [fresh]⟩
            have hos : ev.flags.oneshot = true := by
              have hv := begun_view hbeg hc0
              rw [hc1] at hv
              have := hone hon _ _ _ _ hv
              rw [hfl, hw]
              cases mode <;> first | rfl | cases this
            rw [hne]
            unfold added
            split
            · rename_i n0 hn0
              split
              · obtain ⟨_, _, _, _, _, _, _, h6⟩ := h.note _ _ hi hn0
                exact (h6 hon).1
              · exact hos
            · exact hos
        cases hreg with
        | fault hfa =>
          subst hfa
          unfold Attach at hP
          rw [hp] at hP
          rcases hgood with rfl | rfl | rfl
          · exact absurd rfl hf0
          · exact absurd rfl hP.1
          · dsimp only at hn; rw [(hP.2 rfl).2] at hn; cases hn
        | add _ hadd =>
          dsimp only at hn
          rw [activate_knotes] at hn
          simp only [setKnote, if_true, Option.some.injEq] at hn
          exact addCase hadd hn.symm
        | addIdle _ hadd =>
          simp only [setKnote, if_true, Option.some.injEq] at hn
          exact addCase hadd hn.symm
        | missing _ _ _ hk => dsimp only at hn; rw [hk] at hn; cases hn
        | delete => simp only [setKnote, if_true] at hn; cases hn
        | nothing _ h1 h2 => rcases hfil.2.2.2 with h3 | h3 <;> simp_all
      · dsimp only at hn
        rw [(reg_other hreg hf).1] at hn
        obtain ⟨fd, b', k', o, h3, h4, h5, h6⟩ := h.note f n hi hn
        have hne : ¬ (c0.fd = fd ∧ b = b') := by
          rintro ⟨rfl, rfl⟩
          exact hf (comp_inj h3 hcomp)
        exact ⟨fd, b', k', o, h3, by simp only [lastEff, if_neg hne]; exact h4, h5,
          fun hon => ⟨(h6 hon).1, by simp only [fresh, if_neg hne]; exact (h6 hon).2⟩⟩
  · rw [marksK_refuse hgood]
    have hks : k = s.k := by
      cases hreg with
      | fault => rfl
      | add => exact absurd (.inl rfl) hgood
      | addIdle => exact absurd (.inl rfl) hgood
      | missing => rfl
      | delete => exact absurd (.inl rfl) hgood
      | nothing => rfl
    have hns : ¬ strict := by
      intro hs
      have := hst hs
      subst this
      cases hreg with
      | fault hfa => cases hfa
      | add => exact hgood (.inl rfl)
      | addIdle => exact hgood (.inl rfl)
      | missing => exact hgood (.inr (.inl rfl))
      | delete => exact hgood (.inl rfl)
      | nothing => exact hgood (.inl rfl)
    subst hks
    refine h.quiet t hother ?_ ?_ (fun _ _ => rfl) (fun evs he => hev t evs he)
    · dsimp only; rw [upd_self, hp]; rfl
    · dsimp only; rw [upd_self]
      refine ⟨fun hl => hp1 (by simp; omega), fun hl => hp2 (by simp), fun hok => ?_, fun hs => absurd hs hns⟩
      exact absurd ((submitResult_snoc _ _ _).mp hok).2 hgood

/-- `wait` takes events. -/
theorem kinv_kevent {c : Cfg} {P} {strict once : Prop} {s : S} {tr : List KObs} {t : Tid} {timed : Bool} {cap : Nat} {evs : List KEvent}
    {k : Kern} (hr : Reach c P s tr) (hp : s.pc t = .wKev timed cap) (hh : harvest c s.k cap = (evs, k)) (h : KInv c strict once s (marksK tr)) :
    KInv c strict once { s with k, pc := upd s.pc t (if c.user then .wFin evs else .wClear timed cap evs) }
      (marksK (.deliver t (evs.filter fun e => !c.internal e.filter) :: tr)) := by
  obtain ⟨pre, rest, _, _, _, hb⟩ := harvest_batch (reach_ki hr).nodup hh
  generalize pre.filter (hot c (KqM.ready c s.k) s.k.knotes) = took at hb
  have hother : ∀ u, u ≠ t → (upd s.pc t (if c.user then .wFin evs else .wClear timed cap evs)) u = s.pc u := fun u e => upd_other _ e
  have hlib := reach_lib hr
  have hfil : (evs.filter fun e => !c.internal e.filter) =
      (took.filter fun f => !c.internal f).map (eventOf (KqM.ready c s.k) s.k.knotes) := by
    rw [hb.evs, List.filter_map]; rfl
  have hwf : ∀ l : List Filter, l.Nodup → (∀ f ∈ l, c.internal f = false ∧ (s.k.knotes f).isSome) →
      WF [false, true] strict once (takesK (l.map (eventOf (KqM.ready c s.k) s.k.knotes)) ++ marksK tr) := by
    intro l
    induction l with
    | nil => intro _ _; exact h.wf
    | cons f l ih =>
      intro hnd hl
      obtain ⟨hnin, hnd'⟩ := List.nodup_cons.1 hnd
      have ih := ih hnd' (fun g hg => hl g (by simp [hg]))
      obtain ⟨hi, hk⟩ := hl f (by simp)
      obtain ⟨n, hn⟩ := Option.isSome_iff_exists.mp hk
      obtain ⟨fd, b, key, o, h1, h2, h3, h4⟩ := h.note f n hi hn
      have hkey : u64ToKey 64 (eventOf (KqM.ready c s.k) s.k.knotes f).udata = key := by simp [eventOf, hn, h3]
      rw [List.map_cons]
      rcases takesK_cons (eventOf (KqM.ready c s.k) s.k.knotes f) (l.map (eventOf (KqM.ready c s.k) s.k.knotes)) (marksK tr) with
        ⟨_, he⟩ | ⟨fd', b', he, he'⟩
      · exact absurd (h1.symm.trans he) nofun
      · cases h1.symm.trans he
        rw [he']
        refine .cons ih ⟨by cases b <;> simp, ⟨o, ?_⟩, fun hon => ?_⟩
        · rw [lastEff_takesK, hkey]; exact h2
        · rw [fresh_takesK h1]
          · exact (h4 hon).2
          · rw [List.map_map]
            simpa [Function.comp_def, eventOf] using hnin
  have hmark : marksK (.deliver t (evs.filter fun e => !c.internal e.filter) :: tr) =
      takesK (evs.filter fun e => !c.internal e.filter) ++ marksK tr := rfl
  rw [hmark]
  refine h.next t ?_ hother (fun u _ => busy_takesK _ _ u) (fun u _ b => done_takesK _ _ u b) ?_ ?_ ?_ ?_
  · rw [hfil]
    refine hwf _ (hb.nodup.filter _) ?_
    intro f hf
    obtain ⟨h1, h2⟩ := List.mem_filter.mp hf
    refine ⟨by simpa using h2, ?_⟩
    have := (hb.queued f h1).2
    cases hk : s.k.knotes f with
    | none => simp [hot, hk] at this
    | some n => rfl
  · rw [busy_takesK, h.busy, hp]
    dsimp only; rw [upd_self]
    cases c.user <;> rfl
  · dsimp only; rw [upd_self]
    cases c.user <;> trivial
  · intro f n hi hn
    dsimp only at hn
    rw [hb.knotes] at hn
    dsimp only at hn
    split at hn
    · rename_i hin
      cases hk : s.k.knotes f with
      | none => rw [hk] at hn; cases hn
      | some n0 =>
        rw [hk] at hn
        simp only [reported, Option.filter_some, Option.ite_none_right_eq_some, Bool.not_eq_true', Option.some.injEq] at hn
        obtain ⟨hno, rfl⟩ := hn
        obtain ⟨fd, b, key, o, h1, h2, h3, h4⟩ := h.note f n0 hi hk
        refine ⟨fd, b, key, o, h1, by rw [lastEff_takesK]; exact h2, h3, fun hon => ?_⟩
        rw [(h4 hon).1] at hno; cases hno
    · rename_i hin
      obtain ⟨fd, b, key, o, h1, h2, h3, h4⟩ := h.note f n hi hn
      refine ⟨fd, b, key, o, h1, by rw [lastEff_takesK]; exact h2, h3, fun hon => ⟨(h4 hon).1, ?_⟩⟩
      rw [fresh_takesK h1]
      · exact (h4 hon).2
      · rw [hfil, List.map_map]
        intro hm
        obtain ⟨g, hg, hgf⟩ := List.mem_map.mp hm
        have : g = f := hgf
        subst this
        exact hin (List.mem_filter.mp hg).1
  · intro u evs' he
    by_cases e : u = t
    · subst e
      dsimp only at he
      rw [upd_self] at he
      have : evs' = evs := by cases hu : c.user <;> rw [hu] at he <;> cases he <;> rfl
      subst this
      refine ⟨⟨_, pend_takesK _ _⟩, ?_⟩
      intro ev hev hi
      rw [hb.evs] at hev
      obtain ⟨f, hf, rfl⟩ := List.mem_map.mp hev
      have hhot := (hb.queued f hf).2
      cases hk : s.k.knotes f with
      | none => simp [hot, hk] at hhot
      | some n =>
        obtain ⟨fd, b, key, o, h1, _⟩ := h.note f n hi hk
        have : comp (eventOf (KqM.ready c s.k) s.k.knotes f).filter = some (fd, b) := h1
        rw [this]; nofun
    · exfalso
      dsimp only at he
      rw [hother u e] at he
      have h1 : inWait (s.pc u) = true := by
        cases hpu : s.pc u with
        | submit w todo dn => rw [hpu] at he; cases w <;> first | rfl | cases he
        | _ => rw [hpu] at he; first | rfl | cases he
      have h2 := (hlib u).mpr h1
      have h3 := (hlib t).mpr (by rw [hp]; rfl)
      rw [h2] at h3; cases h3; exact e rfl

/-- A thread that is in no call returns at once, or one in a call returns. -/
theorem kinv_ret {c : Cfg} {strict once : Prop} {s s' : S} {tr : List KObs} {t : Tid} {call : KqSpec.Call} {r : Ret}
    (h : KInv c strict once s (marksK tr)) (hk : s'.k = s.k) (hpc : s'.pc = upd s.pc t .out) (hcall : callAt (s.pc t) = some call)
    (hev : evsAt (s.pc t) = none) (hne : ofKCall call ≠ none)
    (hok : r = .res .ok → ∀ b, done (marksK tr) t b = true)
    (hbad : strict → r ≠ .res .ok → ∀ fd k o, ofKCall call = some (.set fd k o) → ∀ b, done (marksK tr) t b = false) :
    KInv c strict once s' (marksK (.ret t call r :: tr)) := by
  have hb := h.busy t
  rw [hcall] at hb
  have hmark : marksK (.ret t call r :: tr) = .vis (.ret t (r == .res .ok)) :: marksK tr := by
    simp only [marksK]; rw [if_neg (by rw [hb]; exact hne)]
  rw [hmark]
  have hself : s'.pc t = .out := by rw [hpc, upd_self]
  have hother : ∀ u, u ≠ t → s'.pc u = s.pc u := fun u e => by rw [hpc, upd_other _ e]
  refine h.next t (.cons h.wf ⟨by rw [hb]; exact hne, fun hr b _ => hok (by simpa using hr) b, ?_⟩) hother ?_ ?_ ?_ ?_ ?_ ?_
  · intro hs hr fd k o hset b
    exact hbad hs (by simpa using hr) fd k o (by rw [← hset, hb]; rfl) b
  · intro u e; simp only [Api.busy]; rw [if_neg (fun h => e h.symm)]
  · intro u e b; simp only [done]; rw [if_neg (fun h => e h.symm)]
  · rw [hself]; simp [Api.busy, callAt]
  · rw [hself]; trivial
  · intro f n hi hn; rw [hk] at hn; exact h.note f n hi hn
  · intro u evs he
    by_cases e : u = t
    · subst e; rw [hself] at he; cases he
    · rw [hother u e] at he; exact h.pend u evs he

/-- What a `wait` returns was taken by it. -/
theorem ok_visible {c : Cfg} {strict once : Prop} {m : List Mark} {evs : List KEvent} (h : PendK c m evs)
    (hown : ∀ e ∈ evs, c.internal e.filter = true → e.udata = keyToU64 NOTIFY_KEY) :
    Ok [false, true] strict once m (.vis (.waitOk ((visible evs).map view))) := by
  obtain ⟨⟨rest, hp⟩, hc⟩ := h
  rw [visible_user hown]
  have hc' : ∀ e ∈ evs.filter (fun e => !c.internal e.filter), comp e.filter ≠ none := by
    intro e he
    obtain ⟨h1, h2⟩ := List.mem_filter.mp he
    exact hc e h1 (by simpa using h2)
  generalize evs.filter (fun e => !c.internal e.filter) = l at hp hc'
  constructor
  · intro e he
    obtain ⟨e1, he1, rfl⟩ := List.mem_map.mp he
    obtain ⟨e2, he2, rfl⟩ := List.mem_map.mp (List.mem_filter.mp he1).1
    cases hco : comp e2.filter with
    | none => exact absurd hco (hc' e2 he2)
    | some x =>
      refine ⟨x.2, ?_⟩
      rw [hp]
      exact List.mem_append_left _ (List.mem_filterMap.mpr ⟨e2, he2, by simp [got, hco, view, toEvent]⟩)
  · intro _ k
    rw [hp, List.count_append]
    refine Nat.le_trans ?_ (Nat.le_add_right _ _)
    have h1 : ((visible l).map view).countP (fun e => e.readable && e.key == k) ≤ l.countP (fun e => (toEvent e).readable && (toEvent e).key == k) := by
      rw [List.countP_map]
      unfold visible
      refine Nat.le_trans (List.filter_sublist.countP_le) ?_
      rw [List.countP_map]
      exact Nat.le_of_eq rfl
    refine Nat.le_trans h1 ?_
    clear h1 hp hc
    induction l with
    | nil => simp
    | cons e l ih =>
      have ih := ih (fun x hx => hc' x (by simp [hx]))
      have he := hc' e (by simp)
      rw [List.countP_cons]
      cases hf : e.filter with
      | read fd =>
        have hg : got e = some (false, u64ToKey 64 e.udata) := by simp [got, hf, comp]
        rw [List.filterMap_cons_some hg, List.count_cons]
        have h1 : (toEvent e).key = u64ToKey 64 e.udata := rfl
        rw [h1]
        by_cases hk : u64ToKey 64 e.udata = k
        · subst hk
          simp only [beq_self_eq_true, Bool.and_true, if_true]
          split <;> omega
        · simp only [beq_eq_false_iff_ne.mpr hk, Bool.and_false, Bool.false_eq_true, if_false]
          omega
      | write fd =>
        have hg : got e = some (true, u64ToKey 64 e.udata) := by simp [got, hf, comp]
        rw [List.filterMap_cons_some hg, List.count_cons]
        have h1 : (toEvent e).readable = false := by simp [toEvent, hf]
        simp only [h1, Bool.false_and, Bool.false_eq_true, if_false]
        omega
      | _ => rw [hf] at he; exact absurd rfl he

theorem next_kinv {c : Cfg} {P} {strict once : Prop} {s s' : S} {tr : List KObs} {t : Tid} {a : Act} {o : KObs} (hok : c.Ok)
    (hr : Reach c P s tr) (hn : Next c s t a s' o) (hP : Attach s t a) (hst : strict → Accept s t a) (hport : KPortable (o :: tr))
    (hone : once → AllOneshot (ofKObs (o :: tr))) (h : KInv c strict once s (marksK tr)) : KInv c strict once s' (marksK (o :: tr)) := by
  have hport' := kPortable_tail hport
  have hone' := fun hon => allOneshot_tail (hone hon)
  have hlib := reach_lib hr
  have hpos := h.pos t
  -- the call of a thread is portable
  have hcp : ∀ call, callAt (s.pc t) = some call → ofKCall call ≠ none := by
    intro call hc
    exact hport' t call (begun_calling (by rw [(reach_calls hr).calling t]; exact hc))
  have hoth : ∀ p u, u ≠ t → (upd s.pc t p) u = s.pc u := fun p u e => upd_other _ e
  -- a step that is not marked
  have quiet : ∀ {k src n l} (p : Pc), (∀ f, c.internal f = false → k.knotes f = s.k.knotes f) → callAt p = callAt (s.pc t) →
      PosK strict (marksK tr) t p → (∀ evs, evsAt p = some evs → evsAt (s.pc t) = some evs) →
      KInv c strict once ⟨k, src, n, l, upd s.pc t p⟩ (marksK tr) := by
    intro k src n l p h1 h2 h3 h4
    refine h.quiet t (hoth p) ?_ ?_ h1 ?_
    · dsimp only; rw [upd_self, h2]
    · dsimp only; rw [upd_self]; exact h3
    · dsimp only; rw [upd_self]; exact h4
  -- a `wait` begins or ends
  have wait : ∀ {k src n l} (p : Pc) {o}, k = s.k → s.lib = none ∨ s.lib = some t → Ok [false, true] strict once (marksK tr) (.vis o) →
      (∀ m u, Api.busy (.vis o :: m) u = Api.busy m u) → (∀ m u b, done (.vis o :: m) u b = done m u b) →
      callAt (s.pc t) = none → callAt p = none → PosK strict (.vis o :: marksK tr) t p → evsAt p = none →
      KInv c strict once ⟨k, src, n, l, upd s.pc t p⟩ (.vis o :: marksK tr) := by
    intro k src n l p o h1 h2 h3 h4 h5 h6 h7 h8 h9
    refine h.wait t (hoth p) hlib h2 h3 h4 h5 h6 ?_ ?_ h1 ?_
    · dsimp only; rw [upd_self, h7]
    · dsimp only; rw [upd_self]; exact h8
    · dsimp only; rw [upd_self]; exact h9
  have held : inWait (s.pc t) = true → s.lib = none ∨ s.lib = some t := fun hw => .inr ((hlib t).mpr hw)
  cases hn with
  | @reject call hp =>
    have : marksK (.ret t call (.res (.err .invalidInput)) :: tr) = marksK tr := by
      simp only [marksK]; rw [if_pos (by rw [h.busy t, hp]; rfl)]
    rw [this]; exact h
  | @panic0 call hp =>
    have : marksK (.ret t call .panic :: tr) = marksK tr := by
      simp only [marksK]; rw [if_pos (by rw [h.busy t, hp]; rfl)]
    rw [this]; exact h
  | @begin call hp =>
    have hc := hport t call List.mem_cons_self
    cases hc0 : ofKCall call with
    | none => exact absurd hc0 hc
    | some c0 =>
      have hmark : marksK (.begin t call :: tr) = .vis (.begin t c0) :: marksK tr := by simp only [marksK, hc0]
      rw [hmark]
      have hfirst : callAt (first call) = some call ∧ evsAt (first call) = none ∧
          PosK strict (.vis (.begin t c0) :: marksK tr) t (first call) := by
        cases call <;> first | (refine ⟨rfl, rfl, fun b => ?_⟩; simp [done]; done) | cases hc0
      have hb0 : Api.busy (marksK tr) t = none := by rw [h.busy t, hp]; rfl
      refine h.next t (.cons h.wf hb0) (hoth _) ?_ ?_ ?_ ?_ ?_ ?_
      · intro u e; simp only [Api.busy]; rw [if_neg (fun h => e h.symm)]
      · intro u e b; simp only [done]; rw [if_neg (fun h => e h.symm)]
      · dsimp only; rw [upd_self, hfirst.1]; simp [Api.busy, hc0]
      · dsimp only; rw [upd_self]; exact hfirst.2.2
      · exact fun f n hi hn => h.note f n hi hn
      · intro u evs he
        by_cases e : u = t
        · subst e; dsimp only at he; rw [upd_self, hfirst.2.1] at he; cases he
        · dsimp only at he; rw [hoth _ u e] at he; exact h.pend u evs he
  | @dup call hp =>
    rw [hp] at hpos
    have hc : callAt (s.pc t) = some call := by rw [hp]; rfl
    exact kinv_ret h rfl rfl hc (by rw [hp]; rfl) (hcp _ hc) nofun (fun _ _ _ _ _ _ => hpos)
  | inserted hp => rw [hp] at hpos; exact quiet _ (fun _ _ => rfl) (by rw [hp]; rfl) hpos nofun
  | @missing call hp =>
    rcases hp with hp | hp
    · rw [hp] at hpos
      have hc : callAt (s.pc t) = some call := by rw [hp]; rfl
      exact kinv_ret h rfl rfl hc (by rw [hp]; rfl) (hcp _ hc) nofun (fun _ _ _ _ _ _ => hpos)
    · rw [hp] at hpos
      have hc : callAt (s.pc t) = some call := by rw [hp]; rfl
      refine kinv_ret h rfl rfl hc (by rw [hp]; rfl) (hcp _ hc) nofun (fun _ _ fd k o hset => ?_)
      have hdel := hpos.1
      cases call <;> first | (cases hdel; done) | cases hset
  | @panic call hp =>
    rw [hp] at hpos
    have hc : callAt (s.pc t) = some call := by rw [hp]; rfl
    exact kinv_ret h rfl rfl hc (by rw [hp]; rfl) (hcp _ hc) nofun (fun _ _ _ _ _ _ => hpos)
  | @has call hp =>
    rw [hp] at hpos
    have hc : callAt (s.pc t) = some call := by rw [hp]; rfl
    refine quiet _ (fun _ _ => rfl) (by rw [hp]; rfl) ?_ nofun
    cases hc0 : ofKCall call with
    | none => exact absurd hc0 (hcp _ hc)
    | some c0 =>
      obtain ⟨e0, mode, hch, _⟩ := changes_of hc0
      refine ⟨fun _ => hpos false, fun _ => hpos true, fun _ => ?_, fun _ => rfl⟩
      rw [hch]
      exact ⟨fun hl => by simp [fdChanges] at hl, fun hl => by simp [fdChanges] at hl⟩
  | removed hp => rw [hp] at hpos; exact quiet _ (fun _ _ => rfl) (by rw [hp]; rfl) hpos nofun
  | @ended call hp =>
    rw [hp] at hpos
    have hc : callAt (s.pc t) = some call := by rw [hp]; rfl
    exact kinv_ret h rfl rfl hc (by rw [hp]; rfl) (hcp _ hc) (fun _ => hpos.2) (fun _ hne => absurd rfl hne)
  | wMissing hp => exact wait _ rfl (held (by rw [hp]; rfl)) trivial (fun _ _ => rfl) (fun _ _ _ => rfl) (by rw [hp]; rfl) rfl trivial rfl
  | wHas hp => exact quiet _ (fun _ _ => rfl) (by rw [hp]; rfl) trivial (fun evs he => by rw [hp]; exact he)
  | @change fault w ev todo dn errno k hp hf0 hreg =>
    cases w with
    | call call =>
      refine kinv_change hr hp hf0 hreg hP (fun hs => ?_) hport' hone' h
      have := hst hs
      unfold Accept at this
      rw [hp] at this
      exact this
    | notify =>
      have hi := own_filter (w := .notify) (reach_pcOk hr t |> fun x => by rw [hp] at x; exact x.1) (fun _ h => by cases h) (head_change (by rw [← hp]; exact reach_pcOk hr t))
      have hb0 : Api.busy (marksK tr) t = none := by rw [h.busy t, hp]; rfl
      have hmark : marksK (changeObs t ev errno :: tr) = marksK tr := by
        have he : effK (marksK tr) t ev.filter = marksK tr := by unfold effK; rw [hb0]
        by_cases hg : errno = 0 ∨ errno = ENOENT ∨ errno = EPIPE
        · rw [marksK_change hg, he]
        · exact marksK_refuse hg
      rw [hmark]
      refine quiet _ (fun f hf => (reg_other (register_reg hreg) ?_).1) (by rw [hp]; rfl) trivial nofun
      rintro rfl; rw [hf] at hi; cases hi
    | rearm timed cap evs =>
      have hi := own_filter (w := .rearm timed cap evs) (reach_pcOk hr t |> fun x => by rw [hp] at x; exact x.1) (fun _ h => by cases h) (head_change (by rw [← hp]; exact reach_pcOk hr t))
      have hb0 : Api.busy (marksK tr) t = none := by rw [h.busy t, hp]; rfl
      have hmark : marksK (changeObs t ev errno :: tr) = marksK tr := by
        have he : effK (marksK tr) t ev.filter = marksK tr := by unfold effK; rw [hb0]
        by_cases hg : errno = 0 ∨ errno = ENOENT ∨ errno = EPIPE
        · rw [marksK_change hg, he]
        · exact marksK_refuse hg
      rw [hmark]
      refine quiet _ (fun f hf => (reg_other (register_reg hreg) ?_).1) (by rw [hp]; rfl) trivial (fun evs he => by rw [hp]; exact he)
      rintro rfl; rw [hf] at hi; cases hi
  | @finCall _ call r hf hdel =>
    cases hf with
    | @eval _ dn hp =>
      rw [hp] at hpos
      obtain ⟨_, _, h3, h4⟩ := hpos
      have hc : callAt (s.pc t) = some call := by rw [hp]; rfl
      refine kinv_ret h rfl rfl hc (by rw [hp]; rfl) (hcp _ hc) (fun hr b => ?_) (fun hs hne => ?_)
      · injection hr with hr
        cases b with
        | false => exact (h3 hr).1 (by simp)
        | true => exact (h3 hr).2 rfl
      · exact absurd (congrArg Ret.res (h4 hs)) hne
    | @fail _ todo dn e hp =>
      have hc : callAt (s.pc t) = some call := by rw [hp]; rfl
      refine kinv_ret h rfl rfl hc (by rw [hp]; rfl) (hcp _ hc) nofun (fun hs => ?_)
      have := hst hs
      unfold Accept at this
      rw [hp] at this
      exact absurd this id
  | @finDelete _ call hf hdel =>
    obtain ⟨dn, hp, hres, _⟩ := hf.ok rfl
    rw [hp] at hpos
    obtain ⟨_, _, h3, _⟩ := hpos
    refine quiet _ (fun _ _ => rfl) (by rw [hp]; rfl) ⟨hdel, fun b => ?_⟩ nofun
    cases b with
    | false => exact (h3 hres).1 (by simp)
    | true => exact (h3 hres).2 rfl
  | finNotify hf => obtain ⟨_, _, hp⟩ := hf.pc; exact quiet _ (fun _ _ => rfl) (by rw [hp]; rfl) trivial nofun
  | finRearm hf => obtain ⟨_, _, hp⟩ := hf.pc; exact quiet _ (fun _ _ => rfl) (by rw [hp]; rfl) trivial (fun evs he => by rw [hp]; exact he)
  | rearmRetry hf => obtain ⟨_, _, hp⟩ := hf.pc; exact quiet _ (fun _ _ => rfl) (by rw [hp]; rfl) trivial nofun
  | rearmErr hf =>
    obtain ⟨_, _, hp⟩ := hf.pc
    exact wait _ rfl (held (by rw [hp]; rfl)) trivial (fun _ _ => rfl) (fun _ _ _ => rfl) (by rw [hp]; rfl) rfl trivial rfl
  | kevRetry => exact h
  | kevErr hp => exact wait _ rfl (held (by rw [hp]; rfl)) trivial (fun _ _ => rfl) (fun _ _ _ => rfl) (by rw [hp]; rfl) rfl trivial rfl
  | casSeen => exact h
  | casUser hp => exact quiet _ (fun _ _ => rfl) (by rw [hp]; rfl) trivial nofun
  | casPair hp => exact quiet _ (fun _ _ => rfl) (by rw [hp]; rfl) trivial nofun
  | writeFail hp => exact quiet _ (fun _ _ => rfl) (by rw [hp]; rfl) trivial nofun
  | write hp => exact quiet _ (fun f _ => by rw [activate_knotes]) (by rw [hp]; rfl) trivial nofun
  | waitBusy => exact h
  | waitBegin hp hl => exact wait _ rfl (.inl hl) trivial (fun _ _ => rfl) (fun _ _ _ => rfl) (by rw [hp]; rfl) rfl trivial rfl
  | kevent hp hh => exact kinv_kevent hr hp hh h
  | read hp =>
    have := quiet (k := { s.k with chan := s.k.chan - 64 }) (src := s.sources) (n := s.notified) (l := s.lib) (s.pc t)
      (fun _ _ => rfl) rfl hpos (fun _ he => he)
    rwa [upd_same s.pc rfl] at this
  | readEnd hp => exact quiet _ (fun _ _ => rfl) (by rw [hp]; rfl) trivial (fun evs he => by rw [hp]; exact he)
  | @finish evs hp =>
    refine wait _ rfl (held (by rw [hp]; rfl)) ?_ (fun _ _ => rfl) (fun _ _ _ => rfl) (by rw [hp]; rfl) rfl trivial rfl
    exact ok_visible (h.pend t evs (by rw [hp]; rfl)) (reach_bufs hok hr t evs (by rw [hp]; rfl)).2
  | @raise f v =>
    have := quiet (k := activate { s.k with cond := fun x => if x = f then some v else s.k.cond x } f) (src := s.sources) (n := s.notified)
      (l := s.lib) (s.pc t) (fun _ _ => by rw [activate_knotes]) rfl hpos (fun _ he => he)
    rwa [upd_same s.pc rfl] at this
  | @fall f =>
    have := quiet (k := { s.k with cond := fun x => if x = f then none else s.k.cond x }) (src := s.sources) (n := s.notified)
      (l := s.lib) (s.pc t) (fun _ _ => rfl) rfl hpos (fun _ he => he)
    rwa [upd_same s.pc rfl] at this

/-- **The marks of a run on kqueue obey the rules.** -/
theorem reach_kinv {c : Cfg} {P} {strict once : Prop} {s : S} {tr : List KObs} (hok : c.Ok) (h : Reach c P s tr)
    (hP : ∀ s t a, P s t a → Attach s t a ∧ (strict → Accept s t a)) (hport : KPortable tr) (hone : once → AllOneshot (ofKObs tr)) :
    KInv c strict once s (marksK tr) := by
  induction h with
  | init cond =>
    have hpc : ∀ t, (init c cond).pc t = .out := by intro t; unfold init; split <;> rfl
    refine ⟨.nil, fun t => by rw [hpc]; rfl, fun t => by rw [hpc]; trivial, ?_, fun t evs he => by rw [hpc] at he; cases he⟩
    intro f n hi hn
    have := init_match c cond f hi
    rw [hn] at this
    exact absurd this id
  | step hr hp hs ih =>
    exact next_kinv hok hr (step_next hs).2 (hP _ _ _ hp).1 (hP _ _ _ hp).2 hport hone
      (ih (kPortable_tail hport) (fun hon => allOneshot_tail (hone hon)))

end Polling.Api
