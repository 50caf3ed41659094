import Verif.Proof.IocpFSec

/- The fine-grained machine refines the coarse one: the invariant and the simulation. -/

namespace Polling.IocpF
open Iocp IocpSpec IocpM

/-- What the owner of the mutex knows. -/
def PktOk (tk : Bool) (b : Buf) (pos : Pos) : Pkt → Prop
  | .socket s => SockOk tk s b pos
  | .waitable w => WtbOk w pos
  | _ => False

/-- The owner of the mutex of `p` is where it took it. -/
def Here (n : Nat) (m : S) (taken : Option PId) (p : PId) (pos : Pos) : Who → Prop
  | .thread t => t < n ∧ ∃ k, pcSite (m.pc t) = some (k, p) ∧ (pos.post = false → k = preKind pos)
  | .waiter => ∃ k, phaseSite m.phase = some (k, p) ∧ (pos.post = false → k = preKind pos) ∧ (k = .feed → taken = some p)
  | .callback q => q = p ∧ ((p ∈ m.cb ∧ pos = .cunregister) ∨ (p ∈ m.cbPost ∧ (pos = .cidle ∨ ∃ out, pos = .fin out)))

/-- The operation of a packet whose completion entry was converted. -/
def Taken (op : Op) : Option (Who × Pos) → Prop
  | some (.waiter, pos) => if pos.post then op = .none else isDone op = true
  | _ => isDone op = true

structure Inv (n : Nat) (f : F) : Prop where
  sec : ∀ p who pos, f.sec p = some (who, pos) →
    PktOk (decide (f.taken = some p)) (f.buf p) pos (f.m.c.pk p) ∧ Here n f.m f.taken p pos who
  tak : ∀ p, f.taken = some p → (∃ w b, f.m.phase = .feed w (p :: b)) ∧
    ∀ s, f.m.c.pk p = .socket s → s.inUse = false ∧ Taken s.op (f.sec p)
  buf : ∀ p s, f.m.c.pk p = .socket s → BufOk (f.written p) (f.buf p) s.op
  wr : ∀ p, (∀ s, f.m.c.pk p ≠ .socket s) → f.written p = none

/-- A step is internal, or it is a step of the coarse machine. -/
def Sim (n : Nat) (f : F) (a : FAct) (f' : F) (o : Option IObs) : Prop :=
  (label f a = none ∧ o = none ∧ abs f' = abs f) ∨
  ∃ a' o', label f a = some a' ∧ o = some o' ∧ step n (abs f) a' = some (abs f', o')

/- Changes at one packet. -/

theorem put_self {α : Type} (f : PId → α) (p x) : put f p x p = x := if_pos rfl
theorem put_other {α : Type} (f : PId → α) {p q} (x) (h : q ≠ p) : put f p x q = f q := if_neg h

theorem absPc_congr {t sec sec' pk pk' pc} (h : ∀ p, outOf (.thread t) (sec' p) (pk' p) = outOf (.thread t) (sec p) (pk p)) :
    absPc t sec' pk' pc = absPc t sec pk pc := by
  unfold absPc
  cases pcSite pc with
  | none => rfl
  | some kp => obtain ⟨k, p⟩ := kp; dsimp only; rw [h p]

theorem absPhase_congr {sec sec' pk pk' ph} (h : ∀ p, outOf .waiter (sec' p) (pk' p) = outOf .waiter (sec p) (pk p)) :
    absPhase sec' pk' ph = absPhase sec pk ph := by
  unfold absPhase
  cases phaseSite ph with
  | none => rfl
  | some kp => obtain ⟨k, p⟩ := kp; dsimp only; rw [h p]

theorem absPc_free {t sec pk pc} (h : ∀ k p, pcSite pc = some (k, p) → outOf (.thread t) (sec p) (pk p) = none) : absPc t sec pk pc = pc := by
  unfold absPc
  cases hs : pcSite pc with
  | none => rfl
  | some kp => obtain ⟨k, p⟩ := kp; dsimp only; rw [h k p hs]

theorem absPhase_free {sec pk ph} (h : ∀ k p, phaseSite ph = some (k, p) → outOf .waiter (sec p) (pk p) = none) : absPhase sec pk ph = ph := by
  unfold absPhase
  cases hs : phaseSite ph with
  | none => rfl
  | some kp => obtain ⟨k, p⟩ := kp; dsimp only; rw [h k p hs]

theorem absPc_out {t sec pk pc k p out} (hs : pcSite pc = some (k, p)) (h : outOf (.thread t) (sec p) (pk p) = some out) :
    absPc t sec pk pc = resumePc pc out := by
  unfold absPc; rw [hs]; dsimp only; rw [h]

theorem absPhase_out {sec pk ph k p out} (hs : phaseSite ph = some (k, p)) (h : outOf .waiter (sec p) (pk p) = some out) :
    absPhase sec pk ph = resumePhase ph out := by
  unfold absPhase; rw [hs]; dsimp only; rw [h]

theorem outOf_ne {who y x} (h : ∀ pos, y ≠ some (who, pos)) : outOf who y x = none := by
  cases y with
  | none => cases x <;> rfl
  | some y =>
    obtain ⟨w, pos⟩ := y
    have : ¬ w = who := fun e => h pos (by rw [e])
    cases x with
    | socket s => exact if_neg this
    | waitable s => exact if_neg this
    | _ => rfl

theorem outOf_pre {who w pos tk b x} (h : PktOk tk b pos x) (hp : pos.post = false) : outOf who (some (w, pos)) x = none := by
  cases x with
  | socket s =>
    show (if w = who then _ else _) = _
    split
    · have := finishS_post h s
      rw [hp] at this
      rw [Option.isSome_eq_false_iff, Option.isNone_iff_eq_none] at this
      rw [this]; rfl
    · rfl
  | waitable s =>
    show (if w = who then _ else _) = _
    split
    · have := finishW_post h s
      rw [hp] at this
      rw [Option.isSome_eq_false_iff, Option.isNone_iff_eq_none] at this
      rw [this]; rfl
    · rfl
  | _ => rfl

theorem outOf_sockOut {w pos s out x} (h : finishS pos s = some (out, x)) : outOf w (some (w, pos)) (.socket s) = some out := by
  show (if w = w then _ else _) = _
  rw [if_pos rfl, h]; rfl

theorem outOf_wtbOut {w pos s out x} (h : finishW pos s = some (out, x)) : outOf w (some (w, pos)) (.waitable s) = some out := by
  show (if w = w then _ else _) = _
  rw [if_pos rfl, h]; rfl

/-- The state of the coarse machine after a change at one packet. -/
theorem absPk_put {taken sec pk p y x X} (h : absPkt (decide (taken = some p)) y x = X) :
    absPk taken (put sec p y) (fun q => if q = p then x else pk q) = fun q => if q = p then X else absPk taken sec pk q := by
  funext q
  unfold absPk put
  by_cases e : q = p
  · subst e; simp only [if_true]; exact h
  · simp only [if_neg e]

theorem ite_self' {pk : PId → Pkt} {p} : (fun q => if q = p then pk p else pk q) = pk := by
  funext q; split
  · rename_i h; rw [h]
  · rfl

/-- A change at one packet that does not change what it stands for. -/
theorem abs_internal {f : F} {p who pos' x' b'} (h1 : absPkt (decide (f.taken = some p)) (some (who, pos')) x' =
      absPkt (decide (f.taken = some p)) (f.sec p) (f.m.c.pk p))
    (h2 : ∀ w, outOf w (some (who, pos')) x' = outOf w (f.sec p) (f.m.c.pk p)) :
    abs { f with m := { f.m with c := setPk f.m.c p x' }, sec := put f.sec p (some (who, pos')), buf := b' } = abs f := by
  have hpk : absPk f.taken (put f.sec p (some (who, pos'))) (fun q => if q = p then x' else f.m.c.pk q) = absPk f.taken f.sec f.m.c.pk := by
    rw [absPk_put h1]
    funext q
    split
    · rename_i e; rw [e]; rfl
    · rfl
  have ho : ∀ w q, outOf w (put f.sec p (some (who, pos')) q) (if q = p then x' else f.m.c.pk q) = outOf w (f.sec q) (f.m.c.pk q) := by
    intro w q
    by_cases e : q = p
    · subst e; rw [put_self, if_pos rfl]; exact h2 w
    · rw [put_other _ _ e, if_neg e]
  unfold abs setPk
  dsimp only
  rw [hpk, absPhase_congr (ho .waiter)]
  congr 1
  funext t
  exact absPc_congr (ho (.thread t))

theorem outOf_other {w who pos x} (h : w ≠ who) : outOf w (some (who, pos)) x = none :=
  outOf_ne fun pos' e => by cases e; exact h rfl

/-- `who` is not in a section that took effect. -/
theorem abs_pc_same {f : F} {t k p} (hs : pcSite (f.m.pc t) = some (k, p)) (hpre : ∀ w, outOf w (f.sec p) (f.m.c.pk p) = none) :
    (abs f).pc t = f.m.pc t := by
  refine absPc_free fun k' p' hs' => ?_
  rw [hs] at hs'; cases hs'
  exact hpre _

theorem abs_phase_same {f : F} {k p} (hs : phaseSite f.m.phase = some (k, p)) (hpre : ∀ w, outOf w (f.sec p) (f.m.c.pk p) = none) :
    (abs f).phase = f.m.phase := by
  refine absPhase_free fun k' p' hs' => ?_
  rw [hs] at hs'; cases hs'
  exact hpre _

theorem lockObs_abs {f : F} {t k p} (hs : pcSite (f.m.pc t) = some (k, p)) (hpre : ∀ w, outOf w (f.sec p) (f.m.c.pk p) = none) :
    ∀ mark, whoObs (abs f) (.thread t) p mark = whoObs f.m (.thread t) p mark := by
  intro mark
  have := abs_pc_same hs hpre
  unfold whoObs lockObs Mark.obs
  dsimp only
  rw [this]

theorem whoObs_waiter (s s' : S) (p mark) : whoObs s .waiter p mark = whoObs s' .waiter p mark := by
  cases mark <;> rfl

/-- A section takes effect. -/
theorem sim_commit {n f p who k x' pos' b' fault out X mark} (hsite : site f.m who = some (k, p)) (hthr : ∀ t, who = .thread t → t < n)
    (hpre : ∀ w, outOf w (f.sec p) (f.m.c.pk p) = none)
    (hX : absPkt (decide (f.taken = some p)) (some (who, pos')) x' = X)
    (hout : outOf who (some (who, pos')) x' = some out)
    (hent : (entry k (absPkt (decide (f.taken = some p)) (f.sec p) (f.m.c.pk p))).isSome = true)
    (hd : k = .feed → ∀ x, absPkt (decide (f.taken = some p)) (f.sec p) (f.m.c.pk p) = .socket x → isDone x.op = true)
    (hat : atomic k fault (absPkt (decide (f.taken = some p)) (f.sec p) (f.m.c.pk p)) = (out, X, mark)) :
    step n (abs f) (whoAct who fault) = some (abs { f with
      m := advance { f.m with c := setPk f.m.c p x' } who, sec := put f.sec p (some (who, pos')), buf := b' }, whoObs f.m who p mark) := by
  have hpk : absPk f.taken (put f.sec p (some (who, pos'))) (fun q => if q = p then x' else f.m.c.pk q) =
      fun q => if q = p then X else absPk f.taken f.sec f.m.c.pk q := absPk_put hX
  have ho : ∀ w, w ≠ who → ∀ q, outOf w (put f.sec p (some (who, pos')) q) (if q = p then x' else f.m.c.pk q) = outOf w (f.sec q) (f.m.c.pk q) := by
    intro w hw q
    by_cases e : q = p
    · subst e; rw [put_self, if_pos rfl, hpre w]; exact outOf_other hw
    · rw [put_other _ _ e, if_neg e]
  have hself : outOf who (put f.sec p (some (who, pos')) p) (if p = p then x' else f.m.c.pk p) = some out := by
    rw [put_self, if_pos rfl]; exact hout
  cases who with
  | thread t =>
    have hs : pcSite (f.m.pc t) = some (k, p) := hsite
    have hpc := abs_pc_same hs hpre
    show step n (abs f) (.go t fault) = _
    rw [coarse_thread (hthr t rfl) (by rw [hpc]; exact hs) hent, lockObs_abs hs hpre]
    rw [show (abs f).c.pk p = absPkt (decide (f.taken = some p)) (f.sec p) (f.m.c.pk p) from rfl, hat]
    congr 2
    unfold abs setPk advance
    dsimp only
    rw [hpk, absPhase_congr (ho .waiter nofun)]
    congr 1
    funext u
    unfold upd
    by_cases e : u = t
    · subst e
      rw [if_pos rfl, absPc_out (sec := put f.sec p _) (pk := fun q => if q = p then x' else f.m.c.pk q) hs hself]
      congr 1
    · rw [if_neg e]
      exact (absPc_congr (ho (.thread u) (by intro h; cases h; exact e rfl))).symm
  | waiter =>
    have hs : phaseSite f.m.phase = some (k, p) := hsite
    have hph := abs_phase_same hs hpre
    show step n (abs f) (.wait fault) = _
    rw [coarse_waiter (by rw [hph]; exact hs) hent hd, whoObs_waiter (abs f) f.m]
    rw [show (abs f).c.pk p = absPkt (decide (f.taken = some p)) (f.sec p) (f.m.c.pk p) from rfl, hat, hph]
    congr 2
    unfold abs setPk advance
    dsimp only
    rw [hpk, absPhase_out (sec := put f.sec p _) (pk := fun q => if q = p then x' else f.m.c.pk q) hs hself]
    congr 1
    funext u
    exact (absPc_congr (ho (.thread u) nofun)).symm
  | callback q =>
    have hq : q ∈ f.m.cb ∧ k = .cb ∧ q = p := by
      have : (if q ∈ f.m.cb then some (Kind.cb, q) else none) = some (k, p) := hsite
      split at this
      · rename_i h; cases this; exact ⟨h, rfl, rfl⟩
      · cases this
    obtain ⟨hq, rfl, rfl⟩ := hq
    show step n (abs f) (.callback q) = _
    have hm : whoObs f.m (.callback q) q mark = .tau ∧ atomic .cb none ((abs f).c.pk q) = (out, X, mark) := by
      rw [show (abs f).c.pk q = absPkt (decide (f.taken = some q)) (f.sec q) (f.m.c.pk q) from rfl]
      revert hat hent
      generalize absPkt _ _ _ = y
      intro hent hat
      cases y with
      | waitable w => cases hat; exact ⟨rfl, rfl⟩
      | _ => cases hent
    rw [coarse_callback (s := abs f) hq hent, hm.2, hm.1]
    congr 2
    unfold abs setPk advance
    dsimp only
    rw [hpk, absPhase_congr (ho .waiter nofun)]
    congr 1
    funext u
    exact (absPc_congr (ho (.thread u) nofun)).symm

/- Taking a mutex. -/

theorem entry_pre {k x pos} (h : entry k x = some pos) (hk : ∀ ev mode, k ≠ .set ev mode) :
    pos.post = false ∧ preKind pos = k ∧ (∀ s, absS pos s = s) ∧ (∀ w, absW pos w = w) := by
  cases k with
  | set ev mode => exact absurd rfl (hk ev mode)
  | _ => cases x <;> cases h <;> exact ⟨rfl, rfl, fun _ => rfl, fun _ => rfl⟩

theorem entry_lockable {k x pos} (h : entry k x = some pos) : (∃ s, x = .socket s) ∨ ∃ w, x = .waitable w := by
  cases x with
  | socket s => exact .inl ⟨s, rfl⟩
  | waitable s => exact .inr ⟨s, rfl⟩
  | _ => cases k <;> cases h

/-- A section is entered with what its first access relies on. -/
theorem entry_ok {k x pos tk b} (h : entry k x = some pos) (hf : k = .feed → ∀ s, x = .socket s → Feeding tk s) : PktOk tk b pos x := by
  cases k <;> cases x <;> cases h <;> first | exact trivial | exact hf rfl _ rfl

/-- The owner of a mutex has no other one. -/
theorem one_section {n f who p q pos k} (h : Inv n f) (hs : site f.m who = some (k, p)) (hq : f.sec q = some (who, pos)) : q = p := by
  have := (h.sec q who pos hq).2
  cases who with
  | thread t => obtain ⟨_, k', h1, _⟩ := this; have hs : pcSite (f.m.pc t) = _ := hs; rw [hs] at h1; cases h1; rfl
  | waiter => obtain ⟨k', h1, _⟩ := this; have hs : phaseSite f.m.phase = _ := hs; rw [hs] at h1; cases h1; rfl
  | callback r =>
    obtain ⟨h1, _⟩ := this
    have : (if r ∈ f.m.cb then some (Kind.cb, r) else none) = some (k, p) := hs
    split at this
    · cases this; exact h1.symm
    · cases this

theorem absPkt_entry {k x pos tk who} (h : entry k x = some pos) (hk : ∀ ev mode, k ≠ .set ev mode) :
    absPkt tk (some (who, pos)) x = absPkt tk none x := by
  obtain ⟨_, _, h1, h2⟩ := entry_pre h hk
  rcases entry_lockable h with ⟨s, rfl⟩ | ⟨w, rfl⟩
  · show Pkt.socket _ = _; rw [h1]; rfl
  · show Pkt.waitable _ = _; rw [h2]; rfl

theorem entry_abs {k x pos tk} (h : entry k x = some pos) : entry k (absPkt tk none x) = some pos := by
  cases k <;> cases x <;> cases h <;> rfl

theorem lockObs_kind {m p who k q} (hs : site m who = some (k, q)) (hk : ∀ ev mode, k ≠ .set ev mode) : lockObs m p who = none := by
  cases who with
  | thread t =>
    unfold lockObs
    dsimp only
    have hs : pcSite (m.pc t) = _ := hs
    split
    · rename_i h; rw [h] at hs; cases hs; exact absurd rfl (hk _ _)
    · rfl
  | _ => rfl

theorem lockObs_set {m p who ev mode q} (hs : site m who = some (.set ev mode, q)) : ∃ t, who = .thread t ∧ ∃ o, lockObs m p who = some o := by
  cases who with
  | thread t =>
    refine ⟨t, rfl, ?_⟩
    have hs : pcSite (m.pc t) = _ := hs
    unfold lockObs
    dsimp only
    cases hpc : m.pc t with
    | set call p =>
      rw [hpc] at hs
      cases call with
      | modify k fd ev mode => exact ⟨_, rfl⟩
      | _ => cases hs
    | upd call u => rw [hpc] at hs; cases u <;> cases hs
    | _ => rw [hpc] at hs; cases hs
  | waiter =>
    exfalso
    have hs : phaseSite m.phase = _ := hs
    cases hph : m.phase with
    | feedUpd w b u ev => rw [hph] at hs; cases u <;> cases hs
    | feed w b => rw [hph] at hs; cases b <;> cases hs
    | _ => rw [hph] at hs; cases hs
  | callback r =>
    exfalso
    have : (if r ∈ m.cb then some (Kind.cb, r) else none) = some (.set ev mode, q) := hs
    split at this <;> cases this

theorem waiter_kind {m k p} (hs : phaseSite m = some (k, p)) : k = .upd ∨ (k = .feed ∧ ∃ w b, m = .feed w (p :: b)) := by
  cases m with
  | feedUpd w b u ev => cases u <;> cases hs <;> exact .inl rfl
  | feed w b => cases b <;> cases hs; exact .inr ⟨rfl, _, _, rfl⟩
  | upd => cases hs; exact .inl rfl
  | _ => cases hs

theorem callback_site {m : S} {q k p} (hs : site m (.callback q) = some (k, p)) : q = p ∧ p ∈ m.cb ∧ k = .cb := by
  have : (if q ∈ m.cb then some (Kind.cb, q) else none) = some (k, p) := hs
  split at this
  · rename_i h; cases this; exact ⟨rfl, h, rfl⟩
  · cases this

theorem sim_lock {n P f tr who p f' o} (hi : Inv n f) (hr : Reach n P (abs f) tr) (h : fstep n f (.lock who p) = some (f', o)) :
    Sim n f (.lock who p) f' o ∧ Inv n f' := by
  unfold fstep at h
  dsimp only at h
  cases hs : site f.m who with
  | none => rw [hs] at h; cases h
  | some kq =>
    obtain ⟨k, q⟩ := kq
    rw [hs] at h
    dsimp only at h
    split at h
    rotate_left
    · cases h
    rename_i hc
    obtain ⟨rfl, hsec, hfeed⟩ := hc
    rw [Option.map_eq_some_iff] at h
    obtain ⟨pos, hpos, h⟩ := h
    cases h
    have hfree : ∀ r pos, f.sec r ≠ some (who, pos) := by
      intro r pos' hr'
      have := one_section hi hs hr'
      subst this
      rw [hsec] at hr'; cases hr'
    have hthr : ∀ t, who = .thread t → t < n := by
      intro t ht
      subst ht
      by_cases hlt : t < n
      · exact hlt
      · exfalso
        have h1 := reach_threads hr t (by omega)
        have h2 : (abs f).pc t = f.m.pc t := absPc_free fun k' p' _ => outOf_ne fun pos' => hfree p' pos'
        rw [h1] at h2
        have hs : pcSite (f.m.pc t) = _ := hs
        rw [← h2] at hs; cases hs
    have hpre : ∀ w, outOf w (f.sec q) (f.m.c.pk q) = none := by
      intro w; rw [hsec]; exact outOf_ne nofun
    have hfd : k = .feed → ∀ s, f.m.c.pk q = .socket s → Feeding (decide (f.taken = some q)) s := by
      intro hk s hs'
      have h1 := hfeed hk
      have h2 := (hi.tak q h1).2 s hs'
      rw [hsec] at h2
      exact ⟨by rw [h1]; exact decide_eq_true rfl, h2.2, h2.1⟩
    refine ⟨?_, ?_, ?_, hi.buf, hi.wr⟩
    · by_cases hk : ∀ ev mode, k ≠ .set ev mode
      · left
        refine ⟨?_, lockObs_kind hs hk, ?_⟩
        · unfold label; dsimp only; rw [lockObs_kind hs hk]; rfl
        · have hp := entry_pre hpos hk
          have := abs_internal (f := f) (p := q) (who := who) (pos' := pos) (x' := f.m.c.pk q) (b' := f.buf)
            (by rw [absPkt_entry hpos hk, hsec])
            (by intro w; rw [hpre w]; exact outOf_pre (entry_ok (tk := decide (f.taken = some q)) (b := f.buf q) hpos hfd) hp.1)
          rw [setPk_id] at this
          exact this
      · right
        have hk : ∃ ev mode, k = .set ev mode := by
          apply Classical.byContradiction
          intro hc
          exact hk fun ev mode e => hc ⟨ev, mode, e⟩
        obtain ⟨ev, mode, rfl⟩ := hk
        obtain ⟨t, rfl, o, ho⟩ := lockObs_set (p := q) hs
        refine ⟨.go t none, o, ?_, ho, ?_⟩
        · unfold label; dsimp only; rw [ho]; rfl
        · have hw : ∀ mark, whoObs f.m (.thread t) q mark = o := by intro mark; unfold whoObs; rw [ho]
          have key : ∃ out X mark, absPkt (decide (f.taken = some q)) (some (.thread t, pos)) (f.m.c.pk q) = X ∧
              outOf (.thread t) (some (.thread t, pos)) (f.m.c.pk q) = some out ∧
              atomic (.set ev mode) none (absPkt (decide (f.taken = some q)) (f.sec q) (f.m.c.pk q)) = (out, X, mark) := by
            rw [hsec]
            rcases entry_lockable hpos with ⟨s, hx⟩ | ⟨w, hx⟩
            · rw [hx] at hpos ⊢
              cases hpos
              refine ⟨_, _, _, rfl, ?_, rfl⟩
              show (if Who.thread t = Who.thread t then _ else _) = _
              rw [if_pos rfl]
              have := finishS_base (.setInterest ev mode) (decide (f.taken = some q)) s
              rw [← this]; rfl
            · rw [hx] at hpos ⊢
              cases hpos
              refine ⟨_, _, _, rfl, ?_, rfl⟩
              show (if Who.thread t = Who.thread t then _ else _) = _
              rw [if_pos rfl]; rfl
          obtain ⟨out, X, mark, h1, h2, h3⟩ := key
          have := sim_commit (n := n) (f := f) (p := q) (who := .thread t) (x' := f.m.c.pk q) (pos' := pos) (b' := f.buf) (fault := none) hs hthr hpre h1 h2
            (by rw [hsec, entry_abs hpos]; rfl) nofun h3
          rw [hw] at this
          unfold advance at this
          dsimp only at this
          rw [setPk_id] at this
          exact this
    · intro r who' pos' hr'
      have hr' : put f.sec q (some (who, pos)) r = some (who', pos') := hr'
      by_cases e : r = q
      · subst e
        rw [put_self] at hr'
        cases hr'
        refine ⟨entry_ok hpos hfd, ?_⟩
        have hpk : pos.post = false → k = preKind pos := by
          intro hp
          by_cases hk : ∀ ev mode, k ≠ .set ev mode
          · exact (entry_pre hpos hk).2.1.symm
          · exfalso
            apply hk
            intro ev mode hk
            subst hk
            rcases entry_lockable hpos with ⟨s, hx⟩ | ⟨w, hx⟩
            · rw [hx] at hpos; cases hpos; cases hp
            · rw [hx] at hpos; cases hpos; cases hp
        cases who with
        | thread t => exact ⟨hthr t rfl, k, hs, hpk⟩
        | waiter => exact ⟨k, hs, hpk, hfeed⟩
        | callback s =>
          obtain ⟨h1, h2, h3⟩ := callback_site hs
          subst h3
          refine ⟨h1, .inl ⟨h2, ?_⟩⟩
          rcases entry_lockable hpos with ⟨s, hx⟩ | ⟨w, hx⟩
          · rw [hx] at hpos; cases hpos
          · rw [hx] at hpos; cases hpos; rfl
      · rw [put_other _ _ e] at hr'
        exact hi.sec r who' pos' hr'
    · intro r hr'
      refine ⟨(hi.tak r hr').1, fun s hs' => ⟨((hi.tak r hr').2 s hs').1, ?_⟩⟩
      have := ((hi.tak r hr').2 s hs').2
      show Taken s.op (put f.sec q (some (who, pos)) r)
      by_cases e : r = q
      · subst e
        rw [put_self]
        rw [hsec] at this
        have this : isDone s.op = true := this
        cases who with
        | thread t => exact this
        | callback t => exact this
        | waiter =>
          show if pos.post = true then _ else _
          have : pos.post = false := by
            rcases waiter_kind (show phaseSite f.m.phase = some (k, r) from hs) with rfl | ⟨rfl, _⟩ <;> exact (entry_pre hpos nofun).1
          rw [this]; assumption
      · rw [put_other _ _ e]; exact this

/- An access. -/

theorem finishS_inUse {pos s r} (u : Bool) (h : finishS pos s = some r) :
    finishS pos { s with inUse := u } = some (r.1, { r.2 with inUse := u }) := by
  cases pos <;> first | (cases h; done) | (cases h; rfl) | skip
  case feedMode ev =>
    unfold finishS at h ⊢; dsimp only at h ⊢
    by_cases hm : s.mode = .oneshot
    · rw [if_pos hm] at h ⊢; cases h; rfl
    · rw [if_neg hm] at h ⊢; cases h; rfl

theorem finishS_baseEq {pos pos' s s' tk} (h : finishS pos' s' = finishS pos s) (hs : (finishS pos s).isSome = true) (hop : s'.op = s.op) :
    finishS pos' (baseS tk s') = finishS pos (baseS tk s) := by
  obtain ⟨r, hr⟩ := Option.isSome_iff_exists.mp hs
  rw [hr] at h
  unfold baseS
  by_cases c : (tk && isDone s.op) = true
  · rw [if_pos c, if_pos (by rw [hop]; exact c), finishS_inUse true h, finishS_inUse true hr]
  · rw [if_neg c, if_neg (by rw [hop]; exact c), h, hr]

theorem absS_finish {pos s r} (h : finishS pos s = some r) : absS pos s = r.2 := by unfold absS; rw [h]
theorem absS_undo {pos s} (h : finishS pos s = none) : absS pos s = undo pos s := by unfold absS; rw [h]
theorem absW_finish {pos s r} (h : finishW pos s = some r) : absW pos s = r.2 := by unfold absW; rw [h]
theorem absW_undo {pos s} (h : finishW pos s = none) : absW pos s = s := by unfold absW; rw [h]

/-- Before it takes effect, a section of `feed_event` has the converted entry. -/
theorem feed_feeding {tk s b pos} (h : SockOk tk s b pos) (hp : pos.post = false) (hk : preKind pos = .feed) : Feeding tk s := by
  cases pos <;> first | (cases hp; done) | (cases hk; done) | exact h.elim | skip
  case pending d => cases d <;> cases hk
  case cancelIo d => cases d <;> cases hk
  all_goals first | exact h.1 | exact h

theorem sock_feed {fault s b pos pos' s' b' mark} (hp : pos.post = false) (hk : preKind pos = .feed)
    (h : stepSock fault s b pos = some (pos', s', b', some mark)) : s'.op = .none ∧ s'.inUse = s.inUse := by
  cases pos <;> first | (cases hp; done) | (cases hk; done) | (cases h; done) | skip
  case pending d => cases d <;> cases hk
  case cancelIo d => cases d <;> cases hk
  case feedWod key old =>
    unfold stepSock at h; dsimp only at h
    by_cases hw : s.waitingOnDelete = true
    · rw [if_pos hw] at h; cases h; exact ⟨rfl, rfl⟩
    · rw [if_neg hw] at h; cases h
  case feedInfo key old =>
    unfold stepSock at h; dsimp only at h
    by_cases hw : b.count ≥ 1
    · rw [if_pos hw] at h
      by_cases hl : intersects b.events LOCAL_CLOSE = true
      · rw [if_pos hl] at h; cases h; exact ⟨rfl, rfl⟩
      · rw [if_neg hl] at h; cases h
    · rw [if_neg hw] at h; cases h
  case feedInterest ev old =>
    unfold stepSock at h; dsimp only at h
    by_cases hw : wanted s (narrowed s ev) = true
    · rw [if_pos hw] at h; cases h; exact ⟨rfl, rfl⟩
    · rw [if_neg hw] at h; cases h; exact ⟨rfl, rfl⟩

/-- The sections of others leave a completed operation alone. -/
theorem sock_done {tk fault s b pos pos' s' b' mk} (hp : pos.post = false) (hk : preKind pos ≠ .feed) (hok : SockOk tk s b pos)
    (hop : OpOk (.socket (undo pos (baseS tk s)))) (hd : isDone s.op = true)
    (h : stepSock fault s b pos = some (pos', s', b', mk)) : isDone s'.op = true ∧ s'.inUse = s.inUse := by
  have hne : s.op ≠ .none := by intro e; rw [e] at hd; cases hd
  cases pos <;> first | (cases hp; done) | (exact absurd rfl hk) | exact hok.elim | skip
  case wod =>
    unfold stepSock at h; dsimp only at h
    by_cases hw : s.waitingOnDelete = true
    · rw [if_pos hw] at h; cases h; exact ⟨hd, rfl⟩
    · rw [if_neg hw] at h; cases h; exact ⟨hd, rfl⟩
  case status =>
    unfold stepSock at h; dsimp only at h
    cases hs : s.status with
    | polling m => rw [hs] at h; cases h; exact ⟨hd, rfl⟩
    | idle => rw [hs] at h; cases h; exact ⟨hd, rfl⟩
    | cancelled => rw [hs] at h; cases h; exact ⟨hd, rfl⟩
  case flags flags =>
    unfold stepSock at h; dsimp only at h
    by_cases hw : s.mask ≠ flags
    · rw [if_pos hw] at h; cases h; exact ⟨hd, rfl⟩
    · rw [if_neg hw] at h; cases h; exact ⟨hd, rfl⟩
  case mask => cases h; exact ⟨hd, rfl⟩
  case tryLock mask =>
    exfalso
    have h1 : (baseS tk s).status = .idle → (baseS tk s).op = .none := hop.2
    rw [baseS_status, baseS_op] at h1
    exact hne (h1 hok.2.1)
  case info mask => exact absurd hok.2.2.2.2 hne
  case iosb mask => exact absurd hok.2.2.2.2 hne
  case ioctl mask => exact absurd hok.2.2.2.2.1 hne
  case pending d =>
    unfold stepSock at h; dsimp only at h
    by_cases hw : b.status = .pending
    · rw [if_pos hw] at h; cases h; exact ⟨hd, rfl⟩
    · rw [if_neg hw] at h; cases h; exact ⟨by rw [opCancel_done]; exact hd, rfl⟩
  case cancelIo d =>
    unfold stepSock at h; dsimp only at h
    cases fault with
    | none => cases h; exact ⟨by rw [opCancel_done]; exact hd, rfl⟩
    | some e => cases h; exact ⟨hd, rfl⟩
  case delRead =>
    unfold stepSock at h; dsimp only at h
    by_cases hw : s.waitingOnDelete = true
    · rw [if_pos hw] at h; cases h; exact ⟨hd, rfl⟩
    · rw [if_neg hw] at h; cases h; exact ⟨hd, rfl⟩
  case delWrite => cases h; exact ⟨hd, rfl⟩
  case delStatus =>
    unfold stepSock at h; dsimp only at h
    cases hs : s.status with
    | polling m => rw [hs] at h; cases h; exact ⟨hd, rfl⟩
    | idle => rw [hs] at h; cases h; exact ⟨hd, rfl⟩
    | cancelled => rw [hs] at h; cases h; exact ⟨hd, rfl⟩

theorem preKind_set (pos : Pos) (ev mode) : preKind pos ≠ .set ev mode := by
  cases pos with
  | pending d => cases d <;> nofun
  | cancelIo d => cases d <;> nofun
  | _ => nofun

/-- Before its effect, the owner of a mutex is at the section. -/
theorem here_site {n m taken p pos who} (h : Here n m taken p pos who) (hp : pos.post = false) :
    site m who = some (preKind pos, p) ∧ ∀ t, who = .thread t → t < n := by
  cases who with
  | thread t =>
    obtain ⟨h1, k, h2, h3⟩ := h
    rw [← h3 hp]
    exact ⟨h2, fun t' e => by cases e; exact h1⟩
  | waiter =>
    obtain ⟨k, h2, h3, _⟩ := h
    rw [← h3 hp]
    exact ⟨h2, nofun⟩
  | callback q =>
    obtain ⟨rfl, h | ⟨_, h⟩⟩ := h
    · obtain ⟨h1, rfl⟩ := h
      exact ⟨if_pos h1, nofun⟩
    · rcases h with rfl | ⟨out, rfl⟩ <;> cases hp

/-- Everything but the packet itself after an access. -/
theorem inv_access {n f p who pos pos' x' b' mk} (hi : Inv n f) (hsec : f.sec p = some (who, pos))
    (hok : PktOk (decide (f.taken = some p)) b' pos' x')
    (hpk : pos'.post = false → preKind pos' = preKind pos ∧ pos.post = false)
    (hcb : ∀ q, who = .callback q → (mk = true ∧ pos' = .cidle) ∨ (mk = false ∧ pos.post = true ∧ ∃ out, pos' = .fin out))
    (htak : f.taken = some p → ∀ s, x' = .socket s → s.inUse = false ∧ Taken s.op (some (who, pos')))
    (hbuf : ∀ s, x' = .socket s → BufOk (f.written p) b' s.op)
    (hty : (∀ s, x' ≠ .socket s) → ∀ s, f.m.c.pk p ≠ .socket s) :
    Inv n { f with m := if mk = true then advance { f.m with c := setPk f.m.c p x' } who else { f.m with c := setPk f.m.c p x' },
                   sec := put f.sec p (some (who, pos')), buf := put f.buf p b' } := by
  have hm : ∀ (m' : S), m' = (if mk = true then advance { f.m with c := setPk f.m.c p x' } who else { f.m with c := setPk f.m.c p x' }) →
      m'.c = setPk f.m.c p x' ∧ m'.phase = f.m.phase ∧ m'.pc = f.m.pc ∧
      ((m'.cb = f.m.cb ∧ m'.cbPost = f.m.cbPost) ∨
        ∃ q, who = .callback q ∧ mk = true ∧ m'.cb = f.m.cb.erase q ∧ m'.cbPost = q :: f.m.cbPost) := by
    intro m' e
    subst e
    cases mk with
    | false => exact ⟨rfl, rfl, rfl, .inl ⟨rfl, rfl⟩⟩
    | true =>
      cases who with
      | thread t => exact ⟨rfl, rfl, rfl, .inl ⟨rfl, rfl⟩⟩
      | waiter => exact ⟨rfl, rfl, rfl, .inl ⟨rfl, rfl⟩⟩
      | callback q => exact ⟨rfl, rfl, rfl, .inr ⟨q, rfl, rfl, rfl, rfl⟩⟩
  generalize hm' : (if mk = true then advance { f.m with c := setPk f.m.c p x' } who else { f.m with c := setPk f.m.c p x' }) = m'
  obtain ⟨h1, h2, h3, h4⟩ := hm m' hm'.symm
  have hq : ∀ r, r ≠ p → m'.c.pk r = f.m.c.pk r := by intro r hr; rw [h1]; exact setPk_other _ _ hr
  have hp : m'.c.pk p = x' := by rw [h1]; exact setPk_self _ _ _
  refine ⟨?_, ?_, ?_, ?_⟩
  · intro r who' posr hr
    have hr : put f.sec p (some (who, pos')) r = some (who', posr) := hr
    show PktOk (decide (f.taken = some r)) (put f.buf p b' r) posr (m'.c.pk r) ∧ Here n m' f.taken r posr who'
    by_cases e : r = p
    · subst e
      rw [put_self] at hr
      cases hr
      rw [put_self, hp]
      refine ⟨hok, ?_⟩
      have hh := (hi.sec r who pos hsec).2
      cases who with
      | thread t =>
        obtain ⟨g1, k, g2, g3⟩ := hh
        refine ⟨g1, k, by rw [h3]; exact g2, fun hp' => ?_⟩
        rw [(hpk hp').1]; exact g3 (hpk hp').2
      | waiter =>
        obtain ⟨k, g2, g3, g4⟩ := hh
        refine ⟨k, by rw [h2]; exact g2, fun hp' => ?_, g4⟩
        rw [(hpk hp').1]; exact g3 (hpk hp').2
      | callback q =>
        obtain ⟨g1, g2⟩ := hh
        subst g1
        refine ⟨rfl, .inr ?_⟩
        rcases hcb q rfl with ⟨e1, e2⟩ | ⟨e1, e2, e3⟩
        · refine ⟨?_, .inl e2⟩
          rcases h4 with ⟨_, g⟩ | ⟨q', g1, _, _, g⟩
          · rw [e1] at hm'
            rw [← hm']
            exact List.mem_cons_self
          · cases g1; rw [g]; exact List.mem_cons_self
        · refine ⟨?_, .inr e3⟩
          rcases g2 with ⟨_, g⟩ | ⟨g, _⟩
          · rw [g] at e2; cases e2
          · rcases h4 with ⟨_, g'⟩ | ⟨q', g1, _, _, g'⟩
            · rw [g']; exact g
            · rw [g']; exact List.mem_cons_of_mem _ g
    · rw [put_other _ _ e] at hr
      rw [put_other _ _ e, hq r e]
      obtain ⟨g1, g2⟩ := hi.sec r who' posr hr
      refine ⟨g1, ?_⟩
      cases who' with
      | thread t => obtain ⟨a1, k, a2⟩ := g2; exact ⟨a1, k, by rw [h3]; exact a2⟩
      | waiter => obtain ⟨k, a2⟩ := g2; exact ⟨k, by rw [h2]; exact a2⟩
      | callback s =>
        obtain ⟨rfl, a2⟩ := g2
        refine ⟨rfl, ?_⟩
        rcases h4 with ⟨c1, c2⟩ | ⟨q', c1, _, c2, c3⟩
        · rw [c1, c2]; exact a2
        · have hqp : q' = p := by
            have := (hi.sec p who pos hsec).2
            rw [c1] at this
            exact this.1
          subst hqp
          rw [c2, c3]
          rcases a2 with ⟨a, b⟩ | ⟨a, b⟩
          · exact .inl ⟨(List.mem_erase_of_ne e).mpr a, b⟩
          · exact .inr ⟨List.mem_cons_of_mem _ a, b⟩
  · intro r hr
    have hr : f.taken = some r := hr
    show (∃ w b, m'.phase = .feed w (r :: b)) ∧ ∀ s, m'.c.pk r = .socket s → s.inUse = false ∧ Taken s.op (put f.sec p (some (who, pos')) r)
    refine ⟨by rw [h2]; exact (hi.tak r hr).1, fun s hs => ?_⟩
    by_cases e : r = p
    · subst e
      rw [put_self]
      rw [hp] at hs
      exact htak hr s hs
    · rw [put_other _ _ e]
      rw [hq r e] at hs
      exact (hi.tak r hr).2 s hs
  · intro r s hs
    have hs : m'.c.pk r = .socket s := hs
    show BufOk (f.written r) (put f.buf p b' r) s.op
    by_cases e : r = p
    · subst e
      rw [put_self]
      rw [hp] at hs
      exact hbuf s hs
    · rw [put_other _ _ e]
      rw [hq r e] at hs
      exact hi.buf r s hs
  · intro r hs
    have hs : ∀ s, m'.c.pk r ≠ .socket s := hs
    show f.written r = none
    by_cases e : r = p
    · subst e
      rw [hp] at hs
      exact hi.wr r (hty hs)
    · rw [hq r e] at hs
      exact hi.wr r hs

theorem taken_feed {n f p pos} (hi : Inv n f) (ht : f.taken = some p) (hs : f.sec p = some (.waiter, pos)) (hp : pos.post = false) :
    preKind pos = .feed := by
  obtain ⟨k, h1, h2, _⟩ := (hi.sec p _ pos hs).2
  obtain ⟨w, b, h3⟩ := (hi.tak p ht).1
  rw [h3] at h1
  cases h1
  exact (h2 hp).symm

theorem other_feed {n f p pos who} (hi : Inv n f) (hs : f.sec p = some (who, pos)) (hw : who ≠ .waiter) (hp : pos.post = false) :
    preKind pos ≠ .feed := by
  have h := (hi.sec p _ pos hs).2
  cases who with
  | waiter => exact absurd rfl hw
  | thread t =>
    obtain ⟨_, k, h1, h2⟩ := h
    rw [← h2 hp]
    cases hpc : f.m.pc t with
    | upd call u => rw [hpc] at h1; cases u <;> cases h1 <;> nofun
    | set call q => rw [hpc] at h1; cases call <;> cases h1; nofun
    | del call q => rw [hpc] at h1; cases h1; nofun
    | _ => rw [hpc] at h1; cases h1
  | callback q =>
    obtain ⟨_, ⟨_, rfl⟩ | ⟨_, rfl | ⟨out, rfl⟩⟩⟩ := h <;> nofun

theorem taken_ite {op pos} (h : isDone op = true) (hp : pos.post = false) {who} : Taken op (some (who, pos)) := by
  cases who with
  | waiter => show if pos.post = true then _ else _; rw [hp]; exact h
  | thread t => exact h
  | callback t => exact h

theorem taken_post {op pos} (h : op = .none) (hp : pos.post = true) : Taken op (some (.waiter, pos)) := by
  show if pos.post = true then _ else _; rw [hp]; exact h

theorem taken_who {op pos who} (h : isDone op = true) (hw : who ≠ .waiter) : Taken op (some (who, pos)) := by
  cases who with
  | waiter => exact absurd rfl hw
  | thread t => exact h
  | callback t => exact h

theorem taken_done {op pos who} (h : Taken op (some (who, pos))) (hw : who ≠ .waiter) : isDone op = true := by
  cases who with
  | waiter => exact absurd rfl hw
  | thread t => exact h
  | callback t => exact h

theorem entry_preKind {tk b pos x who n m taken p} (hok : PktOk tk b pos x) (hh : Here n m taken p pos who) (hp : pos.post = false) :
    ∀ sec, (entry (preKind pos) (absPkt tk sec x)).isSome = true := by
  intro sec
  cases x with
  | socket s =>
    have : ∃ y, absPkt tk sec (.socket s) = .socket y := by
      cases sec with
      | none => exact ⟨_, rfl⟩
      | some z => exact ⟨_, rfl⟩
    obtain ⟨y, hy⟩ := this
    rw [hy]
    cases pos <;> first | (cases hp; done) | exact hok.elim | rfl | skip
    case pending d => cases d <;> rfl
    case cancelIo d => cases d <;> rfl
  | waitable w =>
    have : ∃ y, absPkt tk sec (.waitable w) = .waitable y := by
      cases sec with
      | none => exact ⟨_, rfl⟩
      | some z => exact ⟨_, rfl⟩
    obtain ⟨y, hy⟩ := this
    rw [hy]
    cases pos <;> first | (cases hp; done) | exact hok.elim | rfl
  | _ => exact hok.elim

theorem post_false {pos : Pos} (h : ¬ pos.post = true) : pos.post = false := Bool.eq_false_iff.mpr h

theorem sim_access {n P f tr p fault f' o} (hi : Inv n f) (hr : Reach n P (abs f) tr) (h : fstep n f (.access p fault) = some (f', o)) :
    Sim n f (.access p fault) f' o ∧ Inv n f' := by
  unfold fstep at h
  dsimp only at h
  cases hsec : f.sec p with
  | none => rw [hsec] at h; cases h
  | some wp =>
    obtain ⟨who, pos⟩ := wp
    rw [hsec] at h
    dsimp only at h
    rw [Option.map_eq_some_iff] at h
    obtain ⟨⟨pos0, x0, b0, mk0⟩, hst, h⟩ := h
    obtain ⟨hok, hh⟩ := hi.sec p who pos hsec
    have hlab : label f (.access p fault) = mk0.map fun _ => whoAct who (callFault fault pos) := by
      unfold label
      dsimp only
      rw [hsec]
      dsimp only
      rw [hst]
      cases mk0 <;> rfl
    dsimp only at h
    cases hx : f.m.c.pk p with
    | free => rw [hx] at hok; exact hok.elim
    | custom ev => rw [hx] at hok; exact hok.elim
    | wakeup => rw [hx] at hok; exact hok.elim
    | socket s =>
      rw [hx] at hst hok
      have hst : (stepSock fault s (f.buf p) pos).map (fun r => (r.1, Pkt.socket r.2.1, r.2.2.1, r.2.2.2)) = some (pos0, x0, b0, mk0) := hst
      rw [Option.map_eq_some_iff] at hst
      obtain ⟨⟨pos', s', b', mk⟩, hstep, e⟩ := hst
      cases e
      have hok : SockOk (decide (f.taken = some p)) s (f.buf p) pos := hok
      have habs : absPkt (decide (f.taken = some p)) (f.sec p) (f.m.c.pk p) = .socket (absS pos (baseS (decide (f.taken = some p)) s)) := by
        rw [hsec, hx]; rfl
      have hwcb : ∀ q, who = .callback q → False := by
        intro q hq
        subst hq
        obtain ⟨_, ⟨_, rfl⟩ | ⟨_, rfl | ⟨out, rfl⟩⟩⟩ := hh
        · exact hok.elim
        · exact hok.elim
        · cases hstep
      by_cases hp : pos.post = true
      · obtain ⟨rfl, rfl, hp', hfin, hop, hin, hsk⟩ := sock_post hp hstep
        cases h
        have hsome : (finishS pos s).isSome = true := by rw [finishS_post hok, hp]
        constructor
        · left
          refine ⟨by rw [hlab]; rfl, rfl, ?_⟩
          refine abs_internal ?_ ?_
          · rw [habs]
            show Pkt.socket (absS pos' (baseS _ s')) = _
            unfold absS
            have hfb := finishS_baseEq (tk := decide (f.taken = some p)) hfin hsome hop
            rw [hfb]
            obtain ⟨r, hr'⟩ := Option.isSome_iff_exists.mp ((finishS_post hok (baseS (decide (f.taken = some p)) s)).trans hp)
            rw [hr']
          · intro w
            rw [hsec, hx]
            show (if who = w then _ else _) = if who = w then _ else _
            rw [hfin]
        · refine inv_access (mk := false) hi hsec (hsk _) (fun hc => by rw [hp'] at hc; cases hc) (fun q hq => (hwcb q hq).elim) ?_ ?_ ?_
          · intro ht s'' hs''
            cases hs''
            obtain ⟨h1, h2⟩ := (hi.tak p ht).2 s hx
            refine ⟨by rw [hin]; exact h1, ?_⟩
            rw [hsec] at h2
            rw [hop]
            by_cases hw : who = .waiter
            · subst hw
              refine taken_post ?_ hp'
              have h2 : if pos.post = true then s.op = .none else isDone s.op = true := h2
              rw [if_pos hp] at h2; exact h2
            · exact taken_who (taken_done h2 hw) hw
          · intro s'' hs''
            cases hs''
            rw [hop]
            exact hi.buf p s hx
          · intro hc; exact absurd rfl (hc s')
      · have hp := post_false hp
        have hnone : ∀ y, finishS pos y = none := by
          intro y
          have := finishS_post hok y
          rw [hp] at this
          rwa [Option.isSome_eq_false_iff, Option.isNone_iff_eq_none] at this
        have hop : OpOk (.socket (undo pos (baseS (decide (f.taken = some p)) s))) := by
          have := reach_opOk hr p
          rw [show (abs f).c.pk p = absPkt (decide (f.taken = some p)) (f.sec p) (f.m.c.pk p) from rfl, habs, absS_undo (hnone _)] at this
          exact this
        obtain ⟨hps, hsk, hbk⟩ := sock_pre hp hok (hi.buf p s hx) hop hstep
        obtain ⟨hsite, hthr⟩ := here_site hh hp
        have htak : f.taken = some p → ∀ y, Pkt.socket s' = .socket y → y.inUse = false ∧ Taken y.op (some (who, pos')) := by
          intro ht y hy
          cases hy
          obtain ⟨h1, h2⟩ := (hi.tak p ht).2 s hx
          rw [hsec] at h2
          by_cases hw : who = .waiter
          · subst hw
            have hk := taken_feed hi ht hsec hp
            rcases hps with ⟨rfl, hp', hk', _⟩ | ⟨mark, out, s'', rfl, hp', _, _⟩
            · have := feed_feeding hsk hp' (hk'.trans hk)
              exact ⟨this.2.2, taken_ite this.2.1 hp'⟩
            · have := sock_feed hp hk hstep
              exact ⟨by rw [this.2]; exact h1, taken_post this.1 hp'⟩
          · have := sock_done hp (other_feed hi hsec hw hp) hok hop (taken_done h2 hw) hstep
            exact ⟨by rw [this.2]; exact h1, taken_who this.1 hw⟩
        have hbuf : ∀ y, Pkt.socket s' = .socket y → BufOk (f.written p) b' y.op := by intro y hy; cases hy; exact hbk
        have hpre : ∀ w, outOf w (f.sec p) (f.m.c.pk p) = none := by
          intro w
          rw [hsec, hx]
          exact outOf_pre (x := .socket s) hok hp
        rcases hps with ⟨rfl, hp', hk', hun⟩ | ⟨mark, out, s'', rfl, hp', hfin, hat⟩
        · cases h
          constructor
          · left
            refine ⟨by rw [hlab]; rfl, rfl, ?_⟩
            refine abs_internal ?_ ?_
            · rw [habs]
              show Pkt.socket (absS pos' (baseS _ s')) = _
              rw [absS_undo (hnone _), absS_undo, hun]
              have := finishS_post hsk (baseS (decide (f.taken = some p)) s')
              rw [hp'] at this
              rwa [Option.isSome_eq_false_iff, Option.isNone_iff_eq_none] at this
            · intro w
              rw [hpre w]
              exact outOf_pre (x := .socket s') hsk hp'
          · exact inv_access (mk := false) hi hsec hsk (fun _ => ⟨hk', hp⟩) (fun q hq => (hwcb q hq).elim) htak hbuf
              (fun hc => absurd rfl (hc s'))
        · cases h
          constructor
          · right
            refine ⟨whoAct who (callFault fault pos), _, by rw [hlab]; rfl, rfl, ?_⟩
            have := sim_commit (n := n) (f := f) (p := p) (who := who) (x' := .socket s') (pos' := pos') (b' := put f.buf p b')
              (fault := callFault fault pos) (out := out) (X := .socket s'') (mark := mark) hsite hthr hpre
              (by show Pkt.socket (absS pos' (baseS _ s')) = _; rw [absS_finish hfin])
              (by
                show (if who = who then (finishS pos' s').map (·.1) else none) = _
                rw [if_pos rfl, ← finishS_base pos' (decide (f.taken = some p)) s', hfin]; rfl)
              (by rw [hx]; exact entry_preKind (tk := decide (f.taken = some p)) (b := f.buf p) (x := .socket s) hok hh hp _)
              (by
                intro hk y hy
                rw [habs] at hy
                cases hy
                rw [absS_keep, baseS_op]
                exact (feed_feeding hok hp hk).2.1)
              (by rw [habs, absS_undo (hnone _)]; exact hat)
            rw [show whoObs f.m who p mark = mark.obs f.m who p from by
              unfold whoObs; rw [lockObs_kind hsite (preKind_set pos)]] at this
            exact this
          · exact inv_access (mk := true) hi hsec hsk (fun hc => by rw [hp'] at hc; cases hc) (fun q hq => (hwcb q hq).elim) htak hbuf
              (fun hc => absurd rfl (hc s'))
    | waitable w =>
      rw [hx] at hst hok
      have hst : (stepWtb fault w pos).map (fun r => (r.1, Pkt.waitable r.2.1, f.buf p, r.2.2)) = some (pos0, x0, b0, mk0) := hst
      rw [Option.map_eq_some_iff] at hst
      obtain ⟨⟨pos', w', mk⟩, hstep, e⟩ := hst
      cases e
      have hok : WtbOk w pos := hok
      have habs : absPkt (decide (f.taken = some p)) (f.sec p) (f.m.c.pk p) = .waitable (absW pos w) := by
        rw [hsec, hx]; rfl
      have htak : f.taken = some p → ∀ y, Pkt.waitable w' = .socket y → y.inUse = false ∧ Taken y.op (some (who, pos')) := by
        intro _ y hy; cases hy
      have hbuf : ∀ y, Pkt.waitable w' = .socket y → BufOk (f.written p) (f.buf p) y.op := by intro y hy; cases hy
      have hty : (∀ y, Pkt.waitable w' ≠ .socket y) → ∀ y, f.m.c.pk p ≠ .socket y := by intro _ y hy; rw [hx] at hy; cases hy
      by_cases hp : pos.post = true
      · obtain ⟨rfl, hp', hfin, hreg, hsk⟩ := wtb_post hp hstep
        cases h
        constructor
        · left
          refine ⟨by rw [hlab]; rfl, rfl, ?_⟩
          refine abs_internal ?_ ?_
          · rw [habs]
            show Pkt.waitable (absW pos' w') = _
            unfold absW
            rw [hfin]
            obtain ⟨r, hr'⟩ := Option.isSome_iff_exists.mp ((finishW_post hok w).trans hp)
            rw [hr']
          · intro v
            rw [hsec, hx]
            show (if who = v then _ else _) = if who = v then _ else _
            rw [hfin]
        · refine inv_access (mk := false) hi hsec hsk (fun hc => by rw [hp'] at hc; cases hc) (fun q hq => ?_) htak hbuf hty
          subst hq
          obtain ⟨_, ⟨_, rfl⟩ | ⟨_, rfl | ⟨out, rfl⟩⟩⟩ := hh
          · cases hp
          · cases hstep; exact .inr ⟨rfl, rfl, _, rfl⟩
          · cases hstep
      · have hp := post_false hp
        have hnone : ∀ y, finishW pos y = none := by
          intro y
          have := finishW_post hok y
          rw [hp] at this
          rwa [Option.isSome_eq_false_iff, Option.isNone_iff_eq_none] at this
        have hreg : w.registered = true → w.status = .waiting := by
          have := reach_reg hr p
          rw [show (abs f).c.pk p = absPkt (decide (f.taken = some p)) (f.sec p) (f.m.c.pk p) from rfl, habs, absW_undo (hnone _)] at this
          exact this w rfl
        obtain ⟨hps, hsk⟩ := wtb_pre hp hok hreg hstep
        obtain ⟨hsite, hthr⟩ := here_site hh hp
        have hpre : ∀ v, outOf v (f.sec p) (f.m.c.pk p) = none := by
          intro v
          rw [hsec, hx]
          exact outOf_pre (tk := decide (f.taken = some p)) (b := f.buf p) (x := .waitable w) hok hp
        rcases hps with ⟨rfl, hp', hk', rfl⟩ | ⟨mark, out, w'', rfl, hp', hfin, hat⟩
        · cases h
          constructor
          · left
            refine ⟨by rw [hlab]; rfl, rfl, ?_⟩
            refine abs_internal ?_ ?_
            · rw [habs]
              show Pkt.waitable (absW pos' _) = _
              rw [absW_undo (hnone _), absW_undo]
              have := finishW_post hsk w'
              rw [hp'] at this
              rwa [Option.isSome_eq_false_iff, Option.isNone_iff_eq_none] at this
            · intro v
              rw [hpre v]
              exact outOf_pre (tk := decide (f.taken = some p)) (b := f.buf p) (x := .waitable w') hsk hp'
          · refine inv_access (mk := false) hi hsec hsk (fun _ => ⟨hk', hp⟩) (fun q hq => ?_) htak hbuf hty
            subst hq
            obtain ⟨_, ⟨_, rfl⟩ | ⟨_, rfl | ⟨out, rfl⟩⟩⟩ := hh
            · have := congrArg (fun r => r.map (fun x => x.2.2)) hstep
              cases this
            · cases hp
            · cases hp
        · cases h
          constructor
          · right
            refine ⟨whoAct who (callFault fault pos), _, by rw [hlab]; rfl, rfl, ?_⟩
            have := sim_commit (n := n) (f := f) (p := p) (who := who) (x' := .waitable w') (pos' := pos') (b' := put f.buf p (f.buf p))
              (fault := callFault fault pos) (out := out) (X := .waitable w'') (mark := mark) hsite hthr hpre
              (by show Pkt.waitable (absW pos' w') = _; rw [absW_finish hfin])
              (outOf_wtbOut hfin)
              (by rw [hx]; exact entry_preKind (tk := decide (f.taken = some p)) (b := f.buf p) (x := .waitable w) hok hh hp _)
              (by
                intro hk y hy
                rw [habs] at hy
                cases hy)
              (by rw [habs, absW_undo (hnone _)]; exact hat)
            rw [show whoObs f.m who p mark = mark.obs f.m who p from by
              unfold whoObs; rw [lockObs_kind hsite (preKind_set pos)]] at this
            exact this
          · refine inv_access (mk := true) hi hsec hsk (fun hc => by rw [hp'] at hc; cases hc) (fun q hq => ?_) htak hbuf hty
            subst hq
            obtain ⟨_, ⟨_, rfl⟩ | ⟨_, rfl | ⟨out, rfl⟩⟩⟩ := hh
            · cases hstep; exact .inl ⟨rfl, rfl⟩
            · cases hp
            · cases hp

/- Releasing a mutex. -/

theorem own_thread {n f t p q pos pos'} (hi : Inv n f) (h : f.sec p = some (.thread t, pos)) (h' : f.sec q = some (.thread t, pos')) : q = p := by
  obtain ⟨_, k, h1, _⟩ := (hi.sec p _ _ h).2
  obtain ⟨_, k', h2, _⟩ := (hi.sec q _ _ h').2
  rw [h1] at h2; cases h2; rfl

theorem own_waiter {n f p q pos pos'} (hi : Inv n f) (h : f.sec p = some (.waiter, pos)) (h' : f.sec q = some (.waiter, pos')) : q = p := by
  obtain ⟨k, h1, _⟩ := (hi.sec p _ _ h).2
  obtain ⟨k', h2, _⟩ := (hi.sec q _ _ h').2
  rw [h1] at h2; cases h2; rfl

/-- The thread in `wait` holds no other mutex while it processes an entry. -/
theorem taken_own {n f p q pos} (hi : Inv n f) (h : f.sec p = some (.waiter, pos)) (ht : f.taken = some q) : q = p := by
  obtain ⟨k, h1, _⟩ := (hi.sec p _ _ h).2
  obtain ⟨w, b, h2⟩ := (hi.tak q ht).1
  rw [h2] at h1; cases h1; rfl

theorem sim_unlock {n f p f' o} (hi : Inv n f) (h : fstep n f (.unlock p) = some (f', o)) : Sim n f (.unlock p) f' o ∧ Inv n f' := by
  unfold fstep at h
  dsimp only at h
  split at h
  rotate_left
  · cases h
  rename_i who out hsec
  cases h
  obtain ⟨hok, hh⟩ := hi.sec p who _ hsec
  have htk : ∀ q, q ≠ p → ((if who = .waiter then none else f.taken) = some q ↔ f.taken = some q) := by
    intro q hq
    by_cases hw : who = .waiter
    · rw [if_pos hw]
      subst hw
      exact ⟨nofun, fun ht => absurd (taken_own hi hsec ht) hq⟩
    · rw [if_neg hw]
  have hpk : absPk (if who = .waiter then none else f.taken) (put f.sec p none) f.m.c.pk = absPk f.taken f.sec f.m.c.pk := by
    funext q
    show absPkt _ (put f.sec p none q) _ = absPkt _ _ _
    by_cases e : q = p
    · subst e
      rw [put_self, hsec]
      cases hx : f.m.c.pk q with
      | socket s =>
        show Pkt.socket (baseS _ s) = Pkt.socket (baseS _ s)
        by_cases hw : who = .waiter
        · subst hw
          rw [if_pos rfl]
          by_cases ht : f.taken = some q
          · have := ((hi.tak q ht).2 s hx).2
            rw [hsec] at this
            rw [baseS_none this, baseS_none this]
          · rw [decide_eq_false ht]; rfl
        · rw [if_neg hw]
      | _ => rfl
    · rw [put_other _ _ e, decide_eq_decide.mpr (htk q e)]
  have hout : ∀ w, w ≠ who → ∀ q, outOf w (put f.sec p none q) (f.m.c.pk q) = outOf w (f.sec q) (f.m.c.pk q) := by
    intro w hw q
    by_cases e : q = p
    · subst e; rw [put_self, hsec, outOf_other hw]; exact outOf_ne nofun
    · rw [put_other _ _ e]
  have hme : outOf who (f.sec p) (f.m.c.pk p) = some out := by
    rw [hsec]
    cases hx : f.m.c.pk p with
    | socket s => exact outOf_sockOut rfl
    | waitable w => exact outOf_wtbOut rfl
    | _ => rw [hx] at hok; exact hok.elim
  have hrm : (resume f.m who out).c = f.m.c ∧ (resume f.m who out).cb = f.m.cb ∧ (resume f.m who out).cbPost = f.m.cbPost ∧
      (who ≠ .waiter → (resume f.m who out).phase = f.m.phase) ∧
      (∀ t, who ≠ .thread t → (resume f.m who out).pc t = f.m.pc t) := by
    cases who with
    | thread t =>
      refine ⟨rfl, rfl, rfl, fun _ => rfl, fun u hu => ?_⟩
      exact upd_other _ _ (fun e => hu (by rw [e]))
    | waiter => exact ⟨rfl, rfl, rfl, fun h => absurd rfl h, fun _ _ => rfl⟩
    | callback q => exact ⟨rfl, rfl, rfl, fun _ => rfl, fun _ _ => rfl⟩
  constructor
  · left
    refine ⟨rfl, rfl, ?_⟩
    cases who with
    | thread t =>
      obtain ⟨_, k, hs, _⟩ := hh
      unfold abs resume
      dsimp only
      rw [hpk, absPhase_congr (hout .waiter nofun)]
      congr 1
      funext u
      by_cases e : u = t
      · subst e
        rw [upd_self, absPc_out hs hme]
        refine absPc_free fun k' q _ => outOf_ne fun pos' hq => ?_
        by_cases e : q = p
        · subst e; rw [put_self] at hq; cases hq
        · rw [put_other _ _ e] at hq; exact e (own_thread hi hsec hq)
      · rw [upd_other _ _ e]
        exact absPc_congr (hout (.thread u) (by intro h; cases h; exact e rfl))
    | waiter =>
      obtain ⟨k, hs, _⟩ := hh
      unfold abs resume
      dsimp only
      rw [hpk, absPhase_out hs hme]
      congr 1
      · funext u
        exact absPc_congr (hout (.thread u) nofun)
      · refine absPhase_free fun k' q _ => outOf_ne fun pos' hq => ?_
        by_cases e : q = p
        · subst e; rw [put_self] at hq; cases hq
        · rw [put_other _ _ e] at hq; exact e (own_waiter hi hsec hq)
    | callback q =>
      unfold abs resume
      dsimp only
      rw [hpk, absPhase_congr (hout .waiter nofun)]
      congr 1
      funext u
      exact absPc_congr (hout (.thread u) nofun)
  · obtain ⟨g1, g2, g3, g4, g5⟩ := hrm
    refine ⟨?_, ?_, ?_, ?_⟩
    · intro r who' pos' hr
      replace hr : put f.sec p none r = some (who', pos') := hr
      by_cases e : r = p
      · subst e; rw [put_self] at hr; cases hr
      rw [put_other _ _ e] at hr
      obtain ⟨a1, a2⟩ := hi.sec r who' pos' hr
      show PktOk (decide ((if who = .waiter then none else f.taken) = some r)) (f.buf r) pos' ((resume f.m who out).c.pk r) ∧
        Here n (resume f.m who out) (if who = .waiter then none else f.taken) r pos' who'
      rw [decide_eq_decide.mpr (htk r e), g1]
      refine ⟨a1, ?_⟩
      cases who' with
      | thread t =>
        obtain ⟨b1, k, b2⟩ := a2
        refine ⟨b1, k, ?_⟩
        rw [g5 t (by rintro rfl; exact e (own_thread hi hsec hr))]
        exact b2
      | waiter =>
        obtain ⟨k, b1, b2, b3⟩ := a2
        have hw : who ≠ .waiter := by rintro rfl; exact e (own_waiter hi hsec hr)
        refine ⟨k, by rw [g4 hw]; exact b1, b2, ?_⟩
        rw [if_neg hw]; exact b3
      | callback q =>
        obtain ⟨b1, b2⟩ := a2
        refine ⟨b1, ?_⟩
        rw [g2, g3]; exact b2
    · intro r hr
      have hr : (if who = .waiter then none else f.taken) = some r := hr
      have hw : who ≠ .waiter := by rintro rfl; rw [if_pos rfl] at hr; cases hr
      rw [if_neg hw] at hr
      show (∃ w b, (resume f.m who out).phase = .feed w (r :: b)) ∧
        ∀ s, (resume f.m who out).c.pk r = .socket s → s.inUse = false ∧ Taken s.op (put f.sec p none r)
      rw [g4 hw, g1]
      refine ⟨(hi.tak r hr).1, fun s hs => ?_⟩
      obtain ⟨b1, b2⟩ := (hi.tak r hr).2 s hs
      refine ⟨b1, ?_⟩
      by_cases e : r = p
      · subst e
        rw [put_self]
        rw [hsec] at b2
        exact taken_done b2 hw
      · rw [put_other _ _ e]; exact b2
    · intro r s hs
      have hs : (resume f.m who out).c.pk r = .socket s := hs
      rw [g1] at hs
      exact hi.buf r s hs
    · intro r hs
      have hs : ∀ s, (resume f.m who out).c.pk r ≠ .socket s := hs
      rw [g1] at hs
      exact hi.wr r hs

/- The kernel writes. -/

theorem sockOk_buf {tk s b b' pos} (h : SockOk tk s b pos) (h1 : s.op ≠ .none) (h2 : isDone s.op = false) : SockOk tk s b' pos := by
  cases pos <;> first | exact h | skip
  case ioctl mask => exact absurd h.2.2.2.2.1 h1
  case pending d => cases d <;> exact h
  case cancelIo d => cases d <;> exact h
  case feedInfo key old => have := h.1.2.1; rw [h2] at this; cases this

theorem matches_write (b : Buf) (r : PollRes) : Matches (b.write r) r := by
  cases r with
  | cancelled => rfl
  | error => rfl
  | ok n e => exact ⟨rfl, rfl, rfl⟩

theorem sim_write {n f p r f' o} (hi : Inv n f) (h : fstep n f (.write p r) = some (f', o)) : Sim n f (.write p r) f' o ∧ Inv n f' := by
  unfold fstep at h
  dsimp only at h
  split at h
  rotate_left
  · cases h
  rename_i s hs
  split at h
  rotate_left
  · cases h
  rename_i mask cancelling hop
  split at h
  rotate_left
  · cases h
  rename_i hc
  cases h
  refine ⟨.inl ⟨rfl, rfl, rfl⟩, ?_, hi.tak, ?_, ?_⟩
  · intro q who pos hq
    obtain ⟨h1, h2⟩ := hi.sec q who pos hq
    refine ⟨?_, h2⟩
    show PktOk _ (put f.buf p ((f.buf p).write r) q) pos (f.m.c.pk q)
    by_cases e : q = p
    · subst e
      rw [put_self]
      rw [hs] at h1 ⊢
      exact sockOk_buf (b := f.buf q) h1 (by rw [hop]; nofun) (by rw [hop]; rfl)
    · rw [put_other _ _ e]; exact h1
  · intro q s' hs'
    show BufOk (put f.written p (some r) q) (put f.buf p ((f.buf p).write r) q) s'.op
    by_cases e : q = p
    · subst e
      rw [put_self, put_self]
      have hs' : f.m.c.pk q = .socket s' := hs'
      rw [hs] at hs'; cases hs'
      rw [hop]
      exact ⟨hc.2, matches_write _ _⟩
    · rw [put_other _ _ e, put_other _ _ e]; exact hi.buf q s' hs'
  · intro q hq
    show put f.written p (some r) q = none
    by_cases e : q = p
    · subst e; exact absurd hs (hq s)
    · rw [put_other _ _ e]; exact hi.wr q hq

/- The completion entry is converted. -/

theorem absS_keepUse {tk s b pos} (h : SockOk tk s b pos) (h1 : s.op ≠ .none) (s' : Sock) : (absS pos s').inUse = s'.inUse := by
  cases pos <;> first | rfl | skip
  case info mask => exact absurd h.2.2.2.2 h1
  case iosb mask => exact absurd h.2.2.2.2 h1
  case ioctl mask => exact absurd h.2.2.2.2.1 h1
  case pending d => cases d <;> rfl
  case cancelIo d => cases d <;> rfl
  case feedMode ev => unfold absS finishS; dsimp only; split <;> rfl

theorem sockOk_take {s b pos} (h : SockOk false s b pos) (h1 : s.op ≠ .none) : SockOk true { s with inUse := false } b pos := by
  cases pos <;> first | exact h | skip
  case info mask => exact absurd h.2.2.2.2 h1
  case iosb mask => exact absurd h.2.2.2.2 h1
  case ioctl mask => exact absurd h.2.2.2.2.1 h1
  case key => exact absurd h.1 nofun
  case pending d => cases d <;> exact h
  case cancelIo d => cases d <;> exact h
  all_goals exact absurd h.1.1 nofun

/-- The thread in `wait` is in no section while it has an entry to convert. -/
theorem take_free {n f w p b} (hi : Inv n f) (hph : f.m.phase = .feed w (p :: b)) (ht : f.taken = none) : ∀ q pos, f.sec q ≠ some (.waiter, pos) := by
  intro q pos hq
  obtain ⟨k, h1, _, h3⟩ := (hi.sec q _ _ hq).2
  rw [hph] at h1
  cases h1
  have := h3 rfl
  rw [ht] at this
  cases this

theorem sim_take {n P f tr f' o} (hi : Inv n f) (hr : Reach n P (abs f) tr) (h : fstep n f .take = some (f', o)) : Sim n f .take f' o ∧ Inv n f' := by
  unfold fstep at h
  dsimp only at h
  split at h
  rotate_left
  · cases h
  rename_i w p b hph
  split at h
  rotate_left
  · cases h
  rename_i ht
  cases h
  have hfree := take_free hi hph ht
  have hphase : (abs f).phase = f.m.phase := absPhase_free fun _ q _ => outOf_ne fun pos => hfree q pos
  -- the operation is complete
  have hdone : ∀ s, f.m.c.pk p = .socket s → isDone s.op = true ∧ s.inUse = true := by
    intro s hs
    have hab : ∃ y, (abs f).c.pk p = .socket y ∧ y.op = s.op ∧ (s.op ≠ .none → y.inUse = s.inUse) := by
      show ∃ y, absPkt (decide (f.taken = some p)) (f.sec p) (f.m.c.pk p) = _ ∧ _
      rw [ht, hs]
      cases hsec : f.sec p with
      | none => exact ⟨_, rfl, rfl, fun _ => rfl⟩
      | some wp =>
        obtain ⟨who, pos⟩ := wp
        refine ⟨_, rfl, absS_keep _ _, fun hne => ?_⟩
        have := (hi.sec p who pos hsec).1
        rw [hs] at this
        exact absS_keepUse (tk := decide (f.taken = some p)) (b := f.buf p) this hne _
    obtain ⟨y, hy, ho, hu⟩ := hab
    have hc := reach_ops hr hy
    have hd : isDone y.op = true := by
      have hm : p ∈ (abs f).phase.batch ++ (abs f).c.port := by
        rw [hphase, hph]; exact List.mem_append_left _ List.mem_cons_self
      have := List.count_pos_iff.mpr hm
      rw [hc] at this
      cases hop : y.op with
      | done r => rfl
      | none => rw [hop] at this; exact absurd this (Nat.lt_irrefl 0)
      | inFlight m c => rw [hop] at this; exact absurd this (Nat.lt_irrefl 0)
    rw [ho] at hd
    have hne : s.op ≠ .none := by intro e; rw [e] at hd; cases hd
    refine ⟨hd, ?_⟩
    rw [← hu hne]
    have := reach_opOk hr p
    rw [hy] at this
    exact this.1 (by rw [ho]; exact hne)
  have hother : ∀ q, q ≠ p → (setPk f.m.c p (clearInUse (f.m.c.pk p))).pk q = f.m.c.pk q := fun q hq => setPk_other _ _ hq
  have hself : (setPk f.m.c p (clearInUse (f.m.c.pk p))).pk p = clearInUse (f.m.c.pk p) := setPk_self _ _ _
  have hout : ∀ w q, outOf w (f.sec q) ((setPk f.m.c p (clearInUse (f.m.c.pk p))).pk q) = outOf w (f.sec q) (f.m.c.pk q) := by
    intro w q
    by_cases e : q = p
    · subst e
      rw [hself]
      cases hx : f.m.c.pk q with
      | socket s =>
        cases hsec : f.sec q with
        | none => rfl
        | some wp =>
          obtain ⟨who, pos⟩ := wp
          show (if who = w then _ else _) = if who = w then _ else _
          have := finishS_out pos s false s.op
          rw [← this]
      | _ => rfl
    · rw [hother q e]
  constructor
  · left
    refine ⟨rfl, rfl, ?_⟩
    unfold abs
    dsimp only
    rw [absPhase_congr (hout .waiter), show (fun t => absPc t f.sec (setPk f.m.c p (clearInUse (f.m.c.pk p))).pk (f.m.pc t)) =
      fun t => absPc t f.sec f.m.c.pk (f.m.pc t) from funext fun t => absPc_congr (hout (.thread t))]
    congr 2
    funext q
    unfold absPk
    by_cases e : q = p
    · subst e
      rw [hself, ht, decide_eq_true rfl]
      cases hx : f.m.c.pk q with
      | socket s =>
        obtain ⟨h1, h2⟩ := hdone s hx
        have hb : baseS true { s with inUse := false } = s := by
          unfold baseS
          cases s; cases h2
          exact if_pos h1
        cases hsec : f.sec q with
        | none => exact congrArg Pkt.socket hb
        | some wp => exact congrArg (fun x => Pkt.socket (absS wp.2 x)) hb
      | _ => cases f.sec q <;> rfl
    · rw [hother q e, ht, decide_eq_false (by intro h; cases h; exact e rfl)]; rfl
  · refine ⟨?_, ?_, ?_, ?_⟩
    · intro q who pos hq
      have hq : f.sec q = some (who, pos) := hq
      obtain ⟨h1, h2⟩ := hi.sec q who pos hq
      refine ⟨?_, ?_⟩
      · show PktOk (decide (some p = some q)) (f.buf q) pos ((setPk f.m.c p (clearInUse (f.m.c.pk p))).pk q)
        rw [ht] at h1
        by_cases e : q = p
        · subst e
          rw [hself, decide_eq_true rfl]
          cases hx : f.m.c.pk q with
          | socket s =>
            rw [hx] at h1
            have hne : s.op ≠ .none := by intro e; have := (hdone s hx).1; rw [e] at this; cases this
            exact sockOk_take h1 hne
          | waitable w => rw [hx] at h1; exact h1
          | _ => rw [hx] at h1; exact h1.elim
        · rw [hother q e, decide_eq_false (by intro h; cases h; exact e rfl)]; exact h1
      · cases who with
        | thread t => exact h2
        | waiter => exact absurd hq (hfree q pos)
        | callback r => exact h2
    · intro q hq
      have hq : some p = some q := hq
      cases hq
      refine ⟨⟨w, b, hph⟩, fun s hs => ?_⟩
      have hs : (setPk f.m.c p (clearInUse (f.m.c.pk p))).pk p = .socket s := hs
      rw [hself] at hs
      cases hx : f.m.c.pk p with
      | socket s' =>
        rw [hx] at hs; cases hs
        refine ⟨rfl, ?_⟩
        show Taken s'.op (f.sec p)
        have := (hdone s' hx).1
        cases hsec : f.sec p with
        | none => exact this
        | some wp => exact taken_who this (by intro e; exact hfree p wp.2 (by rw [hsec, ← e]))
      | _ => rw [hx] at hs; cases hs
    · intro q s hs
      have hs : (setPk f.m.c p (clearInUse (f.m.c.pk p))).pk q = .socket s := hs
      by_cases e : q = p
      · subst e
        rw [hself] at hs
        cases hx : f.m.c.pk q with
        | socket s' => rw [hx] at hs; cases hs; exact hi.buf q s' hx
        | _ => rw [hx] at hs; cases hs
      · rw [hother q e] at hs; exact hi.buf q s hs
    · intro q hs
      have hs : ∀ s, (setPk f.m.c p (clearInUse (f.m.c.pk p))).pk q ≠ .socket s := hs
      refine hi.wr q ?_
      by_cases e : q = p
      · subst e
        rw [hself] at hs
        intro s hx
        rw [hx] at hs
        exact hs _ rfl
      · rw [hother q e] at hs; exact hs

end Polling.IocpF
