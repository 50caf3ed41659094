import Verif.Proof.ApiMarks

/-
The rules for marks imply that readable events come at most once per request: every event returned was taken, every event taken
uses up an effect of a call, and a call has at most one effect on the part that is watched for reading.
-/

namespace Polling.Api

theorem countP_same {α : Type} {p q : α → Bool} {xs : List α} (h : ∀ y ∈ xs, p y = q y) : xs.countP p = xs.countP q := by
  induction xs with
  | nil => rfl
  | cons y xs ih =>
    rw [List.countP_cons, List.countP_cons, ih (fun z hz => h z (List.mem_cons_of_mem _ hz)), h y List.mem_cons_self]

/-- Predicates that differ at one place. -/
theorem countP_gain {α : Type} [DecidableEq α] {p q : α → Bool} {x : α} {xs : List α} (hn : xs.Nodup)
    (h : ∀ y, y ≠ x → p y = q y) : xs.countP p ≤ xs.countP q + 1 := by
  induction xs with
  | nil => simp
  | cons y xs ih =>
    obtain ⟨hy, hn⟩ := List.nodup_cons.mp hn
    rw [List.countP_cons, List.countP_cons]
    by_cases hyx : y = x
    · subst hyx
      have : xs.countP p = xs.countP q := countP_same (fun z hz => h z (fun e => hy (e ▸ hz)))
      rw [this]
      cases p y <;> cases q y <;> simp <;> omega
    · rw [h y hyx]
      have := ih hn
      omega

theorem countP_lose {α : Type} [DecidableEq α] {p q : α → Bool} {x : α} {xs : List α} (hn : xs.Nodup)
    (h : ∀ y, y ≠ x → p y = q y) (hx : x ∈ xs) (hp : p x = false) (hq : q x = true) : xs.countP p + 1 = xs.countP q := by
  induction xs with
  | nil => cases hx
  | cons y xs ih =>
    obtain ⟨hy, hn⟩ := List.nodup_cons.mp hn
    rw [List.countP_cons, List.countP_cons]
    by_cases hyx : y = x
    · subst hyx
      have : xs.countP p = xs.countP q := countP_same (fun z hz => h z (fun e => hy (e ▸ hz)))
      rw [this, hp, hq]; simp
    · rw [h y hyx]
      rcases List.mem_cons.mp hx with e | hx
      · exact absurd e.symm hyx
      · have := ih hn hx
        omega

theorem countP_drop {α : Type} [DecidableEq α] {p q : α → Bool} {x : α} {xs : List α}
    (h : ∀ y, y ≠ x → p y = q y) (hp : p x = false) : xs.countP p ≤ xs.countP q := by
  induction xs with
  | nil => simp
  | cons y xs ih =>
    rw [List.countP_cons, List.countP_cons]
    by_cases hyx : y = x
    · subst hyx
      rw [hp]; simp; omega
    · rw [h y hyx]
      omega

/-- Is this a request with the key? -/
def asks (k : Key) : Option Call → Bool
  | some (.set _ key _) => key == k
  | _ => false

/-- Events taken for reading, with this key. -/
def takes (k : Key) : List Mark → Nat
  | [] => 0
  | .take _ false key :: m => (if key = k then 1 else 0) + takes k m
  | _ :: m => takes k m

/-- Effects on the part for reading, of requests with this key. -/
def effs (k : Key) : List Mark → Nat
  | [] => 0
  | .eff _ call false :: m => (if asks k (some call) = true then 1 else 0) + effs k m
  | _ :: m => effs k m

theorem returned_takes {comps : List Bool} {strict once : Prop} {m : List Mark} (ho : once) (h : WF comps strict once m) (k : Key) :
    returned k (erase m) + (pend m).count (false, k) ≤ takes k m := by
  induction h with
  | nil => simp [returned, erase, pend, takes]
  | @cons m o _ hk ih =>
    cases o with
    | vis o =>
      cases o with
      | begin t call => exact ih
      | ret t b => exact ih
      | waitBegin => simp only [erase, returned, pend, takes, List.count_nil]; omega
      | waitErr => simp only [erase, returned, pend, takes, List.count_nil]; omega
      | waitOk evs =>
        have := hk.2 ho k
        simp only [erase, returned, pend, takes, List.count_nil]
        omega
    | eff t call c => cases c <;> simpa [erase, pend, takes] using ih
    | take fd c key =>
      cases c with
      | true =>
        have : (pend (.take fd true key :: m)).count (false, k) = (pend m).count (false, k) := by
          simp [pend, List.count_cons]
        rw [this]; exact ih
      | false =>
        have : (pend (.take fd false key :: m)).count (false, k) = (pend m).count (false, k) + if key = k then 1 else 0 := by
          simp [pend, List.count_cons]
        rw [this]
        simp only [erase, takes]
        omega

/-- The source has an effect of a request with this key that is not used up. -/
def ready (k : Key) (m : List Mark) (fd : Fd) : Bool := fresh m fd false && asks k (lastEff m fd false)

theorem takes_effs {comps : List Bool} {strict once : Prop} {m : List Mark} (ho : once) (h : WF comps strict once m) (k : Key) :
    ∀ xs : List Fd, xs.Nodup → takes k m + xs.countP (ready k m) ≤ effs k m := by
  induction h with
  | nil => intro xs _; simp [takes, effs, ready, fresh]
  | @cons m o _ hk ih =>
    intro xs hn
    cases o with
    | vis o => exact ih xs hn
    | eff t call c =>
      cases c with
      | true =>
        have : xs.countP (ready k (.eff t call true :: m)) = xs.countP (ready k m) :=
          countP_same (fun y _ => by simp [ready, fresh, lastEff])
        rw [this]; exact ih xs hn
      | false =>
        have hoff : ∀ y, y ≠ call.fd → ready k (.eff t call false :: m) y = ready k m y := by
          intro y hy
          simp [ready, fresh, lastEff, Ne.symm hy]
        have hat : ready k (.eff t call false :: m) call.fd = asks k (some call) := by
          simp [ready, fresh, lastEff]
        have := ih xs hn
        simp only [takes, effs]
        by_cases hk : asks k (some call) = true
        · have := countP_gain hn hoff
          rw [if_pos hk]; omega
        · have := countP_drop (xs := xs) hoff (by rw [hat]; simpa using hk)
          rw [if_neg hk]; omega
    | take fd c key =>
      cases c with
      | true =>
        have : xs.countP (ready k (.take fd true key :: m)) = xs.countP (ready k m) :=
          countP_same (fun y _ => by simp [ready, fresh, lastEff])
        rw [this]; exact ih xs hn
      | false =>
        have hoff : ∀ y, y ≠ fd → ready k (.take fd false key :: m) y = ready k m y := by
          intro y hy
          simp [ready, fresh, lastEff, Ne.symm hy]
        have hat : ready k (.take fd false key :: m) fd = false := by
          simp [ready, fresh]
        obtain ⟨_, ⟨o, hl⟩, hf⟩ := hk
        have hf := hf ho
        simp only [takes, effs]
        by_cases hkk : key = k
        · have hr : ready k m fd = true := by simp [ready, hf, hl, asks, hkk]
          rw [if_pos hkk]
          by_cases hx : fd ∈ xs
          · have h1 := countP_lose hn hoff hx hat hr
            have h2 := ih xs hn
            omega
          · have h1 : xs.countP (ready k (.take fd false key :: m)) = xs.countP (ready k m) :=
              countP_same (fun y hy => hoff y (fun e => hx (e ▸ hy)))
            have h2 := ih (fd :: xs) (List.nodup_cons.mpr ⟨hx, hn⟩)
            rw [List.countP_cons, if_pos hr] at h2
            omega
        · rw [if_neg hkk]
          have h1 := countP_drop (xs := xs) hoff hat
          have h2 := ih xs hn
          omega

/-- The thread is in a request with this key that has not taken effect yet. -/
def asking (k : Key) (m : List Mark) (t : Tid) : Bool := !done m t false && asks k (busy m t)

theorem effs_requested {comps : List Bool} {strict once : Prop} {m : List Mark} (h : WF comps strict once m) (k : Key) :
    ∀ ts : List Tid, ts.Nodup → effs k m + ts.countP (asking k m) ≤ requested k (erase m) := by
  induction h with
  | nil => intro ts _; simp [effs, requested, erase, asking, busy, asks]
  | @cons m o _ hk ih =>
    intro ts hn
    cases o with
    | vis o =>
      cases o with
      | begin t call =>
        have hoff : ∀ y, y ≠ t → asking k (.vis (.begin t call) :: m) y = asking k m y := by
          intro y hy; simp [asking, done, busy, Ne.symm hy]
        have hat : asking k (.vis (.begin t call) :: m) t = asks k (some call) := by simp [asking, done, busy]
        have h2 := ih ts hn
        cases call with
        | set fd key o =>
          simp only [effs, erase, requested]
          by_cases hkk : key = k
          · rw [if_pos hkk]
            have := countP_gain hn hoff
            omega
          · rw [if_neg hkk]
            have := countP_drop (xs := ts) hoff (by rw [hat]; simp [asks, hkk])
            omega
        | delete fd =>
          simp only [effs, erase, requested]
          have := countP_drop (xs := ts) hoff (by rw [hat]; simp [asks])
          omega
      | ret t b =>
        have hoff : ∀ y, y ≠ t → asking k (.vis (.ret t b) :: m) y = asking k m y := by
          intro y hy; simp [asking, done, busy, Ne.symm hy]
        have h2 := ih ts hn
        have := countP_drop (xs := ts) hoff (by simp [asking, busy, asks])
        simp only [effs, erase, requested]
        omega
      | waitBegin => exact ih ts hn
      | waitErr => exact ih ts hn
      | waitOk _ => exact ih ts hn
    | take fd c key => exact ih ts hn
    | eff t call c =>
      cases c with
      | true =>
        have : ts.countP (asking k (.eff t call true :: m)) = ts.countP (asking k m) :=
          countP_same (fun y _ => by simp [asking, done, busy])
        rw [this]; exact ih ts hn
      | false =>
        have hoff : ∀ y, y ≠ t → asking k (.eff t call false :: m) y = asking k m y := by
          intro y hy; simp [asking, done, busy, Ne.symm hy]
        have hat : asking k (.eff t call false :: m) t = false := by simp [asking, done]
        obtain ⟨hb, hd⟩ := hk
        simp only [effs, erase]
        by_cases hkk : asks k (some call) = true
        · rw [if_pos hkk]
          have hr : asking k m t = true := by simp [asking, hd, hb, hkk]
          by_cases hx : t ∈ ts
          · have h1 := countP_lose hn hoff hx hat hr
            have h2 := ih ts hn
            omega
          · have h1 : ts.countP (asking k (.eff t call false :: m)) = ts.countP (asking k m) :=
              countP_same (fun y hy => hoff y (fun e => hx (e ▸ hy)))
            have h2 := ih (t :: ts) (List.nodup_cons.mpr ⟨hx, hn⟩)
            rw [List.countP_cons, if_pos hr] at h2
            omega
        · rw [if_neg hkk]
          have h1 := countP_drop (xs := ts) hoff hat
          have h2 := ih ts hn
          omega

/-- **The rules imply that events come at most once per request.** -/
theorem atMostOnce_of_WF {comps : List Bool} {strict once : Prop} {m : List Mark} (ho : once) (h : WF comps strict once m) :
    AtMostOnce (erase m) := by
  intro k
  have h1 := returned_takes ho h k
  have h2 := takes_effs ho h k [] List.nodup_nil
  have h3 := effs_requested h k [] List.nodup_nil
  simp only [List.countP_nil] at h2 h3
  omega

end Polling.Api
