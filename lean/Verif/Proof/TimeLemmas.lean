import Verif.Model.Time
import Verif.Spec.Time

namespace Polling
open TimeSpec

theorem asMillis_eq (d : Duration) : d.asMillis = d.ns / 1000000 := by
  unfold Duration.asMillis Duration.asSecs Duration.subsecNanos; omega

theorem fromMillisNs_eq (ms : Nat) : Duration.fromMillisNs ms = ms * 1000000 := by
  unfold Duration.fromMillisNs; omega

theorem isCeilMs_iff (ms ns : Nat) : IsCeilMs ms ns ↔ ms = (ns + 999999) / 1000000 := by
  have h3 : ns ≤ (ns + 999999) / 1000000 * 1000000 := by omega
  unfold IsCeilMs
  constructor
  · rintro ⟨h1, h2⟩
    have := h2 _ h3
    clear h2
    omega
  · rintro rfl
    exact ⟨h3, fun m hm => by omega⟩

theorem tryInto_getD (max v : Nat) : (tryInto max v).getD max = min v max := by
  unfold tryInto; split <;> simp <;> omega

theorem satAdd_eq (max a b : Nat) : satAdd max a b = min (a + b) max := by
  unfold satAdd; split <;> omega

theorem dur2timeout_eq (t : Duration) : dur2timeout t = min ((t.ns + 999999) / 1000000) 4294967295 := by
  have hs : t.asSecs = t.ns / 1000000000 := rfl
  have hn : t.subsecNanos = t.ns % 1000000000 := rfl
  unfold dur2timeout checkedU64
  rw [hs, hn]
  by_cases h1 : t.ns / 1000000000 * 1000 ≤ u64Max
  · rw [if_pos h1, Option.bind_some]
    by_cases h2 : t.ns / 1000000000 * 1000 + t.ns % 1000000000 / 10 ^ 6 ≤ u64Max
    · rw [if_pos h2, Option.bind_some]
      by_cases h3 : t.ns % 1000000000 % 10 ^ 6 > 0
      · rw [if_pos h3]
        by_cases h4 : t.ns / 1000000000 * 1000 + t.ns % 1000000000 / 10 ^ 6 + 1 ≤ u64Max
        · rw [if_pos h4, Option.bind_some, tryInto_getD]; unfold u32Max; omega
        · rw [if_neg h4]; simp only [Option.bind_none, Option.getD_none]; unfold u64Max u32Max at *; omega
      · rw [if_neg h3, Option.bind_some, tryInto_getD]; unfold u32Max; omega
    · rw [if_neg h2]; simp only [Option.bind_none, Option.getD_none]; unfold u64Max u32Max at *; omega
  · rw [if_neg h1]; simp only [Option.bind_none, Option.getD_none]; unfold u64Max u32Max at *; omega

theorem dur_lt (d : Duration) : d.ns < 18446744073709551616000000000 := d.lt

theorem epollMs_eq (t : Duration) (h0 : t.ns ≠ 0) :
    epollTimeoutMs false (some t) = ((min ((t.ns + 999999) / 1000000) 2147483647 : Nat) : Int) := by
  simp only [epollTimeoutMs, h0, if_false, Bool.false_eq_true, tryInto_getD, asMillis_eq, fromMillisNs_eq,
    satAdd_eq, i32Max]
  congr 1
  split <;> omega

theorem pollMs_eq (t : Duration) :
    pollTimeoutMs (some t) = ((min ((t.ns + 999999) / 1000000) 2147483647 : Nat) : Int) := by
  have hlt := dur_lt t
  simp only [pollTimeoutMs, tryInto_getD, asMillis_eq, fromMillisNs_eq, satAdd_eq, i32Max, u64Max]
  congr 1
  split <;> omega

end Polling
