import Verif.Lib.TimeUnits

/-
C109: units of time.
-/
namespace Avian.TimeUnits

/-! ## Specification -/

/-- The nanoseconds of a unit. -/
def TimeUnit.nanos : TimeUnit → Int
  | .nanoseconds => 1
  | .microseconds => 10 ^ 3
  | .milliseconds => 10 ^ 6
  | .seconds => 10 ^ 9
  | .minutes => 60 * 10 ^ 9
  | .hours => 3600 * 10 ^ 9
  | .days => 86400 * 10 ^ 9

/-- The nearest `long`. -/
def saturate (x : Int) : Int := max (-2 ^ 63) (min x (2 ^ 63 - 1))

/-- A duration in another unit, without what is less than that unit. -/
def inUnit (target : TimeUnit) (d : Int) (source : TimeUnit) : Int := (d * source.nanos).tdiv target.nanos

def Long (x : Int) : Prop := -2 ^ 63 ≤ x ∧ x < 2 ^ 63

/-! ## Conversions -/

theorem scale_ok (v c : Int) (hv : Long v) (hc : 1 ≤ c) (h1 : -2 ^ 64 ≤ v * c) (h2 : v * c < 2 ^ 64) : scale v c = saturate (v * c) := by
  have hp : (v > 0 → v ≤ v * c) ∧ (v < 0 → v * c ≤ v) ∧ (v = 0 → v * c = 0) := by
    refine ⟨fun h => ?_, fun h => ?_, fun h => by rw [h, Int.zero_mul]⟩
    · have := Int.mul_le_mul_of_nonneg_left hc (show 0 ≤ v by omega)
      omega
    · have := Int.mul_le_mul_of_nonpos_left (show v ≤ 0 by omega) hc
      omega
  unfold Long at hv
  unfold scale saturate wrap64
  simp only
  generalize v * c = p at *
  by_cases ha : v > 0 ∧ (p + 9223372036854775808) % 18446744073709551616 - 9223372036854775808 < v
  · rw [if_pos ha]; omega
  · rw [if_neg ha]
    by_cases hb : v < 0 ∧ (p + 9223372036854775808) % 18446744073709551616 - 9223372036854775808 > v
    · rw [if_pos hb]; omega
    · rw [if_neg hb]; omega

theorem div_ok (v c : Int) (hv : Long v) (hc : 1 ≤ c) : v.tdiv c = saturate (v.tdiv c) := by
  have : -2 ^ 63 ≤ v.tdiv c ∧ v.tdiv c < 2 ^ 63 := by
    unfold Long at hv
    have := Int.natAbs_tdiv_le_natAbs v c
    by_cases h : 0 ≤ v
    · have := Int.tdiv_nonneg h (show 0 ≤ c by omega)
      omega
    · obtain ⟨w, rfl⟩ : ∃ w, v = -w := ⟨-v, by omega⟩
      have h2 := Int.tdiv_nonneg (show 0 ≤ w by omega) (show 0 ≤ c by omega)
      rw [Int.neg_tdiv] at this ⊢
      omega
  unfold saturate
  omega

/-- How a unit is converted to another. -/
inductive How where
  | same
  | by_div (c : Int)
  | by_scale (c : Int)

def How.apply : How → Int → Int
  | .same, d => d
  | .by_div c, d => d.tdiv c
  | .by_scale c, d => scale d c

def How.fits (source target : TimeUnit) : How → Prop
  | .same => source.nanos = target.nanos
  | .by_div c => 1 ≤ c ∧ target.nanos = source.nanos * c
  | .by_scale c => 1 ≤ c ∧ source.nanos = c * target.nanos

theorem how_exists (source target : TimeUnit) : ∃ w : How, w.fits source target ∧ ∀ d, convert target d source = w.apply d := by
  cases source <;> cases target <;>
  first
  | exact ⟨.same, rfl, fun d => rfl⟩
  | exact ⟨.by_div _, ⟨by decide, by decide⟩, fun d => rfl⟩
  | exact ⟨.by_scale _, ⟨by decide, by decide⟩, fun d => rfl⟩

theorem nanos_pos (u : TimeUnit) : 0 < u.nanos := by cases u <;> decide

/-- A conversion gives the whole units, or the limit of `long` if there are more, as long as there are less than 2^64. -/
theorem convert_ok_partial (target source : TimeUnit) (d : Int) (hd : Long d)
    (h1 : -2 ^ 64 ≤ inUnit target d source) (h2 : inUnit target d source < 2 ^ 64) :
    convert target d source = saturate (inUnit target d source) := by
  obtain ⟨w, hw, he⟩ := how_exists source target
  rw [he]
  have ht := nanos_pos target
  have hs := nanos_pos source
  unfold inUnit at *
  cases w with
  | same =>
    unfold How.fits at hw
    rw [hw, Int.mul_tdiv_cancel _ (by omega)]
    unfold Long at hd
    show d = saturate d
    unfold saturate
    omega
  | by_div c =>
    obtain ⟨hc, hn⟩ := hw
    rw [hn, Int.mul_comm d, Int.mul_tdiv_mul_of_pos _ _ hs]
    exact div_ok d c hd hc
  | by_scale c =>
    obtain ⟨hc, hn⟩ := hw
    rw [hn, ← Int.mul_assoc, Int.mul_tdiv_cancel _ (by omega)] at h1 h2 ⊢
    exact scale_ok d c hd hc h1 h2

example : convert .days (-100000000) .milliseconds = -1 ∧ convert .nanoseconds 106752 .days = 9223372036854775807 ∧
    convert .minutes 36 .hours = 2160 := by decide +kernel

/-- Going to a smaller unit and back gives the same duration, if it did not reach the limit. -/
theorem convert_back (small big : TimeUnit) (d : Int) (hd : Long d) (hn : ∃ c, 1 ≤ c ∧ big.nanos = c * small.nanos)
    (hl : Long (inUnit small d big)) : convert big (convert small d big) small = d := by
  have h := convert_ok_partial small big d hd (by unfold Long at hl; omega) (by unfold Long at hl; omega)
  have hsat : saturate (inUnit small d big) = inUnit small d big := by unfold saturate; unfold Long at hl; omega
  rw [hsat] at h
  obtain ⟨c, hc, hn⟩ := hn
  have hs := nanos_pos small
  have hb := nanos_pos big
  have e : inUnit small d big = d * c := by
    unfold inUnit
    rw [hn, ← Int.mul_assoc, Int.mul_tdiv_cancel _ (by omega)]
  have e2 : inUnit big (d * c) small = d := by
    unfold inUnit
    rw [Int.mul_assoc, ← hn, Int.mul_tdiv_cancel _ (by omega)]
  rw [h, e]
  rw [e] at hl
  rw [convert_ok_partial big small (d * c) hl (by rw [e2]; unfold Long at hd; omega) (by rw [e2]; unfold Long at hd; omega), e2]
  unfold saturate
  unfold Long at hd
  omega

example : convert .days (convert .seconds 365 .days) .seconds = 365 := by decide +kernel

/-- A long time gives a wrong number of nanoseconds instead of the limit: what has left the range may come back above the value. -/
theorem scale_wrong : convert .nanoseconds 27670116110564327 .microseconds = 9223372036854775384 ∧
    saturate (inUnit .nanoseconds 27670116110564327 .microseconds) = 9223372036854775807 := by decide +kernel

/-- 300000 days are less than 130000 days, in nanoseconds. -/
theorem not_monotone : convert .nanoseconds 300000 .days < convert .nanoseconds 130000 .days := by decide +kernel

/-! ## Waiting -/

theorem wrap_sub (a b : Int) : wrap64 (wrap64 a - wrap64 b) = wrap64 (a - b) := by
  unfold wrap64; omega

theorem small (x : Int) (h0 : 0 ≤ x) (h1 : x < 10 ^ 6) : wrap32 (wrap64 x) = x := by
  unfold wrap32 wrap64; omega

/-- `sleep`, `timedWait` and `timedJoin` with nanoseconds or microseconds wait for exactly the given time, with less than a
millisecond in the nanoseconds. -/
theorem waiting_exact (u : TimeUnit) (d : Int) (hd : Long d) (h0 : 0 < d) (hu : u = .nanoseconds ∨ u = .microseconds) :
    ∃ ms ns, waiting u d = some (ms, ns) ∧ 0 ≤ ns ∧ ns < 10 ^ 6 ∧ 0 ≤ ms ∧ ms * 10 ^ 6 + ns = d * u.nanos := by
  refine ⟨_, _, by unfold waiting; rw [if_pos h0], ?_⟩
  unfold Long at hd
  rcases hu with rfl | rfl
  · simp only [toMillis, excessNanos, TimeUnit.nanos, nanosPerMilli, nanosPerMicro, microsPerMilli]
    rw [Int.tdiv_eq_ediv_of_nonneg (by omega)]
    unfold wrap32 wrap64
    omega
  · simp only [toMillis, excessNanos, TimeUnit.nanos, nanosPerMilli, nanosPerMicro, microsPerMilli]
    rw [Int.tdiv_eq_ediv_of_nonneg (by omega), wrap_sub, small _ (by omega) (by omega)]
    omega

/-- With larger units the milliseconds are the time, unless there are 2^64 and more. -/
theorem waiting_large_partial (u : TimeUnit) (d : Int) (hd : Long d) (h0 : 0 < d) (hu : u ≠ .nanoseconds ∧ u ≠ .microseconds)
    (h : inUnit .milliseconds d u < 2 ^ 64) : waiting u d = some (saturate (inUnit .milliseconds d u), 0) := by
  have hnn : 0 ≤ inUnit .milliseconds d u := by
    unfold inUnit
    exact Int.tdiv_nonneg (Int.mul_nonneg (by omega) (Int.le_of_lt (nanos_pos u))) (Int.le_of_lt (nanos_pos _))
  have := convert_ok_partial .milliseconds u d hd (by omega) h
  unfold waiting
  rw [if_pos h0, ← this]
  cases u with
  | nanoseconds => exact absurd rfl hu.1
  | microseconds => exact absurd rfl hu.2
  | _ => rfl

/-- Nothing is waited for if the time is not positive. -/
theorem waiting_none (u : TimeUnit) (d : Int) (h : d ≤ 0) : waiting u d = none := by
  unfold waiting
  rw [if_neg (by omega)]

example : waiting .microseconds 1500 = some (1, 500000) ∧ waiting .seconds 2 = some (2000, 0) := by decide +kernel

end Avian.TimeUnits
