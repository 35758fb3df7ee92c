import Verif.Lib.JCalendar

/-
C108: dates.
-/
namespace Avian.JCalendar

/-! ## Specification: the Gregorian calendar -/

def Leap (y : Nat) : Prop := y % 4 = 0 ∧ (y % 100 ≠ 0 ∨ y % 400 = 0)

instance (y : Nat) : Decidable (Leap y) := inferInstanceAs (Decidable (_ ∧ _))

/-- The days of a month, counted from 0. -/
def monthLength (y m : Nat) : Nat :=
  if m = 1 then (if Leap y then 29 else 28) else if m = 3 ∨ m = 5 ∨ m = 8 ∨ m = 10 then 30 else 31

/-- The days of a year before a month. -/
def monthsBefore (y : Nat) : Nat → Nat
  | 0 => 0
  | m + 1 => monthsBefore y m + monthLength y m

/-- The days from 1970 until a year. -/
def yearsBefore : Nat → Nat
  | 0 => 0
  | n + 1 => yearsBefore n + monthsBefore (1970 + n) 12

structure Date where
  y : Nat
  m : Nat
  d : Nat
  h : Nat
  min : Nat
  s : Nat
  deriving DecidableEq

def Date.Valid (a : Date) : Prop :=
  1970 ≤ a.y ∧ a.m < 12 ∧ 1 ≤ a.d ∧ a.d ≤ monthLength a.y a.m ∧ a.h < 24 ∧ a.min < 60 ∧ a.s < 60

instance (a : Date) : Decidable a.Valid := inferInstanceAs (Decidable (_ ∧ _))

/-- The days since 1970-01-01. -/
def Date.days (a : Date) : Nat := yearsBefore (a.y - 1970) + monthsBefore a.y a.m + (a.d - 1)

/-- The seconds since 1970-01-01T00:00:00. -/
def Date.seconds (a : Date) : Nat := ((a.days * 24 + a.h) * 60 + a.min) * 60 + a.s

def Date.fields (a : Date) : Fields := ⟨a.y, a.m, a.d, a.h, a.min, a.s⟩

/-! ## The calendar and the specification -/

theorem isLeapYear_iff (y : Nat) : isLeapYear (y : Int) = decide (Leap y) := by
  unfold isLeapYear
  rw [Int.tmod_eq_emod_of_nonneg (by omega), Int.tmod_eq_emod_of_nonneg (by omega), Int.tmod_eq_emod_of_nonneg (by omega)]
  rw [Bool.eq_iff_iff]
  simp only [Bool.or_eq_true, Bool.and_eq_true, beq_iff_eq, bne_iff_ne, decide_eq_true_eq]
  unfold Leap
  omega

theorem leap_near (y : Nat) (h1 : 1970 ≤ y) (h2 : y < 2100) : Leap y ↔ y % 4 = 0 := by
  unfold Leap; omega

theorem months_sum (y m : Nat) (h : m ≤ 12) :
    (monthsBefore y m : Int) = ((daysInMonth (decide (Leap y))).take m).sum := by
  have : m = 0 ∨ m = 1 ∨ m = 2 ∨ m = 3 ∨ m = 4 ∨ m = 5 ∨ m = 6 ∨ m = 7 ∨ m = 8 ∨ m = 9 ∨ m = 10 ∨ m = 11 ∨ m = 12 := by omega
  by_cases hl : Leap y <;>
  rcases this with rfl | rfl | rfl | rfl | rfl | rfl | rfl | rfl | rfl | rfl | rfl | rfl | rfl <;>
    simp [monthsBefore, monthLength, daysInMonth, hl]

theorem month_get (y m : Nat) (h : m < 12) : (daysInMonth (decide (Leap y)))[m]? = some (monthLength y m : Int) := by
  have : m = 0 ∨ m = 1 ∨ m = 2 ∨ m = 3 ∨ m = 4 ∨ m = 5 ∨ m = 6 ∨ m = 7 ∨ m = 8 ∨ m = 9 ∨ m = 10 ∨ m = 11 := by omega
  by_cases hl : Leap y <;>
  rcases this with rfl | rfl | rfl | rfl | rfl | rfl | rfl | rfl | rfl | rfl | rfl | rfl <;>
    simp [monthLength, daysInMonth, hl]

theorem year_length (y : Nat) : monthsBefore y 12 = if Leap y then 366 else 365 := by
  by_cases hl : Leap y <;> simp [monthsBefore, monthLength, hl]

theorem yearsBefore_near (n : Nat) (h : n ≤ 130) : yearsBefore n = 365 * n + (n + 1) / 4 := by
  induction n with
  | zero => rfl
  | succ n ih =>
    rw [yearsBefore, ih (by omega), year_length]
    have := leap_near (1970 + n) (by omega) (by omega)
    by_cases hl : Leap (1970 + n)
    · rw [if_pos hl]
      have := this.mp hl
      omega
    · rw [if_neg hl]
      have : ¬ (1970 + n) % 4 = 0 := fun h => hl (this.mpr h)
      omega

theorem monthLoop_ok (ls : List Int) (r k : Int) (h0 : 0 ≤ r) (h : r < ls.sum) :
    ∃ (m : Nat) (r' l : Int), monthLoop ls r k = some (k + m, r') ∧ 0 ≤ r' ∧ ls[m]? = some l ∧ r' < l ∧ r = (ls.take m).sum + r' := by
  induction ls generalizing r k with
  | nil => simp at h; omega
  | cons l ls ih =>
    rw [monthLoop]
    by_cases hc : r ≥ l
    · rw [if_pos hc]
      obtain ⟨m, r', l', h1, h2, h3, h4, h5⟩ := ih (r - l) (k + 1) (by omega) (by rw [List.sum_cons] at h; omega)
      refine ⟨m + 1, r', l', ?_, h2, by simpa using h3, h4, ?_⟩
      · rw [h1]; congr 2; omega
      · rw [List.take_succ_cons, List.sum_cons]; omega
    · rw [if_neg hc]
      exact ⟨0, r, l, by simp, h0, rfl, by omega, by simp⟩

theorem quarter (q : Nat) (h : 2 ≤ q) (h4 : ¬ (1968 + q) % 4 = 0) : (q - 2 + 1) / 4 = q / 4 := by
  have : q % 4 = 1 ∨ q % 4 = 2 ∨ q % 4 = 3 := by omega
  rcases this with h | h | h <;> omega

/-- From 1970 until 2099 the fields of a time are the date of the Gregorian calendar that belongs to it. -/
theorem fields_ok_partial (t : Nat) (h : t < 86400000 * 47482) :
    ∃ a : Date, a.Valid ∧ a.y < 2100 ∧ parseIntoFields t = some a.fields ∧ a.seconds = t / 1000 := by
  have e1 : (t : Int).tdiv 86400000 = ((t / 86400000 : Nat) : Int) := by rw [Int.tdiv_eq_ediv_of_nonneg (by omega)]; omega
  have e2 : (t : Int).tmod 86400000 = ((t % 86400000 : Nat) : Int) := by rw [Int.tmod_eq_emod_of_nonneg (by omega)]; omega
  generalize hD : t / 86400000 + 731 = D at *
  generalize hy : 4 * D / 1461 = q at *
  have e3 : (4 * ((t / 86400000 : Nat) + 731 : Int)).tdiv 1461 = (q : Int) := by
    rw [Int.tdiv_eq_ediv_of_nonneg (by omega)]; omega
  have e4 : ((q : Nat) : Int).tdiv 4 = ((q / 4 : Nat) : Int) := by rw [Int.tdiv_eq_ediv_of_nonneg (by omega)]; omega
  have e5 : (1968 + (q : Int)) = ((1968 + q : Nat) : Int) := by omega
  have hq : 2 ≤ q ∧ q ≤ 131 := by omega
  have hlp := leap_near (1968 + q) (by omega) (by omega)
  have hyb := yearsBefore_near (q - 2) (by omega)
  have hyl := months_sum (1968 + q) 12 (by omega)
  rw [year_length] at hyl
  have htk : (daysInMonth (decide (Leap (1968 + q)))).take 12 = daysInMonth (decide (Leap (1968 + q))) := by
    unfold daysInMonth; split <;> rfl
  rw [htk] at hyl
  have hr : ∃ r : Nat, (if isLeapYear ((1968 + q : Nat) : Int) = true then ((t / 86400000 : Nat) + 731 : Int) - (365 * (q : Int) + ((q / 4 : Nat) : Int))
      else ((t / 86400000 : Nat) + 731 : Int) - (365 * (q : Int) + ((q / 4 : Nat) : Int)) - 1) = (r : Int) ∧
      t / 86400000 = yearsBefore (q - 2) + r ∧ r < (if Leap (1968 + q) then 366 else 365) := by
    refine ⟨t / 86400000 - yearsBefore (q - 2), ?_⟩
    rw [isLeapYear_iff, hyb]
    by_cases hl : Leap (1968 + q)
    · simp only [hl, decide_true, if_true]
      have := hlp.mp hl
      have h4 : (q - 2 + 1) / 4 + 1 = q / 4 := by omega
      omega
    · simp only [hl, decide_false, if_false, Bool.false_eq_true]
      have : ¬ (1968 + q) % 4 = 0 := fun h => hl (hlp.mpr h)
      have h4 := quarter q hq.1 this
      rw [h4]
      omega
  obtain ⟨r, hr1, hr2, hr3⟩ := hr
  obtain ⟨m, r', l, h1, h2, h3, h4, h5⟩ := monthLoop_ok (daysInMonth (decide (Leap (1968 + q)))) (r : Int) 0 (by omega) (by rw [← hyl]; omega)
  have hm : m < 12 := by
    have := (List.getElem?_eq_some_iff.mp h3).1
    have : (daysInMonth (decide (Leap (1968 + q)))).length = 12 := by unfold daysInMonth; split <;> rfl
    omega
  rw [month_get _ _ hm] at h3
  rw [← months_sum _ _ (by omega)] at h5
  simp only [Option.some.injEq] at h3
  have c1 : ∀ (x : Nat), ((t % 86400000 : Nat) : Int).tdiv 3600000 = ((t % 86400000 / 3600000 : Nat) : Int) := by
    intro x; rw [Int.tdiv_eq_ediv_of_nonneg (by omega)]; omega
  have c2 : ((t % 86400000 : Nat) : Int).tmod 3600000 = ((t % 86400000 % 3600000 : Nat) : Int) := by
    rw [Int.tmod_eq_emod_of_nonneg (by omega)]; omega
  have c3 : ((t % 86400000 % 3600000 : Nat) : Int).tdiv 60000 = ((t % 86400000 % 3600000 / 60000 : Nat) : Int) := by
    rw [Int.tdiv_eq_ediv_of_nonneg (by omega)]; omega
  have c4 : ((t % 86400000 % 3600000 : Nat) : Int).tmod 60000 = ((t % 86400000 % 3600000 % 60000 : Nat) : Int) := by
    rw [Int.tmod_eq_emod_of_nonneg (by omega)]; omega
  have c5 : ((t % 86400000 % 3600000 % 60000 : Nat) : Int).tdiv 1000 = ((t % 86400000 % 3600000 % 60000 / 1000 : Nat) : Int) := by
    rw [Int.tdiv_eq_ediv_of_nonneg (by omega)]; omega
  refine ⟨⟨1968 + q, m, r'.toNat + 1, t % 86400000 / 3600000, t % 86400000 % 3600000 / 60000, t % 86400000 % 3600000 % 60000 / 1000⟩, ?_, ?_, ?_, ?_⟩
  · unfold Date.Valid; simp only; omega
  · simp only; omega
  · unfold parseIntoFields Date.fields
    simp only
    rw [e1, e3, e4, e5, hr1, isLeapYear_iff, h1, e2, c1 0, c2, c3, c4, c5]
    simp only [Option.map_some, Option.some.injEq, Fields.mk.injEq, true_and, and_true]
    omega
  · unfold Date.seconds Date.days
    simp only
    rw [show 1968 + q - 1970 = q - 2 by omega]
    omega

theorem addMonths_ok (ls : List Int) (n : Nat) (d : Int) (h : n ≤ ls.length) : addMonths ls n d = some (d + (ls.take n).sum) := by
  induction ls generalizing n d with
  | nil =>
    obtain rfl : n = 0 := by simpa using h
    rw [addMonths]; simp
  | cons l ls ih =>
    cases n with
    | zero => rw [addMonths]; simp
    | succ n =>
      rw [addMonths, ih _ _ (by simpa using h), List.take_succ_cons, List.sum_cons, Int.add_assoc]

/-- From 1970 until 2099 the time of a date is that of the Gregorian calendar. -/
theorem getTime_ok_partial (a : Date) (hv : a.Valid) (h : a.y < 2100) : getTime a.fields = some ((a.seconds * 1000 : Nat) : Int) := by
  obtain ⟨y, m, d, hh, mi, s⟩ := a
  unfold Date.Valid at hv
  simp only at hv h
  obtain ⟨h1, h2, h3, h4, h5, h6, h7⟩ := hv
  have hyb := yearsBefore_near (y - 1970) (by omega)
  have hlp := leap_near y h1 h
  have e4 : ((y : Nat) - 1968 : Int).tdiv 4 = (((y - 1968) / 4 : Nat) : Int) := by rw [Int.tdiv_eq_ediv_of_nonneg (by omega)]; omega
  have hl0 : ¬ Leap 1970 := by decide
  have hms := months_sum 1970 m (by omega)
  rw [show decide (Leap 1970) = false by decide] at hms
  have hmm : monthsBefore y m = monthsBefore 1970 m + if Leap y ∧ 2 ≤ m then 1 else 0 := by
    have : m = 0 ∨ m = 1 ∨ m = 2 ∨ m = 3 ∨ m = 4 ∨ m = 5 ∨ m = 6 ∨ m = 7 ∨ m = 8 ∨ m = 9 ∨ m = 10 ∨ m = 11 := by omega
    by_cases hl : Leap y <;>
    rcases this with rfl | rfl | rfl | rfl | rfl | rfl | rfl | rfl | rfl | rfl | rfl | rfl <;>
      simp [monthsBefore, monthLength, hl, hl0]
  unfold getTime Date.fields Date.seconds Date.days
  simp only
  rw [e4, Int.toNat_natCast, addMonths_ok _ _ _ (by simp [daysInMonth]; omega), ← hms, isLeapYear_iff, hyb, hmm, Option.map_some]
  simp only [decide_eq_true_eq, Option.some.injEq]
  by_cases hl : Leap y
  · have := hlp.mp hl
    by_cases h2m : 2 ≤ m
    · rw [if_neg (by omega), if_pos ⟨hl, h2m⟩]; omega
    · rw [if_pos ⟨by omega, hl⟩, if_neg (by omega)]; omega
  · have : ¬ y % 4 = 0 := fun h => hl (hlp.mpr h)
    rw [if_neg (fun h => hl h.2), if_neg (fun h => hl h.1)]; omega

/-- A calendar gives back the time it was set to, in whole seconds. -/
theorem time_fields_time_partial (t : Nat) (h : t < 86400000 * 47482) :
    (parseIntoFields t).bind getTime = some ((t / 1000 * 1000 : Nat) : Int) := by
  obtain ⟨a, hv, hy, hp, hs⟩ := fields_ok_partial t h
  rw [hp, Option.bind_some, getTime_ok_partial a hv hy, hs]

/-! ## Only one date belongs to a time -/

theorem monthsBefore_mono (y m n : Nat) (h : m ≤ n) : monthsBefore y m ≤ monthsBefore y n := by
  induction n with
  | zero => obtain rfl : m = 0 := by omega
            exact Nat.le_refl _
  | succ n ih =>
    by_cases he : m = n + 1
    · rw [he]; exact Nat.le_refl _
    · rw [monthsBefore]; have := ih (by omega); omega

theorem yearsBefore_mono (m n : Nat) (h : m ≤ n) : yearsBefore m ≤ yearsBefore n := by
  induction n with
  | zero => obtain rfl : m = 0 := by omega
            exact Nat.le_refl _
  | succ n ih =>
    by_cases he : m = n + 1
    · rw [he]; exact Nat.le_refl _
    · rw [yearsBefore]; have := ih (by omega); omega

theorem year_of_days (a b : Date) (ha : a.Valid) (hb : b.Valid) (h : a.days = b.days) : ¬ a.y < b.y := by
  intro hlt
  unfold Date.Valid at ha hb
  unfold Date.days at h
  have h1 := yearsBefore_mono (a.y - 1970 + 1) (b.y - 1970) (by omega)
  rw [yearsBefore, show 1970 + (a.y - 1970) = a.y by omega] at h1
  have h2 := monthsBefore_mono a.y (a.m + 1) 12 (by omega)
  rw [monthsBefore] at h2
  omega

theorem month_of_days (a b : Date) (ha : a.Valid) (hb : b.Valid) (hy : a.y = b.y) (h : a.days = b.days) : ¬ a.m < b.m := by
  intro hlt
  unfold Date.Valid at ha hb
  unfold Date.days at h
  have h2 := monthsBefore_mono a.y (a.m + 1) b.m (by omega)
  rw [monthsBefore] at h2
  rw [← hy] at h
  omega

theorem date_unique (a b : Date) (ha : a.Valid) (hb : b.Valid) (h : a.seconds = b.seconds) : a = b := by
  have hd : a.days = b.days ∧ a.h = b.h ∧ a.min = b.min ∧ a.s = b.s := by
    unfold Date.Valid at ha hb
    unfold Date.seconds at h
    omega
  have hy : a.y = b.y := by
    have h1 := year_of_days a b ha hb hd.1
    have h2 := year_of_days b a hb ha hd.1.symm
    omega
  have hm : a.m = b.m := by
    have h1 := month_of_days a b ha hb hy hd.1
    have h2 := month_of_days b a hb ha hy.symm hd.1.symm
    omega
  have hdd : a.d = b.d := by
    have h := hd.1
    unfold Date.days at h
    rw [hy, hm] at h
    unfold Date.Valid at ha hb
    omega
  obtain ⟨y, m, d, hh, mi, s⟩ := a
  obtain ⟨y', m', d', hh', mi', s'⟩ := b
  simp only at hd hy hm hdd
  obtain ⟨_, h1, h2, h3⟩ := hd
  subst hy hm hdd h1 h2 h3
  rfl

theorem seconds_bound (a : Date) (ha : a.Valid) (h : a.y < 2100) : a.seconds * 1000 < 86400000 * 47482 := by
  have h0 := ha
  unfold Date.Valid at ha
  have h1 := yearsBefore_mono (a.y - 1970 + 1) 130 (by omega)
  rw [yearsBefore, show 1970 + (a.y - 1970) = a.y by omega, yearsBefore_near 130 (by omega)] at h1
  have h2 := monthsBefore_mono a.y (a.m + 1) 12 (by omega)
  rw [monthsBefore] at h2
  unfold Date.seconds Date.days
  omega

/-- A date set field by field is found again in the time of the calendar. -/
theorem fields_time_fields_partial (a : Date) (ha : a.Valid) (h : a.y < 2100) : (getTime a.fields).bind parseIntoFields = some a.fields := by
  rw [getTime_ok_partial a ha h, Option.bind_some]
  obtain ⟨b, hv, hy, hp, hs⟩ := fields_ok_partial (a.seconds * 1000) (seconds_bound a ha h)
  rw [hp, date_unique b a hv ha (by rw [hs]; omega)]

example : parseIntoFields 951782400000 = some ⟨2000, 1, 29, 0, 0, 0⟩ ∧ getTime ⟨2000, 1, 29, 0, 0, 0⟩ = some 951782400000 := by decide +kernel
example : (⟨2000, 1, 29, 0, 0, 0⟩ : Date).Valid ∧ (⟨2000, 1, 29, 0, 0, 0⟩ : Date).seconds = 951782400 := by decide +kernel
example : parseIntoFields 4102444799999 = some ⟨2099, 11, 31, 23, 59, 59⟩ := by decide +kernel

/-! ## Beyond these years -/

/-- The first day of 2100 has the number 0. -/
theorem year_2100_wrong : parseIntoFields 4102444800000 = some ⟨2100, 0, 0, 0, 0, 0⟩ ∧
    (⟨2100, 0, 1, 0, 0, 0⟩ : Date).Valid ∧ (⟨2100, 0, 1, 0, 0, 0⟩ : Date).seconds = 4102444800 ∧ getTime ⟨2100, 0, 1, 0, 0, 0⟩ ≠ some 4102444800000 := by
  decide +kernel

/-- The last second before 1970 gives the first day of 1970, with a negative number of seconds. -/
theorem before_1970_wrong : parseIntoFields (-1000) = some ⟨1970, 0, 1, 0, 0, -1⟩ := by decide +kernel

/-- Before 1970, unless midnight, the hours, minutes and seconds are not positive. -/
theorem before_1970 (t : Int) (h : t < 0) (f : Fields) (hf : parseIntoFields t = some f) : f.hour ≤ 0 ∧ f.minute ≤ 0 ∧ f.second ≤ 0 := by
  unfold parseIntoFields at hf
  simp only [Option.map_eq_some_iff] at hf
  obtain ⟨r, _, rfl⟩ := hf
  have hn : ∀ a b : Int, a ≤ 0 → 0 < b → a.tdiv b ≤ 0 ∧ a.tmod b ≤ 0 := by
    intro a b ha hb
    obtain ⟨c, rfl⟩ : ∃ c, a = -c := ⟨-a, by omega⟩
    rw [Int.neg_tdiv, Int.neg_tmod]
    have h1 := Int.tdiv_nonneg (show 0 ≤ c by omega) (Int.le_of_lt hb)
    have h2 := Int.tmod_nonneg b (show 0 ≤ c by omega)
    omega
  have h1 := hn t 86400000 (by omega) (by omega)
  have h2 := hn _ 3600000 h1.2 (by omega)
  have h3 := hn _ 60000 h2.2 (by omega)
  have h4 := hn _ 1000 h3.2 (by omega)
  exact ⟨h2.1, h3.1, h4.1⟩

/-! ## Text -/

theorem pad2 : ∀ v, v < 100 → pad (v : Nat) 2 = [48 + v / 10, 48 + v % 10] := by decide +kernel

theorem pad4_hi : ∀ v, v < 130 → pad ((1970 + v : Nat) : Int) 4 =
    [48 + (1970 + v) / 1000, 48 + (1970 + v) / 100 % 10, 48 + (1970 + v) / 10 % 10, 48 + (1970 + v) % 10] := by decide +kernel

theorem read2 : ∀ v, v < 100 → Numbers.parseInt [48 + v / 10, 48 + v % 10] 10 = .ok (v : Nat) := by decide +kernel

theorem read4 : ∀ v, v < 130 → Numbers.parseInt
    [48 + (1970 + v) / 1000, 48 + (1970 + v) / 100 % 10, 48 + (1970 + v) / 10 % 10, 48 + (1970 + v) % 10] 10 = .ok ((1970 + v : Nat) : Int) := by decide +kernel

/-- The digits of a number below 100. -/
def two (v : Nat) : List Nat := [48 + v / 10, 48 + v % 10]

/-- The text of a date: yyyy-MM-ddTHH:mm:ss. -/
def Date.text (a : Date) : List Nat :=
  [48 + a.y / 1000, 48 + a.y / 100 % 10, 48 + a.y / 10 % 10, 48 + a.y % 10] ++ 45 :: (two (a.m + 1) ++ 45 :: (two a.d ++ 84 :: (two a.h ++ 58 :: (two a.min ++ 58 :: two a.s))))

theorem monthLength_le (y m : Nat) : monthLength y m ≤ 31 := by
  unfold monthLength
  repeat' split
  all_goals omega

theorem formatFields_ok (a : Date) (ha : a.Valid) (h : a.y < 2100) : formatFields a.fields = a.text := by
  unfold Date.Valid at ha
  have hl := monthLength_le a.y a.m
  unfold formatFields Date.fields Date.text two
  simp only
  have h4 := pad4_hi (a.y - 1970) (by omega)
  rw [show 1970 + (a.y - 1970) = a.y by omega] at h4
  rw [h4, show (a.m : Int) + 1 = ((a.m + 1 : Nat) : Int) by omega, pad2 (a.m + 1) (by omega), pad2 a.d (by omega), pad2 a.h (by omega),
    pad2 a.min (by omega), pad2 a.s (by omega)]

/-- `format` gives the date of the Gregorian calendar as yyyy-MM-ddTHH:mm:ss. -/
theorem format_ok_partial (t : Nat) (h : t < 86400000 * 47482) :
    ∃ a : Date, a.Valid ∧ a.y < 2100 ∧ a.seconds = t / 1000 ∧ format t = some a.text := by
  obtain ⟨a, hv, hy, hp, hs⟩ := fields_ok_partial t h
  exact ⟨a, hv, hy, hs, by unfold format; rw [hp, Option.map_some, formatFields_ok a hv hy]⟩

/-- `parse` reads a date at any place of a text, and the position is behind it. -/
theorem parse_ok_partial (pre post : List Nat) (a : Date) (ha : a.Valid) (h : a.y < 2100) :
    parse (pre ++ a.text ++ post) pre.length = .date ((a.seconds * 1000 : Nat) : Int) (pre.length + 19) := by
  have hg := getTime_ok_partial a ha h
  unfold Date.Valid at ha
  have hl := monthLength_le a.y a.m
  have r4 := read4 (a.y - 1970) (by omega)
  rw [show 1970 + (a.y - 1970) = a.y by omega] at r4
  have r1 := read2 (a.m + 1) (by omega)
  have r2 := read2 a.d (by omega)
  have r3 := read2 a.h (by omega)
  have r5 := read2 a.min (by omega)
  have r6 := read2 a.s (by omega)
  have hd : ∀ k, (pre ++ a.text ++ post).drop (pre.length + k) = (a.text ++ post).drop k := by
    intro k; rw [List.append_assoc, List.drop_append]; simp
  have hgt : ∀ k, (pre ++ a.text ++ post)[pre.length + k]? = (a.text ++ post)[k]? := by
    intro k; rw [List.append_assoc, List.getElem?_append_right (by omega)]; congr 1; omega
  have hlen : (pre ++ a.text ++ post).length = pre.length + 19 + post.length := by simp [Date.text, two]; omega
  have f0 : parseField (pre ++ a.text ++ post) pre.length 4 = some ((a.y : Int), pre.length + 4) := by
    unfold parseField
    rw [if_neg (by omega), show pre.length = pre.length + 0 by omega, hd]
    simp only [Date.text, two, List.cons_append, List.nil_append, List.drop_zero, List.take_succ_cons, List.take_zero]
    rw [r4]
  have p1 : expectPrefix (pre ++ a.text ++ post) (pre.length + 4) 45 = some (pre.length + 5) := by
    unfold expectPrefix; rw [hgt]; simp [Date.text, two]
  have f1 : parseField (pre ++ a.text ++ post) (pre.length + 5) 2 = some (((a.m + 1 : Nat) : Int), pre.length + 7) := by
    unfold parseField
    rw [if_neg (by omega), hd]
    simp only [Date.text, two, List.cons_append, List.nil_append, List.drop_succ_cons, List.drop_zero, List.take_succ_cons, List.take_zero]
    rw [r1]
  have p2 : expectPrefix (pre ++ a.text ++ post) (pre.length + 7) 45 = some (pre.length + 8) := by
    unfold expectPrefix; rw [hgt]; simp [Date.text, two]
  have f2 : parseField (pre ++ a.text ++ post) (pre.length + 8) 2 = some ((a.d : Int), pre.length + 10) := by
    unfold parseField
    rw [if_neg (by omega), hd]
    simp only [Date.text, two, List.cons_append, List.nil_append, List.drop_succ_cons, List.drop_zero, List.take_succ_cons, List.take_zero]
    rw [r2]
  have p3 : expectPrefix (pre ++ a.text ++ post) (pre.length + 10) 84 = some (pre.length + 11) := by
    unfold expectPrefix; rw [hgt]; simp [Date.text, two]
  have f3 : parseField (pre ++ a.text ++ post) (pre.length + 11) 2 = some ((a.h : Int), pre.length + 13) := by
    unfold parseField
    rw [if_neg (by omega), hd]
    simp only [Date.text, two, List.cons_append, List.nil_append, List.drop_succ_cons, List.drop_zero, List.take_succ_cons, List.take_zero]
    rw [r3]
  have p4 : expectPrefix (pre ++ a.text ++ post) (pre.length + 13) 58 = some (pre.length + 14) := by
    unfold expectPrefix; rw [hgt]; simp [Date.text, two]
  have f4 : parseField (pre ++ a.text ++ post) (pre.length + 14) 2 = some ((a.min : Int), pre.length + 16) := by
    unfold parseField
    rw [if_neg (by omega), hd]
    simp only [Date.text, two, List.cons_append, List.nil_append, List.drop_succ_cons, List.drop_zero, List.take_succ_cons, List.take_zero]
    rw [r5]
  have p5 : expectPrefix (pre ++ a.text ++ post) (pre.length + 16) 58 = some (pre.length + 17) := by
    unfold expectPrefix; rw [hgt]; simp [Date.text, two]
  have f5 : parseField (pre ++ a.text ++ post) (pre.length + 17) 2 = some ((a.s : Int), pre.length + 19) := by
    unfold parseField
    rw [if_neg (by omega), hd]
    simp only [Date.text, two, List.cons_append, List.nil_append, List.drop_succ_cons, List.drop_zero, List.take_succ_cons, List.take_zero]
    rw [r6]
  unfold parse
  simp only [f0, p1, f1, p2, f2, p3, f3, p4, f4, p5, f5, orError]
  have : (⟨(a.y : Int), ((a.m + 1 : Nat) : Int) + -1, a.d, a.h, a.min, a.s⟩ : Fields) = a.fields := by
    unfold Date.fields
    congr 1
    omega
  rw [this, hg]

/-- What is written is read back, in whole seconds. -/
theorem parse_format_partial (t : Nat) (h : t < 86400000 * 47482) :
    (format t).map (fun s => parse s 0) = some (.date ((t / 1000 * 1000 : Nat) : Int) 19) := by
  obtain ⟨a, hv, hy, hs, hf⟩ := format_ok_partial t h
  have := parse_ok_partial [] [] a hv hy
  rw [List.nil_append, List.append_nil, hs] at this
  rw [hf, Option.map_some]
  exact congrArg some this

/-- A text that is too short is no date. -/
theorem parse_short (s : List Nat) (i : Nat) (h : s.length < i + 4) : parse s i = .null i := by
  unfold parse parseField orError
  rw [if_pos h]

/-- A month of 14 and more is not refused but leads to ArrayIndexOutOfBoundsException. -/
theorem month_14_wrong : parse ("2000-14-01T00:00:00".toList.map Char.toNat) 0 = .arrayIndex := by decide +kernel

example : format 951782400000 = some ("2000-02-29T00:00:00".toList.map Char.toNat) := by decide +kernel
example : parse ("x2000-02-29T00:00:00y".toList.map Char.toNat) 1 = .date 951782400000 20 := by decide +kernel
example : parse ("2000-02+29T00:00:00".toList.map Char.toNat) 0 = .null 7 := by decide +kernel

end Avian.JCalendar
