import Verif.Lib.Outcome

/-
Units of time (classpath/java/util/concurrent/TimeUnit.java).
-/
namespace Avian.TimeUnits

/-- Arithmetic of `long`. -/
def wrap64 (x : Int) : Int := (x + 9223372036854775808) % 18446744073709551616 - 9223372036854775808

/-- The conversion to `int`. -/
def wrap32 (x : Int) : Int := (x + 2147483648) % 4294967296 - 2147483648

/-- TimeUnit.java:14-335: the constants. -/
inductive TimeUnit where
  | nanoseconds | microseconds | milliseconds | seconds | minutes | hours | days
  deriving DecidableEq

/-- TimeUnit.java:337 -/
def nanosPerMicro : Int := 1000

/-- TimeUnit.java:338 -/
def microsPerMilli : Int := 1000

/-- TimeUnit.java:339 -/
def millisPerSecond : Int := 1000

/-- TimeUnit.java:340 -/
def secondsPerMinute : Int := 60

/-- TimeUnit.java:341 -/
def minutesPerHour : Int := 60

/-- TimeUnit.java:342 -/
def hoursPerDay : Int := 24

/-- TimeUnit.java:344 -/
def nanosPerMilli : Int := nanosPerMicro * microsPerMilli
/-- TimeUnit.java:345 -/
def nanosPerSecond : Int := nanosPerMilli * millisPerSecond
/-- TimeUnit.java:346 -/
def nanosPerMinute : Int := nanosPerSecond * secondsPerMinute
/-- TimeUnit.java:347 -/
def nanosPerHour : Int := nanosPerMinute * minutesPerHour
/-- TimeUnit.java:348 -/
def nanosPerDay : Int := nanosPerHour * hoursPerDay
/-- TimeUnit.java:350 -/
def microsPerSecond : Int := microsPerMilli * millisPerSecond
/-- TimeUnit.java:351 -/
def microsPerMinute : Int := microsPerSecond * secondsPerMinute
/-- TimeUnit.java:352 -/
def microsPerHour : Int := microsPerMinute * minutesPerHour
/-- TimeUnit.java:353 -/
def microsPerDay : Int := microsPerHour * hoursPerDay
/-- TimeUnit.java:355 -/
def millisPerMinute : Int := millisPerSecond * secondsPerMinute
/-- TimeUnit.java:356 -/
def millisPerHour : Int := millisPerMinute * minutesPerHour
/-- TimeUnit.java:357 -/
def millisPerDay : Int := millisPerHour * hoursPerDay
/-- TimeUnit.java:359 -/
def secondsPerHour : Int := secondsPerMinute * minutesPerHour
/-- TimeUnit.java:360 -/
def secondsPerDay : Int := secondsPerHour * hoursPerDay
/-- TimeUnit.java:362 -/
def minutesPerDay : Int := minutesPerHour * hoursPerDay

/-- TimeUnit.java:364-373 `scale`. -/
def scale (value conversion : Int) : Int :=
  let result := wrap64 (value * conversion)
  if value > 0 ∧ result < value then 9223372036854775807
  else if value < 0 ∧ result > value then -9223372036854775808
  else result

/-- `toNanos` of each unit: TimeUnit.java:16, 62, 108, 154, 200, 246, 292. -/
def toNanos : TimeUnit → Int → Int
  | .nanoseconds, d => d
  | .microseconds, d => scale d nanosPerMicro
  | .milliseconds, d => scale d nanosPerMilli
  | .seconds, d => scale d nanosPerSecond
  | .minutes, d => scale d nanosPerMinute
  | .hours, d => scale d nanosPerHour
  | .days, d => scale d nanosPerDay

/-- `toMicros` of each unit, after `toNanos`. -/
def toMicros : TimeUnit → Int → Int
  | .nanoseconds, d => d.tdiv nanosPerMicro
  | .microseconds, d => d
  | .milliseconds, d => scale d microsPerMilli
  | .seconds, d => scale d microsPerSecond
  | .minutes, d => scale d microsPerMinute
  | .hours, d => scale d microsPerHour
  | .days, d => scale d microsPerDay

/-- `toMillis` of each unit, after `toMicros`. -/
def toMillis : TimeUnit → Int → Int
  | .nanoseconds, d => d.tdiv nanosPerMilli
  | .microseconds, d => d.tdiv microsPerMilli
  | .milliseconds, d => d
  | .seconds, d => scale d millisPerSecond
  | .minutes, d => scale d millisPerMinute
  | .hours, d => scale d millisPerHour
  | .days, d => scale d millisPerDay

/-- `toSeconds` of each unit, after `toMillis`. -/
def toSeconds : TimeUnit → Int → Int
  | .nanoseconds, d => d.tdiv nanosPerSecond
  | .microseconds, d => d.tdiv microsPerSecond
  | .milliseconds, d => d.tdiv millisPerSecond
  | .seconds, d => d
  | .minutes, d => scale d secondsPerMinute
  | .hours, d => scale d secondsPerHour
  | .days, d => scale d secondsPerDay

/-- `toMinutes` of each unit, after `toSeconds`. -/
def toMinutes : TimeUnit → Int → Int
  | .nanoseconds, d => d.tdiv nanosPerMinute
  | .microseconds, d => d.tdiv microsPerMinute
  | .milliseconds, d => d.tdiv millisPerMinute
  | .seconds, d => d.tdiv secondsPerMinute
  | .minutes, d => d
  | .hours, d => scale d minutesPerHour
  | .days, d => scale d minutesPerDay

/-- `toHours` of each unit, after `toMinutes`. -/
def toHours : TimeUnit → Int → Int
  | .nanoseconds, d => d.tdiv nanosPerHour
  | .microseconds, d => d.tdiv microsPerHour
  | .milliseconds, d => d.tdiv millisPerHour
  | .seconds, d => d.tdiv secondsPerHour
  | .minutes, d => d.tdiv minutesPerHour
  | .hours, d => d
  | .days, d => scale d hoursPerDay

/-- `toDays` of each unit, after `toHours`. -/
def toDays : TimeUnit → Int → Int
  | .nanoseconds, d => d.tdiv nanosPerDay
  | .microseconds, d => d.tdiv microsPerDay
  | .milliseconds, d => d.tdiv millisPerDay
  | .seconds, d => d.tdiv secondsPerDay
  | .minutes, d => d.tdiv minutesPerDay
  | .hours, d => d.tdiv hoursPerDay
  | .days, d => d

/-- `convert` of each unit, after `toDays`. -/
def convert : TimeUnit → Int → TimeUnit → Int
  | .nanoseconds, d, u => toNanos u d
  | .microseconds, d, u => toMicros u d
  | .milliseconds, d, u => toMillis u d
  | .seconds, d, u => toSeconds u d
  | .minutes, d, u => toMinutes u d
  | .hours, d, u => toHours u d
  | .days, d, u => toDays u d

/-- `excessNanos` of each unit, after `convert`. -/
def excessNanos : TimeUnit → Int → Int → Int
  | .nanoseconds, d, m => wrap32 (wrap64 (d - wrap64 (m * nanosPerMilli)))
  | .microseconds, d, m => wrap32 (wrap64 (wrap64 (d * nanosPerMicro) - wrap64 (m * nanosPerMilli)))
  | _, _, _ => 0

/-- TimeUnit.java:393-415 `timedWait`, `timedJoin`, `sleep`: the milliseconds and nanoseconds waited for, if any. -/
def waiting (u : TimeUnit) (timeout : Int) : Option (Int × Int) :=
  if timeout > 0 then some (toMillis u timeout, excessNanos u timeout (toMillis u timeout)) else none

end Avian.TimeUnits
