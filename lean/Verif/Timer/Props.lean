import Verif.Outcome
/-!
# C54: timer arithmetic (`/repo/src/utils/timer.h`)

`time_t` and `long` are 64 bits and signed; overflow is undefined behaviour.
-/
namespace Arax.Timer

/-- `struct timespec`. -/
structure Timespec where
  sec : Int
  nsec : Int

/-- The result of a signed 64-bit operation. -/
def long (v : Int) : Res Int := if -9223372036854775808 ≤ v ∧ v ≤ 9223372036854775807 then .ok v else .ub

/-- `utils_timer_tv_time` (/repo/src/utils/timer.h:45-46); `scale` is `UTILS_TIMER_US` or `UTILS_TIMER_NS` (:33-37). C division truncates; `tv_nsec` is not negative. -/
def tvTime (tv : Timespec) (scale : Int) : Res Int := do
  let a ← long (tv.sec * (1000000000 / scale))
  long (a + Int.tdiv tv.nsec scale)

/-- `utils_timer_get_duration_us` (/repo/src/utils/timer.h:73-75) and `utils_timer_get_duration_ns` (:82-84); also `utils_timer_get_elapsed_us/ns` (:92-111) with `stop` the current time. -/
def duration (scale : Int) (start stop : Timespec) : Res Int := do
  let b ← tvTime stop scale
  let a ← tvTime start scale
  long (b - a)

/-! ### Specification -/

/-- A time `clock_gettime` can deliver: normalised, not before 1970 and before the year 2262. -/
def Timespec.Valid (tv : Timespec) : Prop := 0 ≤ tv.sec ∧ tv.sec < 9223372036 ∧ 0 ≤ tv.nsec ∧ tv.nsec < 1000000000

/-- The exact time in nanoseconds. -/
def Timespec.exact (tv : Timespec) : Int := tv.sec * 1000000000 + tv.nsec

theorem tvTime_ns {tv : Timespec} (h : tv.Valid) : tvTime tv 1 = .ok tv.exact := by
  obtain ⟨h1, h2, h3, h4⟩ := h
  have e1 : long (tv.sec * (1000000000 / 1)) = .ok (tv.sec * 1000000000) := by
    unfold long; rw [if_pos (by omega)]; simp
  have e2 : Int.tdiv tv.nsec 1 = tv.nsec := Int.tdiv_one _
  simp only [tvTime, e1, Res.bind_ok, e2, Timespec.exact]
  unfold long; rw [if_pos (by omega)]

theorem tvTime_us {tv : Timespec} (h : tv.Valid) : tvTime tv 1000 = .ok (tv.exact / 1000) := by
  obtain ⟨h1, h2, h3, h4⟩ := h
  have e1 : long (tv.sec * (1000000000 / 1000)) = .ok (tv.sec * 1000000) := by
    unfold long; rw [if_pos (by omega)]; rfl
  have e2 : Int.tdiv tv.nsec 1000 = tv.nsec / 1000 := Int.tdiv_eq_ediv_of_nonneg h3
  simp only [tvTime, e1, Res.bind_ok, e2, Timespec.exact]
  unfold long; rw [if_pos (by omega)]
  congr 1; omega

/-- **C54** (nanoseconds) For all valid times the nanosecond duration is the exact difference. -/
theorem C54_ns (a b : Timespec) (ha : a.Valid) (hb : b.Valid) : duration 1 a b = .ok (b.exact - a.exact) := by
  simp only [duration, tvTime_ns ha, tvTime_ns hb, Res.bind_ok]
  obtain ⟨h1, h2, h3, h4⟩ := ha
  obtain ⟨g1, g2, g3, g4⟩ := hb
  unfold long; rw [if_pos (by simp only [Timespec.exact]; omega)]

/-- **C54** For all valid times `a ≤ b ≤ c`: durations are defined (no overflow), not negative and additive, in both units, and the microsecond duration is within one microsecond of the exact one. -/
theorem C54_durations (a b c : Timespec) (ha : a.Valid) (hb : b.Valid) (hc : c.Valid) (hab : a.exact ≤ b.exact) :
    (∃ d, duration 1000 a b = .ok d ∧ 0 ≤ d ∧ -1000 < 1000 * d - (b.exact - a.exact) ∧ 1000 * d - (b.exact - a.exact) < 1000) ∧
    (∃ d, duration 1 a b = .ok d ∧ 0 ≤ d) ∧
    ∀ scale, scale = 1 ∨ scale = 1000 → ∃ x y z, duration scale a b = .ok x ∧ duration scale b c = .ok y ∧ duration scale a c = .ok z ∧ z = x + y := by
  have us : ∀ p q : Timespec, p.Valid → q.Valid → duration 1000 p q = .ok (q.exact / 1000 - p.exact / 1000) := by
    intro p q hp hq
    simp only [duration, tvTime_us hp, tvTime_us hq, Res.bind_ok]
    obtain ⟨h1, h2, h3, h4⟩ := hp
    obtain ⟨g1, g2, g3, g4⟩ := hq
    unfold long; rw [if_pos (by simp only [Timespec.exact]; omega)]
  refine ⟨⟨_, us a b ha hb, by omega, by omega, by omega⟩, ⟨_, C54_ns a b ha hb, by omega⟩, ?_⟩
  rintro scale (rfl | rfl)
  · exact ⟨_, _, _, C54_ns a b ha hb, C54_ns b c hb hc, C54_ns a c ha hc, by omega⟩
  · exact ⟨_, _, _, us a b ha hb, us b c hb hc, us a c ha hc, by omega⟩

/-- Non-vacuity: a start and a stop across a second boundary. -/
example : (⟨5, 999999999⟩ : Timespec).Valid ∧ (⟨7, 1⟩ : Timespec).Valid ∧ duration 1000 ⟨5, 999999999⟩ ⟨7, 1⟩ = .ok 1000001 ∧ duration 1 ⟨5, 999999999⟩ ⟨7, 1⟩ = .ok 1000000002 := by
  refine ⟨?_, ?_, by decide +kernel, by decide +kernel⟩ <;> (unfold Timespec.Valid; decide)

/-- The bound on the time is needed: after the year 2262 the nanosecond time overflows. -/
theorem C54_overflow : duration 1 ⟨9223372037, 0⟩ ⟨9223372037, 0⟩ = .ub := by decide +kernel

end Arax.Timer
