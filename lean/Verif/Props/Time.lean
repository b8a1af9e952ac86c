import Verif.Time

/-!
# C42: wall-clock time of a message
-/

namespace NanoLog

/-- Specification: the time of a message, in seconds since the epoch, from the time stamps of
the message and of the checkpoint, the time of the checkpoint and the clock frequency. -/
def exactTime (ts ckTs : Nat) (unixTime : Int) (cps : ℚ) : ℚ :=
  unixTime + ((ts : ℚ) - ckTs) / cps

theorem truncI64_pos {x : ℚ} (h0 : 0 ≤ x) (h1 : x < 2 ^ 62) :
    truncI64 x = some ⌊x⌋ ∧ ⌊x⌋ < 2 ^ 62 ∧ 0 ≤ ⌊x⌋ := by
  have hl : 0 ≤ ⌊x⌋ := Int.floor_nonneg.2 h0
  have hu : ⌊x⌋ < 2 ^ 62 := Int.floor_lt.2 (by push_cast; exact h1)
  refine ⟨?_, hu, hl⟩
  unfold truncI64
  rw [if_pos h0, if_pos (by omega)]

theorem truncI64_neg {x : ℚ} (h0 : x < 0) (h1 : -2 ^ 62 < x) :
    truncI64 x = some ⌈x⌉ ∧ -2 ^ 62 < ⌈x⌉ ∧ ⌈x⌉ ≤ 0 := by
  have hl : -2 ^ 62 < ⌈x⌉ := Int.lt_ceil.2 (by push_cast; exact h1)
  have hu : ⌈x⌉ ≤ 0 := Int.ceil_le.2 (by push_cast; exact le_of_lt h0)
  refine ⟨?_, hl, hu⟩
  unfold truncI64
  rw [if_neg (not_le.2 h0), if_pos (by omega)]

theorem diff_cast {ts ckTs : Nat} (h : ((ts : Int) - ckTs).natAbs < 2 ^ 63) :
    ITy.i64.cast (ITy.u64.cast ((ts : Int) - ckTs)) = (ts : Int) - ckTs := by
  simp only [ITy.cast, ITy.signed, ITy.bytes, if_true, Bool.false_eq_true, if_false]
  omega

/-- C42 (values before printing).  If the time stamps are less than `2^63` cycles apart and the
times are representable, the seconds and nanoseconds computed for a message denote exactly the
time of the message, with the nanoseconds in `[0, 10^9)`; also if the message is older than the
checkpoint. -/
theorem C42_time (own cps : ℚ) (ts ckTs : Nat) (unixTime : Int) (hc : 0 < cps)
    (hd : ((ts : Int) - ckTs).natAbs < 2 ^ 63)
    (hs : |((ts : ℚ) - ckTs) / cps| < 2 ^ 62) (hu : unixTime.natAbs < 2 ^ 62) :
    ∃ sec nanos, msgTime own ts ckTs unixTime cps = some (sec, nanos)
      ∧ 0 ≤ nanos ∧ nanos < 10 ^ 9
      ∧ (sec : ℚ) + nanos / 10 ^ 9 = exactTime ts ckTs unixTime cps := by
  have hsec : toSeconds own (ITy.i64.cast (ITy.u64.cast ((ts : Int) - ckTs))) cps
      = ((ts : ℚ) - ckTs) / cps := by
    rw [diff_cast hd, toSeconds, if_neg (ne_of_gt hc)]
    push_cast
    rfl
  unfold msgTime exactTime
  rw [hsec]
  generalize hx : ((ts : ℚ) - ckTs) / cps = x at *
  rw [abs_lt] at hs
  rcases lt_or_ge x 0 with h0 | h0
  · obtain ⟨e, hl, hh⟩ := truncI64_neg h0 hs.1
    have hle : x ≤ ⌈x⌉ := Int.le_ceil x
    have hlt : (⌈x⌉ : ℚ) < x + 1 := Int.ceil_lt_add_one x
    simp only [e, Option.bind_eq_bind, Option.bind_some]
    rcases lt_or_eq_of_le hle with h1 | h1
    · rw [if_pos (by linarith), if_neg (by omega), if_pos (by omega)]
      refine ⟨_, _, rfl, by linarith, by linarith, ?_⟩
      push_cast
      ring
    · rw [if_neg (by linarith), if_pos (by omega)]
      refine ⟨_, _, rfl, by linarith, by linarith, ?_⟩
      push_cast
      ring
  · obtain ⟨e, hl, hh⟩ := truncI64_pos h0 hs.2
    have hle : (⌊x⌋ : ℚ) ≤ x := Int.floor_le x
    have hlt : x < ⌊x⌋ + 1 := Int.lt_floor_add_one x
    simp only [e, Option.bind_eq_bind, Option.bind_some]
    rw [if_neg (by linarith), if_pos (by omega)]
    refine ⟨_, _, rfl, by linarith, by linarith, ?_⟩
    push_cast
    ring

/-- A message seven cycles before the checkpoint, at 4 Hz: 1.75 s earlier. -/
example : ∃ sec nanos, msgTime 1 93 100 1500000000 4 = some (sec, nanos)
    ∧ 0 ≤ nanos ∧ nanos < 10 ^ 9 ∧ (sec : ℚ) + nanos / 10 ^ 9 = 1500000000 - 7 / 4 := by
  obtain ⟨s, n, h1, h2, h3, h4⟩ := C42_time 1 4 93 100 1500000000 (by norm_num) (by decide)
    (by norm_num) (by decide)
  refine ⟨s, n, h1, h2, h3, ?_⟩
  rw [h4, exactTime]
  norm_num

theorem roundEven_close (x : ℚ) : |(roundEven x : ℚ) - x| ≤ 1 / 2 := by
  have h1 : (⌊x⌋ : ℚ) ≤ x := Int.floor_le x
  have h2 : x < ⌊x⌋ + 1 := Int.lt_floor_add_one x
  unfold roundEven
  dsimp only
  rw [abs_le]
  split
  · constructor <;> linarith
  · split
    · push_cast; constructor <;> linarith
    · split
      · constructor <;> linarith
      · push_cast; constructor <;> linarith

/-- C42 (partial): the nanoseconds as printed are those of `C42_time` rounded to the nearest
integer, so the printed time is at most half a nanosecond off, and the printed number has at
most nine digits if the exact nanoseconds are below 999999999.5.  Missing: the digits are
wrong above that bound (`C42_rounding_false`); time stamps `2^63` cycles apart
(`C42_far_false`); rounding in `double` arithmetic is not modelled. -/
theorem C42_printed_partial (own cps : ℚ) (ts ckTs : Nat) (unixTime : Int) (hc : 0 < cps)
    (hd : ((ts : Int) - ckTs).natAbs < 2 ^ 63)
    (hs : |((ts : ℚ) - ckTs) / cps| < 2 ^ 62) (hu : unixTime.natAbs < 2 ^ 62) :
    ∃ sec nanos, msgTime own ts ckTs unixTime cps = some (sec, nanos)
      ∧ |(sec : ℚ) + roundEven nanos / 10 ^ 9 - exactTime ts ckTs unixTime cps| ≤ 1 / (2 * 10 ^ 9)
      ∧ 0 ≤ roundEven nanos
      ∧ (nanos < 10 ^ 9 - 1 / 2 → roundEven nanos < 10 ^ 9) := by
  obtain ⟨s, n, h1, h2, h3, h4⟩ := C42_time own cps ts ckTs unixTime hc hd hs hu
  have hr := roundEven_close n
  rw [abs_le] at hr
  refine ⟨s, n, h1, ?_, ?_, ?_⟩
  · rw [← h4, abs_le]
    constructor <;> linarith [hr.1, hr.2]
  · have : (-1 : ℚ) < roundEven n := by linarith [hr.1]
    have h5 : (-1 : Int) < roundEven n := by exact_mod_cast this
    omega
  · intro hn
    have : (roundEven n : ℚ) < 10 ^ 9 := by linarith [hr.2]
    exact_mod_cast this

example : ∃ sec nanos, msgTime 1 5 100 1500000000 (10 ^ 9) = some (sec, nanos)
    ∧ |(sec : ℚ) + roundEven nanos / 10 ^ 9 - (1500000000 - 95 / 10 ^ 9)| ≤ 1 / (2 * 10 ^ 9) := by
  obtain ⟨s, n, h1, h2, _, _⟩ := C42_printed_partial 1 (10 ^ 9) 5 100 1500000000 (by norm_num)
    (by decide) (by rw [abs_lt]; constructor <;> norm_num) (by decide)
  refine ⟨s, n, h1, ?_⟩
  have : exactTime 5 100 1500000000 (10 ^ 9) = 1500000000 - 95 / 10 ^ 9 := by
    rw [exactTime]; norm_num
  rwa [this] at h2

/-- At a frequency of 4 GHz, a message 3999999999 cycles after the checkpoint is printed with
nanoseconds `1000000000` (ten digits) and the seconds of the checkpoint. -/
theorem C42_rounding_false : ∃ nanos, msgTime 1 3999999999 0 1500000000 (4 * 10 ^ 9)
      = some (1500000000, nanos) ∧ roundEven nanos = 10 ^ 9 := by
  have hs : toSeconds 1 (ITy.i64.cast (ITy.u64.cast (((3999999999 : Nat) : Int) - (0 : Nat))))
      (4 * 10 ^ 9) = 3999999999 / 4000000000 := by
    rw [diff_cast (by decide), toSeconds, if_neg (by norm_num)]
    norm_num
  have hf : ⌊(3999999999 / 4000000000 : ℚ)⌋ = 0 := by
    rw [Int.floor_eq_iff]; constructor <;> norm_num
  obtain ⟨ht, _, _⟩ := truncI64_pos (x := 3999999999 / 4000000000) (by norm_num) (by norm_num)
  rw [hf] at ht
  refine ⟨999999999 + 3 / 4, ?_, ?_⟩
  · unfold msgTime
    rw [hs]
    simp only [ht, Option.bind_eq_bind, Option.bind_some]
    rw [if_neg (by norm_num), if_pos (by norm_num)]
    norm_num
  · have hf2 : ⌊(999999999 + 3 / 4 : ℚ)⌋ = 999999999 := by
      rw [Int.floor_eq_iff]; constructor <;> norm_num
    unfold roundEven
    rw [hf2]
    dsimp only
    rw [if_neg (by norm_num), if_pos (by norm_num)]
    norm_num

/-- Time stamps `2^63` cycles apart: a message later than the checkpoint gets an earlier time. -/
theorem C42_far_false : ∃ sec nanos, msgTime 1 (2 ^ 63) 0 0 (2 ^ 32) = some (sec, nanos)
    ∧ sec = -2 ^ 31 ∧ 0 < exactTime (2 ^ 63) 0 0 (2 ^ 32) := by
  have hc : ITy.i64.cast (ITy.u64.cast (((2 ^ 63 : Nat) : Int) - (0 : Nat))) = -2 ^ 63 := by decide
  have hs : toSeconds 1 (-2 ^ 63) (2 ^ 32) = ((-2 ^ 31 : Int) : ℚ) := by
    rw [toSeconds, if_neg (by norm_num)]
    norm_num
  obtain ⟨ht, _, _⟩ := truncI64_neg (x := ((-2 ^ 31 : Int) : ℚ)) (by norm_num) (by norm_num)
  rw [Int.ceil_intCast] at ht
  refine ⟨-2 ^ 31, 0, ?_, rfl, ?_⟩
  · unfold msgTime
    rw [hc, hs]
    simp only [ht, Option.bind_eq_bind, Option.bind_some]
    norm_num
  · rw [exactTime]; norm_num

end NanoLog
