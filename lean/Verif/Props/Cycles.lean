import Verif.Cycles
import Mathlib.Algebra.Order.Floor.Ring
import Mathlib.Tactic.Positivity

/-!
# C62: the clock

Calibration of the time stamp counter, conversions between cycles and times, busy waiting.
-/

namespace NanoLog

/-! ## Calibration -/

/-- When the two clocks were read, in seconds of real time. -/
structure Instant where
  g : ℚ
  r : ℚ

/-- The clocks: `gettimeofday` has a resolution of one microsecond, the counter runs with the frequency `f` (zero at
time zero); between the two readings there are at most `D` seconds. -/
structure ClockShows (f D : ℚ) (t : Instant) (a : Reading) : Prop where
  pos : 0 ≤ t.g
  order : t.g ≤ t.r
  delay : t.r ≤ t.g + D
  us : a.us = ⌊10 ^ 6 * t.g⌋
  tsc : a.tsc = ⌊f * t.r⌋₊
  range : a.tsc < 2 ^ 64
  date : a.us < 2 ^ 64

/-- Error of one estimate. -/
theorem ratio_error {f D : ℚ} (hf : 0 < f) {s t : Instant} {a b : Reading} (ha : ClockShows f D s a) (hb : ClockShows f D t b)
    (hst : s.r ≤ t.g) (hm : 10000 < microsOf a b) : |ratioOf a b - f| < 100 * (1 + f * (D + 1 / 10 ^ 6)) := by
  have hgg : s.g ≤ t.g := le_trans ha.order hst
  have hus : a.us ≤ b.us := by rw [ha.us, hb.us]; exact Int.floor_le_floor (by linarith)
  have hus0 : 0 ≤ a.us := by rw [ha.us]; exact Int.floor_nonneg.2 (by have := ha.pos; positivity)
  have hrr : s.r ≤ t.r := le_trans hst hb.order
  have htsc : a.tsc ≤ b.tsc := by
    rw [ha.tsc, hb.tsc]; exact Nat.floor_le_floor (by nlinarith)
  have hM : (microsOf a b : ℚ) = (⌊10 ^ 6 * t.g⌋ : ℚ) - ⌊10 ^ 6 * s.g⌋ := by
    unfold microsOf
    have h1 := hb.date
    rw [Int.emod_eq_of_lt (by omega) (by omega)]
    have : (((b.us - a.us).toNat : Int) : ℚ) = ((b.us - a.us : Int) : ℚ) := by
      rw [Int.toNat_of_nonneg (by omega)]
    rw [← ha.us, ← hb.us]
    push_cast at this
    exact_mod_cast this
  have hC : (cyclesOf a b : ℚ) = (⌊f * t.r⌋₊ : ℚ) - ⌊f * s.r⌋₊ := by
    unfold cyclesOf
    have h1 := hb.range
    rw [show b.tsc + 2 ^ 64 - a.tsc = (b.tsc - a.tsc) + 2 ^ 64 by omega, Nat.add_mod_right,
      Nat.mod_eq_of_lt (by omega), Nat.cast_sub htsc, ← ha.tsc, ← hb.tsc]
  have hs0 : 0 ≤ s.r := le_trans ha.pos ha.order
  have f1 := Int.floor_le (10 ^ 6 * t.g)
  have f2 := Int.lt_floor_add_one (10 ^ 6 * t.g)
  have f3 := Int.floor_le (10 ^ 6 * s.g)
  have f4 := Int.lt_floor_add_one (10 ^ 6 * s.g)
  have f5 := Nat.floor_le (show 0 ≤ f * t.r by have : 0 ≤ t.r := by linarith
                                               positivity)
  have f6 := Nat.lt_floor_add_one (f * t.r)
  have f7 := Nat.floor_le (show 0 ≤ f * s.r by positivity)
  have f8 := Nat.lt_floor_add_one (f * s.r)
  have hm' : (10000 : ℚ) < microsOf a b := by exact_mod_cast hm
  have d1 := ha.delay
  have d2 := hb.delay
  have d3 := ha.order
  have d4 := hb.order
  have hD : 0 ≤ D := by linarith
  -- the number of cycles against the microseconds
  have key : |(cyclesOf a b : ℚ) - f * microsOf a b / 10 ^ 6| < 1 + f * (D + 1 / 10 ^ 6) := by
    rw [hC, hM, abs_lt]
    generalize (⌊10 ^ 6 * t.g⌋ : ℚ) = x at *
    generalize (⌊10 ^ 6 * s.g⌋ : ℚ) = y at *
    generalize (⌊f * t.r⌋₊ : ℚ) = u at *
    generalize (⌊f * s.r⌋₊ : ℚ) = v at *
    have e1 : f * (x - y) / 10 ^ 6 < f * (t.g - s.g + 1 / 10 ^ 6) := by
      rw [mul_div_assoc]
      exact mul_lt_mul_of_pos_left (by linarith) hf
    have e2 : f * (t.g - s.g - 1 / 10 ^ 6) < f * (x - y) / 10 ^ 6 := by
      rw [mul_div_assoc]
      exact mul_lt_mul_of_pos_left (by linarith) hf
    have e3 : f * (t.r - s.r) ≤ f * (t.g - s.g + D) := mul_le_mul_of_nonneg_left (by linarith) hf.le
    have e4 : f * (t.g - s.g - D) ≤ f * (t.r - s.r) := mul_le_mul_of_nonneg_left (by linarith) hf.le
    constructor <;> linarith
  have hpos : (0 : ℚ) < microsOf a b := by linarith
  have e : ratioOf a b - f = 10 ^ 6 / microsOf a b * ((cyclesOf a b : ℚ) - f * microsOf a b / 10 ^ 6) := by
    unfold ratioOf
    field_simp
  rw [e, abs_mul, abs_of_pos (by positivity)]
  have h100 : (10 : ℚ) ^ 6 / microsOf a b < 100 := by
    rw [div_lt_iff₀ hpos]; linarith
  have hp : 0 < 1 + f * (D + 1 / 10 ^ 6) := by positivity
  calc (10 : ℚ) ^ 6 / microsOf a b * |(cyclesOf a b : ℚ) - f * microsOf a b / 10 ^ 6|
      ≤ 10 ^ 6 / microsOf a b * (1 + f * (D + 1 / 10 ^ 6)) := mul_le_mul_of_nonneg_left key.le (by positivity)
    _ < 100 * (1 + f * (D + 1 / 10 ^ 6)) := mul_lt_mul_of_pos_right h100 hp

theorem measureLoop_spec {a b : Reading} {rs rs' : List Reading} (h : measureLoop a rs = some (b, rs')) :
    10000 < microsOf a b ∧ ∃ pre, rs = pre ++ b :: rs' := by
  induction rs with
  | nil => cases h
  | cons x rs ih =>
    rw [measureLoop] at h
    split at h
    · cases h; exact ⟨by assumption, [], rfl⟩
    · obtain ⟨h1, pre, h2⟩ := ih h
      exact ⟨h1, x :: pre, by rw [h2]; rfl⟩

/-- The readings in the order in which they are made. -/
structure Timeline (f D : ℚ) (ts : List Instant) (rs : List Reading) : Prop where
  shown : List.Forall₂ (ClockShows f D) ts rs
  order : ts.Pairwise fun s t => s.r ≤ t.g

theorem Timeline.tail {f D : ℚ} {ts : List Instant} {pre rs : List Reading} (h : Timeline f D ts (pre ++ rs)) :
    ∃ ts1 ts2, ts = ts1 ++ ts2 ∧ Timeline f D ts2 rs := by
  obtain ⟨h1, h2⟩ := h
  induction pre generalizing ts with
  | nil => exact ⟨[], ts, rfl, h1, h2⟩
  | cons x pre ih =>
    cases h1 with
    | cons hx ht =>
      obtain ⟨a, b, rfl, h⟩ := ih ht (List.pairwise_cons.1 h2).2
      exact ⟨_ :: a, b, rfl, h⟩

theorem calibrateLoop_last {f D : ℚ} (hf : 0 < f) (fuel : Nat) (old : ℚ) (ts : List Instant) (rs : List Reading)
    (h : Timeline f D ts rs) {vals : List ℚ} (hc : calibrateLoop fuel old rs = (vals, true)) :
    ∃ c, vals.getLast? = some c ∧ |c - f| < 100 * (1 + f * (D + 1 / 10 ^ 6)) := by
  induction fuel generalizing old ts rs vals with
  | zero => cases hc
  | succ fuel ih =>
    cases rs with
    | nil => cases hc
    | cons a rs =>
      rw [calibrateLoop] at hc
      cases hm : measureLoop a rs with
      | none => rw [hm] at hc; cases hc
      | some p =>
        obtain ⟨b, rs'⟩ := p
        rw [hm] at hc
        simp only at hc
        obtain ⟨m1, pre, m2⟩ := measureLoop_spec hm
        obtain ⟨hs, ho⟩ := h
        cases hs with
        | @cons s _ ts _ ha ht =>
          subst m2
          obtain ⟨ts1, ts2, rfl, h2⟩ := Timeline.tail ⟨ht, (List.pairwise_cons.1 ho).2⟩
          have hs2 := h2.shown
          cases hs2 with
          | @cons t _ ts2 _ hb ht2 =>
            have hord : s.r ≤ t.g := (List.pairwise_cons.1 ho).1 t (by simp)
            have herr := ratio_error hf ha hb hord m1
            split at hc
            · cases hc
              exact ⟨_, rfl, herr⟩
            · have hb2 : (calibrateLoop fuel (ratioOf a b) rs').2 = true := congrArg Prod.snd hc
              obtain ⟨c, h3, h4⟩ := ih (ratioOf a b) ts2 rs' ⟨ht2, (List.pairwise_cons.1 h2.order).2⟩
                (vals := (calibrateLoop fuel (ratioOf a b) rs').1) (by rw [← hb2])
              refine ⟨c, ?_, h4⟩
              have : vals = (cyclesOf a b : ℚ) :: ratioOf a b :: (calibrateLoop fuel (ratioOf a b) rs').1 :=
                (congrArg Prod.fst hc).symm
              rw [this, List.getLast?_cons, List.getLast?_cons, h3]
              rfl

/-- Full claim (comment in runtime/Cycles.cc:59-60): the measured frequency differs from that of the counter by at most
0.001%.  That is false (`C62_drift_false`).  Proved: the frequency found once `Cycles::init` is complete differs by
less than `100 * (1 + f * (D + 10^-6))` cycles per second, that is about 0.01% plus 0.01% for each microsecond between the
readings of the two clocks. -/
theorem C62_calibration_partial {f D : ℚ} (hf : 0 < f) {ts : List Instant} {rs : List Reading} (h : Timeline f D ts rs)
    {v : ℚ} (hv : SeenBy rs true v) : |v - f| < 100 * (1 + f * (D + 1 / 10 ^ 6)) := by
  cases hv with
  | @done vals _ h1 h2 =>
    unfold calibrate at h1
    have hb : (calibrateLoop rs.length 0 rs).2 = true := congrArg Prod.snd h1
    obtain ⟨c, h3, h4⟩ := calibrateLoop_last hf rs.length 0 ts rs h
      (vals := (calibrateLoop rs.length 0 rs).1) (by rw [← hb])
    have : vals = 0 :: (calibrateLoop rs.length 0 rs).1 := (congrArg Prod.fst h1).symm
    rw [this, List.getLast?_cons, h3] at h2
    simp only [Option.getD_some, Option.some.injEq] at h2
    rw [← h2]; exact h4

theorem calibrateLoop_agree (fuel : Nat) (old : ℚ) (rs : List Reading) {vals : List ℚ}
    (hc : calibrateLoop fuel old rs = (vals, true)) :
    ∃ pre x raw v, old :: vals = pre ++ [x, raw, v] ∧ |x - v| < v / 100000 := by
  induction fuel generalizing old rs vals with
  | zero => simp [calibrateLoop] at hc
  | succ fuel ih =>
    cases rs with
    | nil => simp [calibrateLoop] at hc
    | cons a rs =>
      simp only [calibrateLoop] at hc
      split at hc
      · simp at hc
      · rename_i b rs' _
        split at hc
        · rename_i h
          have hv : vals = [(cyclesOf a b : ℚ), ratioOf a b] := (congrArg Prod.fst hc).symm
          refine ⟨[], old, cyclesOf a b, ratioOf a b, by rw [hv]; rfl, ?_⟩
          rw [abs_lt]
          obtain ⟨h1, h2⟩ := h
          constructor <;> linarith
        · have hb : (calibrateLoop fuel (ratioOf a b) rs').2 = true := congrArg Prod.snd hc
          obtain ⟨pre, x, raw, v, h1, h2⟩ := ih (ratioOf a b) rs'
            (vals := (calibrateLoop fuel (ratioOf a b) rs').1) (by rw [← hb])
          have hv : vals = (cyclesOf a b : ℚ) :: ratioOf a b :: (calibrateLoop fuel (ratioOf a b) rs').1 :=
            (congrArg Prod.fst hc).symm
          exact ⟨old :: (cyclesOf a b : ℚ) :: pre, x, raw, v, by rw [hv, h1]; rfl, h2⟩

/-- When `Cycles::init` returns, the last two estimates (the values stored last and third to last, since each estimate
is stored in two steps) are within 0.001% of each other, runtime/Cycles.cc:59-60.  In particular it has measured twice, and
the result is positive. -/
theorem C62_agree {rs : List Reading} {vals : List ℚ} (h : calibrate rs = (vals, true)) :
    ∃ pre old raw v, vals = pre ++ [old, raw, v] ∧ 0 < v ∧ |old - v| < v / 100000 := by
  unfold calibrate at h
  have hb : (calibrateLoop rs.length 0 rs).2 = true := congrArg Prod.snd h
  obtain ⟨pre, x, raw, v, h1, h2⟩ := calibrateLoop_agree rs.length 0 rs
    (vals := (calibrateLoop rs.length 0 rs).1) (by rw [← hb])
  have h3 := abs_nonneg (x - v)
  exact ⟨pre, x, raw, v, by rw [← h1]; exact (congrArg Prod.fst h).symm, by linarith, h2⟩

/-- Readings without any delay; the microseconds shown are the same as those of a slower counter. -/
def exReadings : List Reading := [⟨0, 0⟩, ⟨10001, 10001900⟩, ⟨20000, 20000000⟩, ⟨30001, 30001900⟩]

/-- When they were made. -/
def exInstants : List Instant :=
  [⟨0, 0⟩, ⟨100019 / 10 ^ 7, 100019 / 10 ^ 7⟩, ⟨1 / 50, 1 / 50⟩, ⟨300019 / 10 ^ 7, 300019 / 10 ^ 7⟩]

theorem exTimeline : Timeline (10 ^ 9) 0 exInstants exReadings := by
  constructor
  · refine .cons ?_ (.cons ?_ (.cons ?_ (.cons ?_ .nil))) <;>
      constructor <;> norm_num [Int.floor_eq_iff, Nat.floor_eq_iff, eq_comm]
  · unfold exInstants
    simp only [List.pairwise_cons, List.mem_cons, List.not_mem_nil, or_false, forall_eq_or_imp, forall_eq,
      List.Pairwise.nil, and_true, false_imp_iff, implies_true]
    norm_num

theorem exCalibrate : calibrate exReadings =
    ([0, 10001900, 10 ^ 6 * 10001900 / 10001, 10001900, 10 ^ 6 * 10001900 / 10001], true) := by
  have e1 : microsOf ⟨0, 0⟩ ⟨10001, 10001900⟩ = 10001 := by decide
  have e2 : cyclesOf ⟨0, 0⟩ ⟨10001, 10001900⟩ = 10001900 := by decide
  have e3 : microsOf ⟨20000, 20000000⟩ ⟨30001, 30001900⟩ = 10001 := by decide
  have e4 : cyclesOf ⟨20000, 20000000⟩ ⟨30001, 30001900⟩ = 10001900 := by decide
  have n1 : ¬ closeTo 0 (10 ^ 6 * 10001900 / 10001) := by unfold closeTo; norm_num
  have n2 : closeTo (10 ^ 6 * 10001900 / 10001) (10 ^ 6 * 10001900 / 10001) := by unfold closeTo; norm_num
  simp only [calibrate, exReadings, List.length_cons, List.length_nil, calibrateLoop, measureLoop, e1, e3,
    show 10000 < 10001 from by decide, if_true, ratioOf, e2, e4, Nat.cast_ofNat, n1, n2, if_false]

/-- Case for `C62_agree`. -/
example : ∃ pre old raw v, (calibrate exReadings).1 = pre ++ [old, raw, v] ∧ 0 < v ∧ |old - v| < v / 100000 :=
  C62_agree (by rw [exCalibrate])

/-- The claim of 0.001% fails without any interruption: the resolution of `gettimeofday` is enough.  The error is nine
times as large, in both successive measurements. -/
theorem C62_drift_false : ∃ ts rs v, Timeline (10 ^ 9) 0 ts rs ∧ SeenBy rs true v ∧
    (10 : ℚ) ^ 9 * 8 / 100000 < |v - 10 ^ 9| :=
  ⟨_, _, _, exTimeline, .done exCalibrate rfl, by rw [lt_abs]; left; norm_num⟩

/-- If the background thread writes its first checkpoint while `Cycles::init` runs, the frequency in it can be the
number of cycles of one interval: in the same readings, a message logged one second after the checkpoint is printed 99
seconds after it. -/
theorem C62_race_false : ∃ ts rs v, Timeline (10 ^ 9) 0 ts rs ∧ SeenBy rs false v ∧
    ∃ ns, msgTime (10 ^ 9) (5 + 10 ^ 9) 5 1600000000 v = some (1600000099, ns) := by
  refine ⟨_, _, 10001900, exTimeline, .early (by rw [exCalibrate]; simp), ?_⟩
  have e : ITy.i64.cast (ITy.u64.cast (((5 + 10 ^ 9 : Nat) : Int) - (5 : Nat))) = 10 ^ 9 := by decide
  have e2 : toSeconds (10 ^ 9) (10 ^ 9 : Int) 10001900 = 10 ^ 9 / 10001900 := by
    unfold toSeconds; rw [if_neg (by norm_num)]; norm_num
  have e3 : truncI64 (10 ^ 9 / 10001900) = some 99 := by
    have h0 : (0 : ℚ) ≤ 10 ^ 9 / 10001900 := by norm_num
    have h1 : ⌊(10 ^ 9 / 10001900 : ℚ)⌋ = 99 := by rw [Int.floor_eq_iff]; norm_num
    simp only [truncI64, h0, h1, if_true]
    decide
  simp only [msgTime, e, e2, e3]
  norm_num [bind, Option.bind]

/-! ## Conversions -/

/-- A value that fits is rounded to the nearest integer. -/
theorem trunc_round {x : ℚ} (h0 : 0 ≤ x) (h1 : x + 1 / 2 < 2 ^ 64) :
    ∃ n, truncU64 (x + 1 / 2) = some n ∧ |(n : ℚ) - x| ≤ 1 / 2 ∧ n < 2 ^ 64 := by
  refine ⟨⌊x + 1 / 2⌋₊, ?_, ?_, ?_⟩
  · unfold truncU64; rw [if_pos ⟨by linarith, h1⟩]
  · have a := Nat.floor_le (show 0 ≤ x + 1 / 2 by linarith)
    have b := Nat.lt_floor_add_one (x + 1 / 2)
    rw [abs_le]
    constructor <;> linarith
  · have a := Nat.floor_le (show 0 ≤ x + 1 / 2 by linarith)
    have : ((⌊x + 1 / 2⌋₊ : Nat) : ℚ) < ((2 ^ 64 : Nat) : ℚ) := by push_cast; linarith
    exact_mod_cast this

theorem cpsOf_pos {own cps : ℚ} (ho : 0 < own) (hc : 0 ≤ cps) : 0 < cpsOf own cps := by
  unfold cpsOf
  split
  · exact ho
  · exact lt_of_le_of_ne hc (Ne.symm ‹_›)

/-- The frequency that counts: the one given, or that of this machine if none (zero) is given. -/
def rate (own cps : ℚ) : ℚ := if cps ≠ 0 then cps else own

theorem cpsOf_rate (own cps : ℚ) : cpsOf own cps = rate own cps := by
  unfold cpsOf rate; split <;> simp_all

/-- **C62** `toNanoseconds` and `fromNanoseconds` and `fromSeconds` round to the nearest integer if the result fits. -/
theorem C62_round {own cps : ℚ} (ho : 0 < own) (hc : 0 ≤ cps) :
    (∀ cycles : Nat, 10 ^ 9 * cycles / rate own cps + 1 / 2 < 2 ^ 64 →
      ∃ n, cyToNanos own cycles cps = some n ∧ |(n : ℚ) - 10 ^ 9 * cycles / rate own cps| ≤ 1 / 2) ∧
    (∀ ns : Nat, ns * rate own cps / 10 ^ 9 + 1 / 2 < 2 ^ 64 →
      ∃ n, cyFromNanos own ns cps = some n ∧ |(n : ℚ) - ns * rate own cps / 10 ^ 9| ≤ 1 / 2) ∧
    (∀ secs : ℚ, 0 ≤ secs → secs * rate own cps + 1 / 2 < 2 ^ 64 →
      ∃ n, cyFromSeconds own secs cps = some n ∧ |(n : ℚ) - secs * rate own cps| ≤ 1 / 2) := by
  simp only [← cpsOf_rate] at *
  have hp := cpsOf_pos ho hc
  refine ⟨fun c h => ?_, fun ns h => ?_, fun x h0 h => ?_⟩
  · obtain ⟨n, h1, h2, -⟩ := trunc_round (by positivity) h
    exact ⟨n, by unfold cyToNanos; rw [if_neg hp.ne']; exact h1, h2⟩
  · obtain ⟨n, h1, h2, -⟩ := trunc_round (by positivity) h
    exact ⟨n, h1, h2⟩
  · obtain ⟨n, h1, h2, -⟩ := trunc_round (by positivity) h
    exact ⟨n, h1, h2⟩

/-- A result that does not fit is undefined behaviour (584 years). -/
theorem C62_overflow_false {own cps : ℚ} (h0 : 0 < cps) {cycles : Nat} (h : 2 ^ 64 * cps ≤ 10 ^ 9 * cycles) :
    cyToNanos own cycles cps = none ∧ cyToMicros own cycles cps = none := by
  have e : cpsOf own cps = cps := by unfold cpsOf; rw [if_neg h0.ne']
  have h1 : cyToNanos own cycles cps = none := by
    unfold cyToNanos truncU64
    rw [e, if_neg h0.ne', if_neg]
    rintro ⟨-, hx⟩
    have : (2 : ℚ) ^ 64 ≤ 10 ^ 9 * cycles / cps := by rw [le_div_iff₀ h0]; exact h
    linarith
  exact ⟨h1, by unfold cyToMicros; rw [h1]; rfl⟩

/-- Full claim (comment in runtime/Cycles.cc:158): `toMicroseconds` gives the rounded number of microseconds.  That is
false (`C62_micros_false`).  Proved: the result is less than one microsecond below, and at most half a nanosecond above
the exact value. -/
theorem C62_micros_partial {own cps : ℚ} (ho : 0 < own) (hc : 0 ≤ cps) (cycles : Nat)
    (h : 10 ^ 9 * cycles / rate own cps + 1 / 2 < 2 ^ 64) :
    ∃ n, cyToMicros own cycles cps = some n ∧ 10 ^ 6 * cycles / rate own cps - 1 < n ∧
      n ≤ 10 ^ 6 * cycles / rate own cps + 1 / 2000 := by
  simp only [← cpsOf_rate] at *
  have hround := C62_round ho hc
  simp only [← cpsOf_rate] at hround
  obtain ⟨n, h1, h2⟩ := hround.1 cycles h
  refine ⟨n / 1000, by unfold cyToMicros; rw [h1]; rfl, ?_, ?_⟩
  all_goals
    rw [abs_le] at h2
    have e : (10 : ℚ) ^ 6 * cycles / cpsOf own cps = (10 ^ 9 * cycles / cpsOf own cps) / 1000 := by ring
    rw [e]
    have hd : n = 1000 * (n / 1000) + n % 1000 := (Nat.div_add_mod n 1000).symm
    have hq : (n : ℚ) = 1000 * ((n / 1000 : Nat) : ℚ) + ((n % 1000 : Nat) : ℚ) := by exact_mod_cast hd
    have hr : ((n % 1000 : Nat) : ℚ) ≤ 999 := by
      have := Nat.mod_lt n (show 1000 > 0 by decide)
      have h999 : n % 1000 ≤ 999 := by omega
      exact_mod_cast h999
    have hr0 : (0 : ℚ) ≤ ((n % 1000 : Nat) : ℚ) := Nat.cast_nonneg _
  · linarith [h2.1, h2.2]
  · linarith [h2.1, h2.2]

/-- 1.999 microseconds are reported as 1. -/
theorem C62_micros_false : cyToMicros 1 1999 (10 ^ 9) = some 1 ∧ |(2 : ℚ) - 10 ^ 6 * 1999 / 10 ^ 9| < |1 - 10 ^ 6 * 1999 / 10 ^ 9| := by
  constructor
  · have e : cpsOf 1 (10 ^ 9) = 10 ^ 9 := by unfold cpsOf; rw [if_neg (by norm_num)]
    have e2 : cyToNanos 1 1999 (10 ^ 9) = some 1999 := by
      unfold cyToNanos truncU64
      rw [e, if_neg (by norm_num), if_pos (by norm_num)]
      congr 1
      rw [Nat.floor_eq_iff (by norm_num)]
      norm_num
    unfold cyToMicros
    rw [e2]; rfl
  · rw [abs_of_pos (by norm_num), abs_of_neg (by norm_num)]; norm_num

/-- **C62** A number of nanoseconds is recovered exactly from the cycles if the counter is faster than one gigahertz. -/
theorem C62_roundtrip_partial {own cps : ℚ} (ho : 0 < own) (hc : 0 ≤ cps) (hg : 10 ^ 9 < rate own cps) {ns : Nat} (hns : ns < 2 ^ 64)
    {c : Nat} (h : cyFromNanos own ns cps = some c) : cyToNanos own c cps = some ns := by
  simp only [← cpsOf_rate] at *
  have hround := C62_round ho hc
  simp only [← cpsOf_rate] at hround
  have hp := cpsOf_pos ho hc
  have hfit : ns * cpsOf own cps / 10 ^ 9 + 1 / 2 < 2 ^ 64 := by
    unfold cyFromNanos truncU64 at h
    split at h
    · rename_i hx; exact hx.2
    · cases h
  obtain ⟨c', h1, h2⟩ := hround.2.1 ns hfit
  rw [h] at h1
  cases h1
  unfold cyToNanos truncU64
  rw [if_neg hp.ne']
  generalize cpsOf own cps = f at *
  have e : |10 ^ 9 * (c : ℚ) / f - ns| < 1 / 2 := by
    have : 10 ^ 9 * (c : ℚ) / f - ns = (10 ^ 9 / f) * (c - ns * f / 10 ^ 9) := by field_simp
    rw [this, abs_mul, abs_of_pos (by positivity)]
    have h3 : (10 : ℚ) ^ 9 / f < 1 := by rw [div_lt_one hp]; exact hg
    have h4 : (0 : ℚ) < 10 ^ 9 / f := by positivity
    calc (10 : ℚ) ^ 9 / f * |(c : ℚ) - ns * f / 10 ^ 9| ≤ 10 ^ 9 / f * (1 / 2) :=
          mul_le_mul_of_nonneg_left h2 h4.le
      _ < 1 / 2 := by linarith
  rw [abs_lt] at e
  have hle : (ns : ℚ) + 1 ≤ 2 ^ 64 := by
    have : ns + 1 ≤ 2 ^ 64 := by omega
    exact_mod_cast this
  have h0 : (0 : ℚ) ≤ 10 ^ 9 * c / f := by positivity
  rw [if_pos ⟨by linarith, by linarith [e.2]⟩]
  congr 1
  rw [Nat.floor_eq_iff (by linarith)]
  constructor <;> linarith [e.1, e.2]

/-- For slower counters it is not: one nanosecond at 100 megahertz is no cycle at all. -/
theorem C62_roundtrip_false : cyFromNanos 1 1 (10 ^ 8) = some 0 ∧ cyToNanos 1 0 (10 ^ 8) = some 0 := by
  have e : cpsOf 1 (10 ^ 8) = 10 ^ 8 := by unfold cpsOf; rw [if_neg (by norm_num)]
  constructor
  · unfold cyFromNanos truncU64
    rw [e, if_pos (by norm_num)]
    congr 1
    rw [Nat.floor_eq_iff (by norm_num)]
    norm_num
  · unfold cyToNanos truncU64
    rw [e, if_neg (by norm_num), if_pos (by norm_num)]
    congr 1
    rw [Nat.floor_eq_iff (by norm_num)]
    norm_num

/-! ## Busy waiting -/

theorem sleepLoop_spec {stop t : Nat} {ts : List Nat} (h : sleepLoop stop ts = some t) :
    stop ≤ t ∧ ∃ pre post, ts = pre ++ t :: post ∧ ∀ x ∈ pre, x < stop := by
  induction ts with
  | nil => cases h
  | cons x ts ih =>
    rw [sleepLoop] at h
    split at h
    · rename_i hx
      obtain ⟨h1, pre, post, rfl, h2⟩ := ih h
      refine ⟨h1, x :: pre, post, rfl, ?_⟩
      intro y hy
      rcases List.mem_cons.1 hy with rfl | hy
      · exact hx
      · exact h2 y hy
    · rename_i hx
      cases h
      exact ⟨by omega, [], ts, rfl, by simp⟩

theorem sleepLoop_some {stop : Nat} {ts : List Nat} (h : ∃ t ∈ ts, stop ≤ t) : ∃ t, sleepLoop stop ts = some t := by
  induction ts with
  | nil => obtain ⟨t, ht, -⟩ := h; cases ht
  | cons x ts ih =>
    rw [sleepLoop]
    split
    · rename_i hx
      obtain ⟨t, ht, hs⟩ := h
      rcases List.mem_cons.1 ht with rfl | ht
      · omega
      · exact ih ⟨t, ht, hs⟩
    · exact ⟨x, rfl⟩

/-- **C62** `sleep`: if the numbers do not overflow, the call returns as soon as the counter shows that `us` microseconds
have passed (up to half a cycle), and not before. -/
theorem C62_sleep_partial {own : ℚ} (ho : 0 < own) {us t0 : Nat} {ts : List Nat} (hus : 1000 * us < 2 ^ 64)
    (hfit : t0 + us * own / 10 ^ 6 + 1 / 2 < 2 ^ 64) :
    (∀ a b, cySleep own us (t0 :: ts) = some (a, b) → a = t0 ∧
      ((b : ℚ) - t0) / own ≥ us / 10 ^ 6 - 1 / (2 * own) ∧
      ∃ pre post, ts = pre ++ b :: post ∧ ∀ x ∈ pre, ((x : ℚ) - t0) / own < us / 10 ^ 6 + 1 / (2 * own)) ∧
    ((∃ t ∈ ts, ((t : ℚ) - t0) / own ≥ us / 10 ^ 6 + 1 / (2 * own)) → ∃ r, cySleep own us (t0 :: ts) = some r) := by
  have e0 : rate own 0 = own := by unfold rate; rw [if_neg (by simp)]
  have hx : ((1000 * us : Nat) : ℚ) * own / 10 ^ 9 = us * own / 10 ^ 6 := by push_cast; ring
  have ht0 : (0 : ℚ) ≤ t0 := Nat.cast_nonneg _
  obtain ⟨d, h1, h2⟩ := (C62_round ho (le_refl (0 : ℚ))).2.1 (1000 * us) (by rw [e0, hx]; linarith)
  rw [e0, hx, abs_le] at h2
  have hd : t0 + d < 2 ^ 64 := by
    have : ((t0 + d : Nat) : ℚ) < ((2 ^ 64 : Nat) : ℚ) := by push_cast; linarith [h2.2]
    exact_mod_cast this
  have key : ∀ ts, cySleep own us (t0 :: ts) = (sleepLoop (t0 + d) ts).map fun t => (t0, t) := by
    intro ts
    simp only [cySleep, Nat.mod_eq_of_lt hus, h1, Nat.mod_eq_of_lt hd]
  have q1 : (us : ℚ) / 10 ^ 6 - 1 / (2 * own) = (us * own / 10 ^ 6 - 1 / 2) / own := by field_simp
  have q2 : (us : ℚ) / 10 ^ 6 + 1 / (2 * own) = (us * own / 10 ^ 6 + 1 / 2) / own := by field_simp
  rw [key]
  refine ⟨fun a b h => ?_, ?_⟩
  · cases hs : sleepLoop (t0 + d) ts with
    | none => rw [hs] at h; cases h
    | some t =>
      rw [hs] at h
      cases h
      obtain ⟨g1, pre, post, g2, g3⟩ := sleepLoop_spec hs
      refine ⟨rfl, ?_, pre, post, g2, fun x hxp => ?_⟩
      · rw [q1, ge_iff_le]
        have : ((t0 + d : Nat) : ℚ) ≤ b := by exact_mod_cast g1
        push_cast at this
        exact div_le_div_of_nonneg_right (by linarith [h2.1]) ho.le
      · rw [q2]
        have : (x : ℚ) < ((t0 + d : Nat) : ℚ) := by exact_mod_cast g3 x hxp
        push_cast at this
        exact div_lt_div_of_pos_right (by linarith [h2.2]) ho
  · rintro ⟨t, ht, hge⟩
    rw [q2, ge_iff_le, div_le_div_iff_of_pos_right ho] at hge
    obtain ⟨t', h'⟩ := sleepLoop_some (stop := t0 + d) ⟨t, ht, by
      have : ((t0 + d : Nat) : ℚ) ≤ t := by push_cast; linarith [h2.2]
      exact_mod_cast this⟩
    exact ⟨_, by rw [h']; rfl⟩

/-- With overflow the call returns at once: 2^64 / 1000 microseconds (585000 years) are 384 nanoseconds. -/
theorem C62_sleep_false : cySleep (10 ^ 9) 18446744073709552 [5, 389] = some (5, 389) := by
  have e0 : cpsOf (10 ^ 9) 0 = 10 ^ 9 := by unfold cpsOf; rw [if_pos rfl]
  have e1 : cyFromNanos (10 ^ 9) 384 0 = some 384 := by
    unfold cyFromNanos truncU64
    rw [e0, if_pos (by norm_num)]
    congr 1
    rw [Nat.floor_eq_iff (by norm_num)]
    norm_num
  have e2 : 1000 * 18446744073709552 % 2 ^ 64 = 384 := by decide
  simp only [cySleep, e2, e1]
  decide

/-! ## Examples -/

/-- `C62_calibration_partial`: a counter of one gigahertz. -/
example : ∃ v, SeenBy exReadings true v ∧ |v - 10 ^ 9| < 100 * (1 + 10 ^ 9 * (0 + 1 / 10 ^ 6)) :=
  ⟨_, .done exCalibrate rfl, C62_calibration_partial (by norm_num) exTimeline (.done exCalibrate rfl)⟩

/-- Conversions at 2.4 gigahertz, and waiting three microseconds. -/
example : (0 : ℚ) < 24 * 10 ^ 8 ∧ (10 : ℚ) ^ 9 * (12345 : Nat) / rate 1 (24 * 10 ^ 8) + 1 / 2 < 2 ^ 64 ∧
    (10 : ℚ) ^ 9 < rate 1 (24 * 10 ^ 8) ∧ (∃ c, cyFromNanos 1 1000 (24 * 10 ^ 8) = some c) ∧
    ((7 : Nat) : ℚ) + (3 : Nat) * (24 * 10 ^ 8) / 10 ^ 6 + 1 / 2 < 2 ^ 64 ∧
    (2 : ℚ) ^ 64 * 100 ≤ 10 ^ 9 * ((2 ^ 50 : Nat) : ℚ) := by
  have e : rate 1 (24 * 10 ^ 8) = 24 * 10 ^ 8 := by unfold rate; rw [if_pos (by norm_num)]
  refine ⟨by norm_num, by rw [e]; norm_num, by rw [e]; norm_num, ?_, by norm_num, by norm_num⟩
  obtain ⟨c, h, -⟩ := (C62_round (own := 1) (cps := 24 * 10 ^ 8) (by norm_num) (by norm_num)).2.1 1000
    (by rw [e]; norm_num)
  exact ⟨c, h⟩

end NanoLog
