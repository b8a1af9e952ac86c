import Verif.StagingStats

/-!
# C58: the histograms

The counters of a staging buffer are what they are said to be; the histogram of the sizes found
by `peek` is accessed within its bounds; the average in `getHistograms` divides by zero for a
buffer whose thread has never been in the slow path.
-/

namespace NanoLog

/-- Is space granted in this state? -/
def PPc.granted : PPc → Bool
  | .reserved .. => true
  | _ => false

/-- Calls of `reserveProducerSpace`. -/
def requests : List (Act × Nat) → Nat
  | [] => 0
  | (.reserve _, _) :: as => requests as + 1
  | _ :: as => requests as

/-- The requests that are not granted at once but later, in the loop of `reserveSpaceInternal`,
with the cycles they took. -/
def lateGrants (mm : MemModel) (N : Nat) : List (Act × Nat) → SB → List Nat
  | [], _ => []
  | (a, dt) :: as, s =>
    match s.act mm N a with
    | none => []
    | some s1 =>
      if !s.pc.granted && s1.pc.granted && a == .pstep then dt :: lateGrants mm N as s1
      else lateGrants mm N as s1

/-- The request under way is in the loop. -/
def PPc.looping : PPc → Nat
  | .loop _ | .loaded .. | .wrapping .. => 1
  | _ => 0

/-- The requests granted at once. -/
def fastGrants (mm : MemModel) (N : Nat) : List (Act × Nat) → SB → Nat
  | [], _ => 0
  | (a, _) :: as, s =>
    match s.act mm N a with
    | none => 0
    | some s1 =>
      (if !s.pc.granted && s1.pc.granted && a != .pstep then 1 else 0) + fastGrants mm N as s1

theorem leaves_iff {mm : MemModel} {N : Nat} {s s1 : SB} (h : s.act mm N .pstep = some s1) :
    (!s.pc.granted && s1.pc.granted) = s.leaves N := by
  simp only [SB.act] at h
  unfold SB.leaves
  split at h
  · rename_i n hp
    rw [hp]
    split at h <;> cases h <;> simp only [PPc.granted] <;> simp <;> omega
  · rename_i n c hp
    rw [hp]
    split at h
    · rename_i hc
      split at h <;> cases h <;> simp only [PPc.granted] <;> simp [hc] <;> omega
    · rename_i hc
      cases h
      simp [PPc.granted, hc]
  · rename_i n c hp
    rw [hp]
    split at h <;> cases h <;> simp [PPc.granted]
  · cases h

theorem storeApply_pc (s : SB) (w : Store) : (s.apply w).pc = s.pc := by cases w <;> rfl

/-- The counters of a buffer after `k` requests, the slow ones of which took `ds` cycles: class
`i` of the distribution counts those of `i * ten` up to `(i + 1) * ten` cycles, the last class
also the longer ones. -/
structure PCounted (record : Bool) (ten k : Nat) (ds : List Nat) (st : PStats) : Prop where
  allocs : st.allocs = k % 2 ^ 64
  blocked : st.blocked = ds.length % 2 ^ 32
  len : st.dist.length = 20
  cycles : record = true → st.cycles = ds.sum % 2 ^ 64
  dist : record = true → ∀ (i v : Nat), st.dist[i]? = some v →
    v = (ds.filter fun d => decide (i * ten ≤ d ∧ (d < (i + 1) * ten ∨ i = 19))).length % 2 ^ 32

theorem class_iff {ten d i : Nat} (ht : 0 < ten) (hi : i < 20) :
    min (d / ten) 19 = i ↔ i * ten ≤ d ∧ (d < (i + 1) * ten ∨ i = 19) := by
  rw [← Nat.le_div_iff_mul_le ht, ← Nat.div_lt_iff_lt_mul ht]
  omega

theorem slow_counted {record : Bool} {ten k dt : Nat} {ds : List Nat} {st : PStats}
    (ht : record = true → 0 < ten) (h : PCounted record ten k ds st) :
    ∃ st', st.slow record ten dt = some st' ∧ PCounted record ten k (ds ++ [dt]) st' := by
  unfold PStats.slow
  cases record with
  | false =>
    refine ⟨_, rfl, h.allocs, ?_, h.len, by simp, by simp⟩
    simp only [h.blocked, List.length_append, List.length_singleton]; omega
  | true =>
    have ht := ht rfl
    have hidx : min (dt / ten) (20 - 1) < st.dist.length := by rw [h.len]; omega
    obtain ⟨v, hv⟩ : ∃ v, st.dist[min (dt / ten) (20 - 1)]? = some v :=
      ⟨_, List.getElem?_eq_getElem hidx⟩
    simp only [if_true, if_neg (Nat.pos_iff_ne_zero.1 ht), hv]
    refine ⟨_, rfl, h.allocs, ?_, by simp [h.len], ?_, ?_⟩
    · simp only [h.blocked, List.length_append, List.length_singleton]; omega
    · intro hr
      simp only [h.cycles hr, List.sum_append, List.sum_singleton]; omega
    · intro hr i w hw
      simp only at hw
      have hi : i < 20 := by
        have := List.getElem?_eq_some_iff.1 hw
        obtain ⟨h1, -⟩ := this
        simpa [h.len] using h1
      rw [List.filter_append, List.length_append]
      rw [List.getElem?_set] at hw
      by_cases he : min (dt / ten) (20 - 1) = i
      · rw [if_pos he, if_pos (by rw [h.len]; omega)] at hw
        have hc := (class_iff (d := dt) ht hi).1 he
        rw [he] at hv
        have := h.dist hr i v hv
        simp only [Option.some.injEq] at hw
        rw [← hw, this]
        simp [hc]
      · rw [if_neg he] at hw
        have hc : ¬ (i * ten ≤ dt ∧ (dt < (i + 1) * ten ∨ i = 19)) := fun hc =>
          he ((class_iff (d := dt) ht hi).2 hc)
        rw [h.dist hr i w hw]
        simp [hc]

/-- **C58**: with a nonzero `cyclesIn10Ns` the counters are updated without undefined behaviour:
"Allocations" is the number of requests, "Times Blocked" the number of those granted in the
loop, and the distribution sorts these by the cycles they took. -/
theorem C58_counts {record : Bool} {ten N : Nat} {mm : MemModel} (ht : record = true → 0 < ten)
    {as : List (Act × Nat)} {s : SB} {o : Option PStats}
    (h : PStats.run record ten mm N as (SB.init N) PStats.init = some (s, o)) :
    ∃ st, o = some st ∧ PCounted record ten (requests as) (lateGrants mm N as (SB.init N)) st := by
  have key : ∀ (as : List (Act × Nat)) (s0 : SB) (st0 : PStats) (k : Nat) (ds : List Nat),
      PCounted record ten k ds st0 → PStats.run record ten mm N as s0 st0 = some (s, o) →
      ∃ st, o = some st ∧
        PCounted record ten (k + requests as) (ds ++ lateGrants mm N as s0) st := by
    intro as
    induction as with
    | nil =>
      intro s0 st0 k ds hc hr
      simp only [PStats.run, Option.some.injEq, Prod.mk.injEq] at hr
      exact ⟨st0, hr.2.symm, by simpa [requests, lateGrants] using hc⟩
    | cons x as ih =>
      intro s0 st0 k ds hc hr
      obtain ⟨a, dt⟩ := x
      simp only [PStats.run] at hr
      split at hr
      · cases hr
      rename_i s1 ha
      by_cases hp : a = .pstep
      · subst hp
        have hl := leaves_iff ha
        simp only [PStats.step] at hr
        simp only [lateGrants, ha, hl, requests]
        cases hv : s0.leaves N with
        | false =>
          rw [hv] at hr
          simp only [Bool.false_eq_true, if_false] at hr
          simpa using ih s1 st0 k ds hc hr
        | true =>
          rw [hv] at hr
          obtain ⟨st', e1, e2⟩ := slow_counted (dt := dt) ht hc
          simp only [if_true, e1] at hr
          obtain ⟨st, f1, f2⟩ := ih s1 st' k _ e2 hr
          exact ⟨st, f1, by simpa using f2⟩
      · have hb : (a == .pstep) = false := by simpa using hp
        simp only [lateGrants, ha, hb, Bool.and_false, Bool.false_eq_true, if_false]
        cases a
        case reserve n =>
          simp only [PStats.step] at hr
          obtain ⟨st, f1, f2⟩ := ih s1 { st0 with allocs := (st0.allocs + 1) % 2 ^ 64 } (k + 1) ds
            ⟨by simp only [hc.allocs]; omega, hc.blocked, hc.len, hc.cycles, hc.dist⟩ hr
          refine ⟨st, f1, ?_⟩
          rw [requests, Nat.add_comm (requests as), ← Nat.add_assoc]
          exact f2
        case pstep => exact absurd rfl hp
        all_goals
          simp only [PStats.step] at hr
          simpa [requests] using ih s1 st0 k ds hc hr
  have h0 : PCounted record ten 0 [] PStats.init := by
    refine ⟨rfl, rfl, rfl, fun _ => rfl, ?_⟩
    intro _ i v hv
    simp only [PStats.init, List.getElem?_replicate] at hv
    split at hv <;> simp at hv
    simpa using hv.symm
  simpa using key as (SB.init N) PStats.init 0 [] h0 h

/-- **C58**: every request was granted at once, or in the loop, or is in the loop now. -/
theorem C58_grants {record : Bool} {ten N : Nat} {mm : MemModel} {as : List (Act × Nat)}
    {s : SB} {st : PStats}
    (h : PStats.run record ten mm N as (SB.init N) PStats.init = some (s, some st)) :
    requests as = fastGrants mm N as (SB.init N) + (lateGrants mm N as (SB.init N)).length +
      s.pc.looping := by
  have key : ∀ (as : List (Act × Nat)) (s0 : SB) (st0 : PStats),
      PStats.run record ten mm N as s0 st0 = some (s, some st) →
      requests as + s0.pc.looping =
        fastGrants mm N as s0 + (lateGrants mm N as s0).length + s.pc.looping := by
    intro as
    induction as with
    | nil =>
      intro s0 st0 hr
      simp only [PStats.run, Option.some.injEq, Prod.mk.injEq] at hr
      simp [requests, fastGrants, lateGrants, hr.1]
    | cons x as ih =>
      intro s0 st0 hr
      obtain ⟨a, dt⟩ := x
      simp only [PStats.run] at hr
      split at hr
      · cases hr
      rename_i s1 ha
      split at hr
      · simp at hr
      rename_i st1 hst
      have h1 := ih s1 st1 hr
      simp only [fastGrants, lateGrants, ha]
      cases a
      case reserve n =>
        simp only [SB.act] at ha
        split at ha
        · rename_i hp
          split at ha <;> cases ha
          · simp [requests, hp, PPc.granted, PPc.looping] at h1 ⊢; omega
          · simp [requests, hp, PPc.granted, PPc.looping] at h1 ⊢; omega
        · cases ha
      case pstep =>
        simp only [SB.act] at ha
        split at ha
        · rename_i n hp
          split at ha <;> cases ha <;>
            simp [requests, hp, PPc.granted, PPc.looping] at h1 ⊢ <;> omega
        · rename_i n c hp
          split at ha
          · split at ha <;> cases ha <;>
              simp [requests, hp, PPc.granted, PPc.looping] at h1 ⊢ <;> omega
          · cases ha
            simp [requests, hp, PPc.granted, PPc.looping] at h1 ⊢; omega
        · rename_i n c hp
          split at ha <;> cases ha <;>
            simp [requests, hp, PPc.granted, PPc.looping] at h1 ⊢ <;> omega
        · cases ha
      all_goals
        simp only [SB.act] at ha
        repeat' split at ha
        all_goals first
          | (cases ha; done)
          | (cases ha; simp_all [requests, PPc.granted, PPc.looping, storeApply_pc]; done)
          | (cases ha; simp_all [requests, PPc.granted, PPc.looping, storeApply_pc]; omega)
  simpa [SB.init, PPc.looping] using key as _ _ h

/-- **C58**: recording the size of a nonempty `peek` stays within the array of 20 classes, and
class `i` counts the sizes from `i` to `i + 1` twentieths of the buffer. -/
theorem C58_peek {mm : MemModel} {N : Nat} {s : SB} (h0 : 0 < N) (hN : N < 2 ^ 32)
    (h : SB.Reachable mm N s) {avail : Nat} {view : Nat → Option Byte}
    (hc : s.cc = .holding avail view) {dist : List Nat} (hd : dist.length = 20) :
    ∃ i v, i * N ≤ 20 * avail ∧ 20 * avail < (i + 1) * N ∧ dist[i]? = some v ∧
      recordPeek N avail dist = some (dist.set i ((v + 1) % 2 ^ 64)) := by
  have ha := C10_below_capacity h0 (by omega) h hc
  have hm : 20 * avail % 2 ^ 64 = 20 * avail := Nat.mod_eq_of_lt (by omega)
  have hi : 20 * avail / N < 20 := by
    rw [Nat.div_lt_iff_lt_mul h0]; omega
  obtain ⟨v, hv⟩ : ∃ v, dist[20 * avail / N]? = some v :=
    ⟨_, List.getElem?_eq_getElem (by omega)⟩
  refine ⟨20 * avail / N, v, Nat.div_mul_le_self _ _, ?_, hv, ?_⟩
  · have := Nat.lt_mul_div_succ (20 * avail) h0
    rw [Nat.mul_comm N] at this; exact this
  · simp only [recordPeek, hm, hv]

/-- **C58**, in part: the average of `getHistograms` is defined for a buffer with fewer than 2^32
requests one of which was granted in the loop. -/
theorem C58_average_partial {ten N : Nat} {mm : MemModel} (ht : 0 < ten) {as : List (Act × Nat)}
    {s : SB} {o : Option PStats}
    (h : PStats.run true ten mm N as (SB.init N) PStats.init = some (s, o))
    (hl : lateGrants mm N as (SB.init N) ≠ []) (hn : requests as < 2 ^ 32) (ns : Nat → Nat) :
    ∃ st a, o = some st ∧ st.average ns = some a := by
  obtain ⟨st, rfl, hc⟩ := C58_counts (fun _ => ht) h
  have hg := C58_grants h
  have hb : st.blocked ≠ 0 := by
    rw [hc.blocked, Nat.mod_eq_of_lt (by omega)]
    intro h
    exact hl (List.length_eq_zero_iff.1 h)
  exact ⟨st, _, rfl, by rw [PStats.average, if_neg hb]⟩

/-! ## Examples -/

/-- A message of 3 bytes in a buffer of 8, and its consumption. -/
def exFill : List (Act × Nat) :=
  [.reserve 3, .put 0 1, .put 1 2, .put 2 3, .finish 3].map fun a => (a, 0)

/-- All stores of the message reach memory; the consumer takes it. -/
def exDrain : List (Act × Nat) :=
  [.commit 0, .commit 0, .commit 0, .commit 0, .commit 0, .peek, .cstep, .look 0, .look 1, .look 2,
    .consume 3, .commitC, .release].map fun a => (a, 0)

/-- Two messages are logged and consumed; the third request finds an empty buffer with only 2
bytes to the end and goes through the loop once. -/
def exSlow : List (Act × Nat) :=
  exFill ++ exDrain ++ exFill ++ exDrain ++ [(.reserve 3, 0), (.pstep, 10), (.pstep, 20), (.pstep, 30)]
    ++ [(.pstep, 47)]

/-- Test of a run. -/
def exStagingCheck (record : Bool) (ten : Nat) (as : List (Act × Nat))
    (p : SB → Option PStats → Bool) : Bool :=
  match PStats.run record ten .tso 8 as (SB.init 8) PStats.init with
  | some (s, o) => p s o
  | none => false

theorem exStagingRun {record : Bool} {ten : Nat} {as : List (Act × Nat)}
    {p : SB → Option PStats → Bool} (h : exStagingCheck record ten as p = true) :
    ∃ s o, PStats.run record ten .tso 8 as (SB.init 8) PStats.init = some (s, o) ∧ p s o = true := by
  unfold exStagingCheck at h
  split at h
  · rename_i s o hr; exact ⟨s, o, hr, h⟩
  · cases h

/-- The counters of the example: three requests, one in the loop, which took 47 cycles, class 4
of 10 cycles each. -/
example : ∃ s o, PStats.run true 10 .tso 8 exSlow (SB.init 8) PStats.init = some (s, o) ∧
    o = some ⟨47, 1, 3, [0, 0, 0, 0, 1, 0, 0, 0, 0, 0, 0, 0, 0, 0, 0, 0, 0, 0, 0, 0]⟩ ∧
    requests exSlow = 3 ∧ lateGrants .tso 8 exSlow (SB.init 8) = [47] := by
  obtain ⟨s, o, h, hp⟩ := exStagingRun (record := true) (ten := 10) (as := exSlow)
    (p := fun _ o => o = some ⟨47, 1, 3, [0, 0, 0, 0, 1, 0, 0, 0, 0, 0, 0, 0, 0, 0, 0, 0, 0, 0, 0, 0]⟩)
    (by decide +kernel)
  exact ⟨s, o, h, by simpa using hp, by decide +kernel, by decide +kernel⟩

/-- The consumer holds 3 of 8 bytes: class 7. -/
example : ∃ s view, SB.Reachable .tso 8 s ∧ s.cc = .holding 3 view ∧
    recordPeek 8 3 (List.replicate 20 0) = some ((List.replicate 20 0).set 7 1) := by
  have h : (match SB.run .tso 8 ((exFill ++ exDrain.take 7).map Prod.fst) (SB.init 8) with
    | some s => (match s.cc with | .holding 3 _ => true | _ => false)
    | none => false) = true := by decide +kernel
  split at h
  · rename_i s hs
    split at h
    · rename_i view hc
      exact ⟨s, view, ⟨_, hs⟩, hc, by decide +kernel⟩
    · cases h
  · cases h

/-- Not true: that `getHistograms` never divides by zero.  A thread has logged one message, which
was granted at once: `numTimesProducerBlocked` is 0, and with `RECORD_PRODUCER_STATS` the average
is computed all the same. -/
theorem C58_average_false : ∃ (N ten : Nat) (as : List (Act × Nat)) (s : SB) (st : PStats),
    0 < ten ∧ PStats.run true ten .tso N as (SB.init N) PStats.init = some (s, some st) ∧
    s.pub ≠ [] ∧ ∀ ns, st.average ns = none := by
  obtain ⟨s, o, h, hp⟩ := exStagingRun (record := true) (ten := 10) (as := exFill)
    (p := fun s o => s.pub == [1, 2, 3] && o == some ⟨0, 0, 1, List.replicate 20 0⟩) (by decide +kernel)
  simp only [Bool.and_eq_true, beq_iff_eq] at hp
  obtain ⟨hp, rfl⟩ := hp
  exact ⟨8, 10, exFill, s, _, by decide, h, by rw [hp]; simp, fun ns => rfl⟩

/-- Not true: that "Times Blocked" counts only requests that had to wait for the consumer.  The
buffer is empty when the request is made, the request is less than half of the buffer, and the
producer gets the space after its own four steps; it is counted. -/
theorem C58_blocked_false : ∃ (N n : Nat) (as bs : List (Act × Nat)) (s1 s2 : SB) (st1 st2 : PStats),
    2 * n < N ∧
    PStats.run false 0 .tso N as (SB.init N) PStats.init = some (s1, some st1) ∧
    s1.got = s1.pub ∧ s1.memC = s1.memP ∧ st1.blocked = 0 ∧
    (∀ x ∈ bs, x.1 = .reserve n ∨ x.1 = .pstep) ∧
    PStats.run false 0 .tso N bs s1 st1 = some (s2, some st2) ∧ st2.blocked = 1 := by
  have h : (match PStats.run false 0 .tso 8 (exFill ++ exDrain ++ exFill ++ exDrain) (SB.init 8)
      PStats.init with
    | some (s1, some st1) => s1.got == s1.pub && s1.memC == s1.memP && st1.blocked == 0 &&
      (match PStats.run false 0 .tso 8 [(.reserve 3, 0), (.pstep, 0), (.pstep, 0), (.pstep, 0), (.pstep, 0)]
        s1 st1 with
      | some (_, some st2) => st2.blocked == 1
      | _ => false)
    | _ => false) = true := by decide +kernel
  split at h
  · rename_i s1 st1 h1
    simp only [Bool.and_eq_true, beq_iff_eq] at h
    obtain ⟨⟨⟨e1, e2⟩, e3⟩, h⟩ := h
    split at h
    · rename_i s2 st2 h2
      refine ⟨8, 3, _, _, s1, s2, st1, st2, by decide, h1, e1, e2, e3, ?_, h2, by simpa using h⟩
      simp
    · cases h
  · cases h

/-- Not true: that the counters are updated without undefined behaviour on every clock.
`cyclesIn10Ns` is rounded to 0 for a clock below 50 MHz (runtime/Cycles.cc:201-207). -/
theorem C58_clock_false : ∃ (N : Nat) (as : List (Act × Nat)) (s : SB),
    PStats.run true 0 .tso N as (SB.init N) PStats.init = some (s, none) := by
  obtain ⟨s, o, h, hp⟩ := exStagingRun (record := true) (ten := 0) (as := exSlow)
    (p := fun _ o => o == none) (by decide +kernel)
  simp only [beq_iff_eq] at hp
  subst hp
  exact ⟨8, exSlow, s, h⟩

end NanoLog
