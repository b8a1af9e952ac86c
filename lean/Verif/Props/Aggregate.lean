import Verif.Aggregate

/-!
# C47: aggregation over the first argument
-/

namespace NanoLog

/-! ## Specification -/

/-- The first argument of a message, read as an `int`, if there is one of at least four bytes
(a wider value is truncated). -/
def Deliv.first? (d : Deliv) : Option Int :=
  match d.args with
  | (some bs, _) :: _ => if 4 ≤ bs.length then some (ITy.i32.cast (unle (bs.take 4))) else none
  | _ => none

/-- The message is one a decoder can deliver: an id of 32 bits, values not wider than eight
bytes, not too many of them. -/
def Deliv.OK (d : Deliv) : Prop :=
  d.id < 2 ^ 31 ∧ d.args.length ≤ 10 * 2 ^ 27 ∧ ∀ p ∈ d.args, ∀ bs, p.1 = some bs → bs.length ≤ 8

/-- `r` is the aggregation of the values `vs` (in any order) out of `n` messages. -/
structure Aggregates (vs : List Int) (n : Nat) (r : Report) : Prop where
  logs : r.logs = n
  matching : r.matching = vs.length
  min_mem : r.min ∈ vs
  min_le : ∀ v ∈ vs, r.min ≤ v
  max_mem : r.max ∈ vs
  le_max : ∀ v ∈ vs, v ≤ r.max
  total : r.total = vs.sum
  /-- Truncated mean: the quotient rounded towards zero. -/
  mean : r.total.natAbs / vs.length = r.mean.natAbs ∧ (0 ≤ r.total → 0 ≤ r.mean) ∧ (r.total ≤ 0 → r.mean ≤ 0)

/-! ## Proof -/

theorem ops_held (d : Deliv) (vs : List (Option (List Byte))) :
    held vs d.ops = d.args.map Prod.fst := by
  have key : ∀ (l : List (Option (List Byte) × Junk)) (vs : List (Option (List Byte))),
      held vs (l.map argOp) = vs ++ l.map Prod.fst := by
    intro l
    induction l with
    | nil => intro vs; simp [held]
    | cons p l ih =>
      intro vs
      obtain ⟨_ | bs, j⟩ := p <;> simp [held, argOp, ih]
  simp only [Deliv.ops, held, key, List.nil_append]

theorem ops_heading (d : Deliv) (h : Option Nat × Nat × Nat) :
    heading h d.ops = (some d.m, d.id, d.ts) := by
  have key : ∀ (l : List (Option (List Byte) × Junk)) h,
      heading h (l.map argOp) = h := by
    intro l
    induction l with
    | nil => intro h; rfl
    | cons p l ih =>
      intro h
      obtain ⟨_ | bs, j⟩ := p <;> exact ih h
  exact key _ _

theorem ops_peak (d : Deliv) (n : Nat) : peak n d.ops = max n d.args.length := by
  have key : ∀ (l : List (Option (List Byte) × Junk)) n,
      peak n (l.map argOp) = n + l.length := by
    intro l
    induction l with
    | nil => intro h; rfl
    | cons p l ih =>
      intro n
      obtain ⟨_ | bs, j⟩ := p <;> (simp only [List.map_cons, argOp, peak, ih, List.length_cons]; omega)
  simp only [Deliv.ops, peak, key, Nat.zero_add]

theorem ops_ok {d : Deliv} (h : d.OK) : ∀ o ∈ d.ops, o.OK := by
  intro o ho
  simp only [Deliv.ops, List.mem_cons, List.mem_map] at ho
  rcases ho with rfl | ⟨⟨v, j⟩, hp, rfl⟩
  · trivial
  · cases v with
    | none => trivial
    | some bs => exact h.2.2 _ hp bs rfl

/-- Filling the container with one message. -/
theorem fill_ok {s : LogMsg} {vs : List (Option (List Byte))} (h : MsgInv s vs)
    (hl : vs.length ≤ 10 * 2 ^ 27) {d : Deliv} (hd : d.OK) :
    ∃ s', s.run d.ops = some s' ∧ MsgInv s' (d.args.map Prod.fst) ∧ s'.id = d.id := by
  obtain ⟨s', e, i, hh⟩ := msgInv_run d.ops h (ops_ok hd) (by
    rw [ops_peak]; exact Nat.max_le.2 ⟨hl, hd.2.1⟩)
  rw [ops_held] at i
  rw [ops_heading] at hh
  exact ⟨s', e, i, (Prod.mk.inj (Prod.mk.inj hh).2).1⟩

theorem get_first {s : LogMsg} {d : Deliv} (i : MsgInv s (d.args.map Prod.fst)) {v : Int}
    (h : d.first? = some v) : ∃ bs, s.get 4 0 = some bs ∧ ITy.i32.cast (unle bs) = v := by
  unfold Deliv.first? at h
  split at h
  · rename_i bs j l hl
    split at h
    · rename_i h4
      obtain rfl := Option.some.inj h
      have hi : (d.args.map Prod.fst)[0]? = some (some bs) := by rw [hl]; rfl
      obtain ⟨b, hb, hp⟩ := i.val 0 bs hi
      refine ⟨bs.take 4, ?_, rfl⟩
      have hlt : 0 < s.cap := by rw [← slots_length i]; exact (List.getElem?_eq_some_iff.1 hb).1
      unfold LogMsg.get
      rw [if_neg (by omega), if_pos (by decide)]
      rw [LogMsg.slots, List.getElem?_append_left (by rw [i.raw]; decide)] at hb
      rw [hb, Option.map_some]
      obtain ⟨t, rfl⟩ := hp
      rw [List.take_append_of_le_length h4]
    · cases h
  · cases h

/-- The accumulators summarize the values `vs` seen among `n` messages. -/
structure AggInv (a : Agg) (vs : List Int) (n : Nat) : Prop where
  logs : a.numLogs = n
  count : a.count = vs.length
  total : a.total = vs.sum
  ext : vs ≠ [] → a.min ∈ vs ∧ a.max ∈ vs ∧ ∀ v ∈ vs, a.min ≤ v ∧ v ≤ a.max

theorem sum_bound (vs : List Int) (h : ∀ v ∈ vs, ITy.i32.InRange v) :
    -(2 ^ 31 * vs.length : Int) ≤ vs.sum ∧ vs.sum ≤ 2 ^ 31 * vs.length := by
  induction vs with
  | nil => simp
  | cons v vs ih =>
    have h1 := ih fun w hw => h w (List.mem_cons_of_mem _ hw)
    have h2 := h v List.mem_cons_self
    simp only [ITy.InRange, ITy.lo, ITy.hi, ITy.signed, ITy.bytes, if_true] at h2
    simp only [List.sum_cons, List.length_cons]
    omega

theorem step_inv {a : Agg} {vs : List Int} {n : Nat} (h : AggInv a vs n) {s : LogMsg} {f : Int}
    (hr : ∀ v ∈ vs, ITy.i32.InRange v) (hn : vs.length < 2 ^ 32) {d : Deliv} (hid : s.id = d.id)
    (hd : d.id < 2 ^ 31) (i : MsgInv s (d.args.map Prod.fst)) (hm : (d.id : Int) = f → d.first?.isSome) :
    ∃ a', a.step f s = some a' ∧
      AggInv a' (vs ++ (if (d.id : Int) = f then d.first?.toList else [])) (n + 1) := by
  have hcast : ITy.i32.cast (s.id : Int) = d.id := by
    rw [hid]; apply ITy.cast_of_inRange
    simp only [ITy.InRange, ITy.lo, ITy.hi, ITy.signed, ITy.bytes, if_true]
    omega
  unfold Agg.step
  dsimp only
  rw [hcast]
  by_cases hf : (d.id : Int) = f
  · obtain ⟨v, hv⟩ := Option.isSome_iff_exists.1 (hm hf)
    obtain ⟨bs, hb, hc⟩ := get_first i hv
    have hvr : ITy.i32.InRange v := by rw [← hc]; exact ITy.cast_inRange _ _
    rw [if_neg (by simpa using hf), if_pos hf, hv, hb]
    simp only [Option.bind_eq_bind, Option.bind_some, hc, Option.toList_some]
    have hsum := sum_bound vs hr
    have hvr' := hvr
    simp only [ITy.InRange, ITy.lo, ITy.hi, ITy.signed, ITy.bytes, if_true] at hvr'
    have htot : longOf ((({ a with numLogs := a.numLogs + 1 } : Agg).extremes v).total + v)
        = some (vs.sum + v) := by
      show longOf (a.total + v) = _
      rw [h.total, longOf, if_pos (by omega)]
    have hcnt : longOf ((({ a with numLogs := a.numLogs + 1 } : Agg).extremes v).count + 1)
        = some (vs.length + 1 : Int) := by
      show longOf (a.count + 1) = _
      rw [h.count, longOf, if_pos (by omega)]
    rw [htot, hcnt]
    refine ⟨_, rfl, ⟨by simp [Agg.extremes, h.logs], by simp, by simp, fun _ => ?_⟩⟩
    have hmem : ∀ {w}, w ∈ vs → w ∈ vs ++ [v] := fun hw => List.mem_append_left _ hw
    have hself : v ∈ vs ++ [v] := List.mem_append_right _ List.mem_cons_self
    simp only [Agg.extremes]
    by_cases h0 : vs = []
    · have hc0 : a.count = 0 := by rw [h.count, h0]; rfl
      subst h0
      simp [hc0]
    · have hc0 : a.count ≠ 0 := by
        rw [h.count]
        have := List.length_pos_iff.2 h0
        omega
      obtain ⟨hmin, hmax, hall⟩ := h.ext h0
      have hmm := hall _ hmin
      simp only [hc0, if_false, gt_iff_lt]
      refine ⟨?_, ?_, ?_⟩
      · split
        · exact hself
        · exact hmem hmin
      · split
        · exact hself
        · exact hmem hmax
      · intro w hw
        simp only [List.mem_append, List.mem_singleton] at hw
        rcases hw with hw | rfl
        · have := hall w hw
          constructor <;> split <;> omega
        · constructor <;> split <;> omega
  · rw [if_pos (by simpa using hf), if_neg hf]
    exact ⟨_, rfl, ⟨by simp [h.logs], by simp [h.count], by simp [h.total], by
      simpa using h.ext⟩⟩

theorem first_inRange {d : Deliv} {v : Int} (h : d.first? = some v) : ITy.i32.InRange v := by
  unfold Deliv.first? at h
  split at h
  · split at h
    · obtain rfl := Option.some.inj h
      exact ITy.cast_inRange _ _
    · cases h
  · cases h

/-- The values the report is about: the first arguments of the messages with the id. -/
def wanted (f : Int) (ds : List Deliv) : List Int :=
  (ds.filter fun d => (d.id : Int) = f).filterMap Deliv.first?

theorem loop_cons (f : Int) (a : Agg) (s : LogMsg) (d : Deliv) (ds : List Deliv) :
    Agg.loop f a s (d :: ds)
      = (s.run d.ops).bind fun s => (a.step f s).bind fun a => Agg.loop f a s ds := rfl

theorem loop_inv (f : Int) (ds : List Deliv) : ∀ {a : Agg} {vs : List Int} {n : Nat} {s : LogMsg}
    {us : List (Option (List Byte))}, AggInv a vs n → (∀ v ∈ vs, ITy.i32.InRange v) → MsgInv s us →
    us.length ≤ 10 * 2 ^ 27 → (∀ d ∈ ds, d.OK) → (∀ d ∈ ds, (d.id : Int) = f → d.first?.isSome) →
    vs.length + ds.length ≤ 2 ^ 32 →
    ∃ a', Agg.loop f a s ds = some a' ∧ AggInv a' (vs ++ wanted f ds) (n + ds.length) := by
  induction ds with
  | nil => intro a vs n s us h _ _ _ _ _ _; exact ⟨a, rfl, by simpa [wanted] using h⟩
  | cons d ds ih =>
    intro a vs n s us h hr hs hu hok hm hlen
    rw [List.length_cons] at hlen
    have hdok := hok d List.mem_cons_self
    obtain ⟨s1, e1, i1, hid⟩ := fill_ok hs hu hdok
    obtain ⟨a1, e2, ha1⟩ := step_inv h hr (by omega) hid hdok.1 i1 (hm d List.mem_cons_self)
    have hw : wanted f (d :: ds) = (if (d.id : Int) = f then d.first?.toList else []) ++ wanted f ds := by
      unfold wanted
      by_cases hf : (d.id : Int) = f
      · rw [List.filter_cons_of_pos (by simpa using hf), if_pos hf, List.filterMap_cons]
        cases d.first? <;> rfl
      · rw [List.filter_cons_of_neg (by simpa using hf), if_neg hf, List.nil_append]
    have hle : (if (d.id : Int) = f then d.first?.toList else []).length ≤ 1 := by
      split
      · cases d.first? <;> simp
      · simp
    obtain ⟨a2, e3, ha2⟩ := ih ha1 (by
        intro v hv
        rcases List.mem_append.1 hv with hv | hv
        · exact hr v hv
        · split at hv
          · rw [Option.mem_toList] at hv; exact first_inRange hv
          · cases hv) i1 (by rw [List.length_map]; exact hdok.2.1)
      (fun d hd => hok d (List.mem_cons_of_mem _ hd)) (fun d hd => hm d (List.mem_cons_of_mem _ hd))
      (by rw [List.length_append]; omega)
    refine ⟨a2, ?_, ?_⟩
    · rw [loop_cons, e1, Option.bind_some, e2, Option.bind_some, e3]
    · rw [hw, ← List.append_assoc]
      have : n + (ds.length + 1) = n + 1 + ds.length := by omega
      rw [List.length_cons, this]
      exact ha2

/-- C47 (partial).  If at least one message has the requested id, every such message has an
integer of at least four bytes as its first argument, and there are at most `2^32` messages,
`minMaxMean` reports the minimum, the maximum, the sum and the truncated mean of the first
arguments of exactly these messages.  Missing: without a matching message the program divides
by zero (`C47_empty_false`), and a matching message without arguments contributes a value of
an earlier message (`C47_stale_false`). -/
theorem C47_aggregate_partial (f : Int) (ds : List Deliv) (hok : ∀ d ∈ ds, d.OK)
    (hm : ∀ d ∈ ds, (d.id : Int) = f → d.first?.isSome) (hlen : ds.length ≤ 2 ^ 32)
    (hex : ∃ d ∈ ds, (d.id : Int) = f) :
    ∃ r, minMaxMean f ds = some r ∧ Aggregates (wanted f ds) ds.length r := by
  have h0 : AggInv ({} : Agg) [] 0 := ⟨rfl, rfl, rfl, fun h => absurd rfl h⟩
  obtain ⟨a, e, h⟩ := loop_inv f ds h0 (fun v hv => by cases hv) msgInv_new (by simp) hok hm
    (by simpa using hlen)
  rw [List.nil_append, Nat.zero_add] at h
  have hne : wanted f ds ≠ [] := by
    obtain ⟨d, hd, hf⟩ := hex
    obtain ⟨v, hv⟩ := Option.isSome_iff_exists.1 (hm d hd hf)
    have : v ∈ wanted f ds :=
      List.mem_filterMap.2 ⟨d, List.mem_filter.2 ⟨hd, by simpa using hf⟩, hv⟩
    exact List.ne_nil_of_mem this
  have hpos := List.length_pos_iff.2 hne
  have hc : a.count ≠ 0 := by rw [h.count]; omega
  obtain ⟨hmin, hmax, hall⟩ := h.ext hne
  have hr : ∀ v ∈ wanted f ds, ITy.i32.InRange v := by
    intro v hv
    obtain ⟨d, _, hd⟩ := List.mem_filterMap.1 hv
    exact first_inRange hd
  have hwl : (wanted f ds).length ≤ 2 ^ 32 :=
    Nat.le_trans (List.length_filterMap_le _ _) (Nat.le_trans (List.length_filter_le _ _) hlen)
  have hsum := sum_bound _ hr
  have habs : (a.total.tdiv a.count).natAbs = a.total.natAbs / (wanted f ds).length := by
    rw [Int.natAbs_tdiv, h.count, Int.natAbs_natCast]
    rfl
  have hbound : a.total.natAbs / (wanted f ds).length ≤ 2 ^ 31 := by
    refine Nat.div_le_of_le_mul ?_
    rw [h.total]
    have : (wanted f ds).length * 2 ^ 31 = 2 ^ 31 * (wanted f ds).length := Nat.mul_comm _ _
    omega
  have hlong : longOf (a.total.tdiv a.count) = some (a.total.tdiv a.count) := by
    rw [longOf, if_pos]
    omega
  refine ⟨⟨a.numLogs, a.count, a.min, a.max, a.total.tdiv a.count, a.total⟩, ?_, ?_⟩
  · simp [minMaxMean, e, hc, hlong]
  · refine ⟨h.logs, h.count, hmin, fun v hv => (hall v hv).1, hmax, fun v hv => (hall v hv).2,
      h.total, habs.symm, fun ht => ?_, fun ht => ?_⟩
    · exact Int.tdiv_nonneg ht (by rw [h.count]; omega)
    · have : 0 ≤ (-a.total).tdiv a.count := Int.tdiv_nonneg (by simpa using ht) (by rw [h.count]; omega)
      rw [Int.neg_tdiv] at this
      show a.total.tdiv a.count ≤ 0
      omega

/-- Five messages, three of them with id 7 and the values -5, 9 and -12. -/
def exDeliv : List Deliv :=
  [⟨1, 7, 10, [(some (le 4 (2 ^ 32 - 5)), fun _ _ => 0)]⟩, ⟨2, 8, 11, []⟩,
   ⟨1, 7, 12, [(some (le 4 9), fun _ _ => 0), (none, fun _ _ => 0)]⟩,
   ⟨3, 9, 13, [(some (le 8 77), fun _ _ => 0)]⟩,
   ⟨1, 7, 14, [(some (le 4 (2 ^ 32 - 12)), fun _ _ => 0)]⟩]

example : (∀ d ∈ exDeliv, d.OK) ∧ (∀ d ∈ exDeliv, (d.id : Int) = 7 → d.first?.isSome)
    ∧ exDeliv.length ≤ 2 ^ 32 ∧ (∃ d ∈ exDeliv, (d.id : Int) = 7) ∧ wanted 7 exDeliv = [-5, 9, -12]
    ∧ minMaxMean 7 exDeliv = some ⟨5, 3, -12, 9, -2, -8⟩ := by
  refine ⟨?_, by decide +kernel, by decide, by decide, by decide +kernel, by decide +kernel⟩
  intro d hd
  simp only [exDeliv, List.mem_cons, List.not_mem_nil, or_false] at hd
  rcases hd with rfl | rfl | rfl | rfl | rfl <;>
    refine ⟨by decide, by decide, ?_⟩ <;> intro p hp bs hb <;>
    simp only [List.mem_cons, List.not_mem_nil, or_false] at hp
  · subst hp; cases hb; decide
  · rcases hp with rfl | rfl <;> cases hb; decide
  · subst hp; cases hb; decide
  · subst hp; cases hb; decide

/-- Without a message of the requested id the program divides by zero. -/
theorem C47_empty_false (f : Int) (ds : List Deliv) (hok : ∀ d ∈ ds, d.OK)
    (hno : ∀ d ∈ ds, (d.id : Int) ≠ f) (hlen : ds.length ≤ 2 ^ 32) : minMaxMean f ds = none := by
  have h0 : AggInv ({} : Agg) [] 0 := ⟨rfl, rfl, rfl, fun h => absurd rfl h⟩
  obtain ⟨a, e, h⟩ := loop_inv f ds h0 (fun v hv => by cases hv) msgInv_new (by simp) hok
    (fun d hd hf => absurd hf (hno d hd)) (by simpa using hlen)
  have hw : wanted f ds = [] := by
    unfold wanted
    have : ds.filter (fun d => decide ((d.id : Int) = f)) = [] := by
      rw [List.filter_eq_nil_iff]
      intro d hd; simpa using hno d hd
    rw [this]; rfl
  rw [hw] at h
  have hc : a.count = 0 := by rw [h.count]; rfl
  simp [minMaxMean, e, hc]

example : (∀ d ∈ exDeliv, (d.id : Int) ≠ 6) ∧ minMaxMean 6 exDeliv = none := by
  constructor
  · decide
  · decide +kernel

/-- A matching message without arguments: its "first argument" is the one of an earlier
message with another id. -/
theorem C47_stale_false : ∃ ds : List Deliv, (∀ d ∈ ds, d.OK) ∧ wanted 7 ds = []
    ∧ minMaxMean 7 ds = some ⟨2, 1, 4242, 4242, 4242, 4242⟩ := by
  refine ⟨[⟨2, 8, 11, [(some (le 4 4242), fun _ _ => 0)]⟩, ⟨1, 7, 12, []⟩], ?_, by decide +kernel,
    by decide +kernel⟩
  intro d hd
  simp only [List.mem_cons, List.not_mem_nil, or_false] at hd
  rcases hd with rfl | rfl
  · refine ⟨by decide, by decide, ?_⟩
    intro p hp bs hb
    simp only [List.mem_cons, List.not_mem_nil, or_false] at hp
    subst hp; cases hb; decide
  · exact ⟨by decide, by decide, fun p hp => by cases hp⟩

end NanoLog
