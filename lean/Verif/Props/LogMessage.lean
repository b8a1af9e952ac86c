import Verif.LogMessage
import Verif.TermLemmas

/-!
# C35: the argument container of a decoded message
-/

namespace NanoLog

/-! ## Specification: a list of values that `reset` empties and `push` extends -/

/-- Operations on a `LogMessage`. -/
inductive MsgOp where
  | reset (m : Option Nat) (id ts : Nat)
  | push (bs : List Byte) (j : Junk)
  | pushLong (j : Junk)

/-- No value is wider than a slot (`long double` has its own operation). -/
def MsgOp.OK : MsgOp → Prop
  | .push bs _ => bs.length ≤ 8
  | _ => True

/-- The operations carried out by the container. -/
def LogMsg.run (s : LogMsg) : List MsgOp → Option LogMsg
  | [] => some s
  | .reset m id ts :: os => (s.reset m id ts).run os
  | .push bs j :: os => (s.push bs j).bind fun s => s.run os
  | .pushLong j :: os => (s.pushLong j).bind fun s => s.run os

/-- The values pushed since the last reset; `none` is a `long double`. -/
def held (vs : List (Option (List Byte))) : List MsgOp → List (Option (List Byte))
  | [] => vs
  | .reset .. :: os => held [] os
  | .push bs _ :: os => held (vs ++ [some bs]) os
  | .pushLong _ :: os => held (vs ++ [none]) os

/-- The largest number of values held at any time. -/
def peak (n : Nat) : List MsgOp → Nat
  | [] => n
  | .reset .. :: os => max n (peak 0 os)
  | .push .. :: os => max n (peak (n + 1) os)
  | .pushLong _ :: os => max n (peak (n + 1) os)

/-- The identification given by the last reset. -/
def heading (h : Option Nat × Nat × Nat) : List MsgOp → Option Nat × Nat × Nat
  | [] => h
  | .reset m id ts :: os => heading (m, id, ts) os
  | .push .. :: os => heading h os
  | .pushLong _ :: os => heading h os

/-! ## Invariant -/

/-- All slots of the container. -/
def LogMsg.slots (s : LogMsg) : List (List Byte) := s.raw ++ s.ext.getD []

/-- The container holds the values `vs`. -/
structure MsgInv (s : LogMsg) (vs : List (Option (List Byte))) : Prop where
  cap : ∃ k, k ≤ 27 ∧ s.cap = 10 * 2 ^ k
  raw : s.raw.length = 10
  ext : ∀ e, s.ext = some e → s.cap = 10 + e.length
  noext : s.ext = none → s.cap = 10
  wide : ∀ b ∈ s.slots, b.length = 8
  num : s.numArgs = vs.length
  room : vs.length ≤ s.cap
  val : ∀ (i : Nat) bs, vs[i]? = some (some bs) → ∃ b, s.slots[i]? = some b ∧ bs <+: b

theorem msgInv_new : MsgInv LogMsg.new [] where
  cap := ⟨0, by decide, rfl⟩
  raw := rfl
  ext := by intro e h; cases h
  noext := fun _ => rfl
  wide := by decide
  num := rfl
  room := by decide
  val := by intro i bs h; simp at h

theorem msgInv_reset {s : LogMsg} {vs : List (Option (List Byte))} (h : MsgInv s vs)
    (m : Option Nat) (id ts : Nat) : MsgInv (s.reset m id ts) [] where
  cap := h.cap
  raw := h.raw
  ext := h.ext
  noext := h.noext
  wide := h.wide
  num := rfl
  room := Nat.zero_le _
  val := by intro i bs h; simp at h

theorem slots_length {s : LogMsg} {vs : List (Option (List Byte))} (h : MsgInv s vs) :
    s.slots.length = s.cap := by
  unfold LogMsg.slots
  cases he : s.ext with
  | none => simp [h.raw, h.noext he]
  | some e => simp [h.raw, h.ext e he]

theorem growCap_step {c : Nat} (h0 : 0 < c) (h1 : 2 * c < 2 ^ 31) :
    growCap 32 c (c + 1) = some (2 * c) := by
  rw [growCap, if_pos (Nat.lt_succ_self c), if_pos h1, growCap, if_neg (by omega)]

theorem junk_length (j : Junk) (n : Nat) : (j.slots n).length = n := by simp [Junk.slots]

theorem junk_wide (j : Junk) (n : Nat) : ∀ b ∈ j.slots n, b.length = 8 := by
  intro b hb
  simp only [Junk.slots, List.mem_map] at hb
  obtain ⟨i, _, rfl⟩ := hb
  simp

/-- Reserving one more slot when the container is full. -/
theorem msgInv_reserve {s : LogMsg} {vs : List (Option (List Byte))} (h : MsgInv s vs)
    (hf : s.numArgs = s.cap) (hn : vs.length < 10 * 2 ^ 27) (j : Junk) :
    ∃ s', s.reserve (s.numArgs + 1) j = some s' ∧ MsgInv s' vs ∧ s'.numArgs < s'.cap
      ∧ s'.meta? = s.meta? ∧ s'.id = s.id ∧ s'.ts = s.ts := by
  obtain ⟨k, hk, hc⟩ := h.cap
  have hnum := h.num
  have hk' : k < 27 := by
    rcases Nat.lt_or_ge k 27 with h1 | h1
    · exact h1
    · have : k = 27 := by omega
      subst this
      omega
  have h0 : 0 < s.cap := by rw [hc]; exact Nat.mul_pos (by decide) (Nat.two_pow_pos k)
  have hp : 2 ^ k ≤ 2 ^ 26 := Nat.pow_le_pow_right (by decide) (by omega)
  have hge : 10 ≤ s.cap := by
    have := Nat.two_pow_pos k
    omega
  have hg : growCap 32 s.cap (s.numArgs + 1) = some (2 * s.cap) := by
    rw [hf]; exact growCap_step h0 (by rw [hc]; omega)
  unfold LogMsg.reserve
  rw [if_neg (by omega), hg]
  cases he : s.ext with
  | none =>
    have hcap := h.noext he
    refine ⟨_, rfl, ?_, by show s.numArgs < 2 * s.cap; omega, rfl, rfl, rfl⟩
    refine ⟨⟨k + 1, by omega, by show 2 * s.cap = _; rw [hc, Nat.pow_succ]; omega⟩, h.raw, ?_, ?_,
      ?_, h.num, by show _ ≤ 2 * s.cap; omega, ?_⟩
    · intro e heq
      cases heq
      show 2 * s.cap = _
      rw [junk_length]; simp only [logMsgInit]; omega
    · intro heq; cases heq
    · intro b hb
      simp only [LogMsg.slots, Option.getD_some, List.mem_append] at hb
      rcases hb with hb | hb
      · exact h.wide b (List.mem_append_left _ hb)
      · exact junk_wide _ _ b hb
    · intro i bs hi
      obtain ⟨b, hb, hpre⟩ := h.val i bs hi
      refine ⟨b, ?_, hpre⟩
      simp only [LogMsg.slots, he, Option.getD_none, List.append_nil] at hb
      simp only [LogMsg.slots, Option.getD_some]
      exact List.getElem?_append_left (List.getElem?_eq_some_iff.1 hb).1 ▸ hb
  | some old =>
    have hold := h.ext old he
    simp only [junk_length, logMsgInit]
    rw [if_neg (by omega)]
    have hk2 : s.numArgs - 10 = old.length := by omega
    refine ⟨_, rfl, ?_, by show s.numArgs < 2 * s.cap; omega, rfl, rfl, rfl⟩
    refine ⟨⟨k + 1, by omega, by show 2 * s.cap = _; rw [hc, Nat.pow_succ]; omega⟩, h.raw, ?_, ?_,
      ?_, h.num, by show _ ≤ 2 * s.cap; omega, ?_⟩
    · intro e heq
      cases heq
      show 2 * s.cap = _
      rw [List.length_append, List.length_take, List.length_drop, junk_length]
      omega
    · intro heq; cases heq
    · intro b hb
      simp only [LogMsg.slots, Option.getD_some, List.mem_append] at hb
      rcases hb with hb | hb | hb
      · exact h.wide b (List.mem_append_left _ hb)
      · refine h.wide b (List.mem_append_right _ ?_)
        rw [he]; exact List.mem_of_mem_take hb
      · exact junk_wide _ _ b (List.mem_of_mem_drop hb)
    · intro i bs hi
      obtain ⟨b, hb, hpre⟩ := h.val i bs hi
      refine ⟨b, ?_, hpre⟩
      simp only [LogMsg.slots, he, Option.getD_some] at hb
      simp only [LogMsg.slots, Option.getD_some, hk2, List.take_length, ← List.append_assoc]
      rw [List.getElem?_append_left (List.getElem?_eq_some_iff.1 hb).1]
      exact hb

theorem overlay_prefix (a b : List Byte) : a <+: overlay a b := ⟨_, rfl⟩

theorem storeSlot_eq {a : List (List Byte)} {i : Nat} {old : List Byte} (bs : List Byte)
    (h : a[i]? = some old) : storeSlot a i bs = some (a.set i (overlay bs old)) := by
  simp [storeSlot, h]

/-- The value written to slot `vs.length` extends the held values. -/
theorem val_push {sl : List (List Byte)} {vs : List (Option (List Byte))} {old bs : List Byte}
    {v : Option (List Byte)}
    (hval : ∀ (i : Nat) bs, vs[i]? = some (some bs) → ∃ b, sl[i]? = some b ∧ bs <+: b)
    (hold : sl[vs.length]? = some old) (hv : ∀ b, v = some b → b = bs) (i : Nat) (b : List Byte)
    (h : (vs ++ [v])[i]? = some (some b)) :
    ∃ c, (sl.set vs.length (overlay bs old))[i]? = some c ∧ b <+: c := by
  rcases Nat.lt_trichotomy i vs.length with hi | hi | hi
  · rw [List.getElem?_append_left hi] at h
    obtain ⟨c, hc, hp⟩ := hval i b h
    exact ⟨c, by rw [List.getElem?_set_ne (by omega)]; exact hc, hp⟩
  · subst hi
    rw [List.getElem?_append_right (Nat.le_refl _), Nat.sub_self] at h
    simp only [List.getElem?_cons_zero, Option.some.injEq] at h
    have := hv b h
    subst this
    refine ⟨overlay b old, ?_, overlay_prefix _ _⟩
    rw [List.getElem?_set_self (List.getElem?_eq_some_iff.1 hold).1]
  · rw [List.getElem?_eq_none (by simp; omega)] at h
    cases h

theorem msgInv_store {s : LogMsg} {vs : List (Option (List Byte))} (h : MsgInv s vs)
    (hr : s.numArgs < s.cap) (bs : List Byte) (hb : bs.length ≤ 8) (v : Option (List Byte))
    (hv : ∀ b, v = some b → b = bs) :
    ∃ s', (if s.numArgs < logMsgInit then
        match storeSlot s.raw s.numArgs bs with
        | none => none
        | some raw => some { s with raw := raw, numArgs := s.numArgs + 1 }
      else
        match s.ext with
        | none => none
        | some e =>
          match storeSlot e (s.numArgs - logMsgInit) bs with
          | none => none
          | some e' => some { s with ext := some e', numArgs := s.numArgs + 1 }) = some s'
      ∧ MsgInv s' (vs ++ [v]) ∧ s'.meta? = s.meta? ∧ s'.id = s.id ∧ s'.ts = s.ts := by
  have hlen := slots_length h
  have hnum := h.num
  have hraw := h.raw
  have hov : ∀ old : List Byte, old.length = 8 → (overlay bs old).length = 8 := by
    intro old ho; rw [overlay_length]; omega
  by_cases hi : s.numArgs < logMsgInit
  · rw [if_pos hi]
    have hi' : s.numArgs < s.raw.length := by rw [hraw]; exact hi
    have hget : s.raw[s.numArgs]? = some s.raw[s.numArgs] := List.getElem?_eq_getElem hi'
    rw [storeSlot_eq bs hget]
    refine ⟨_, rfl, ⟨h.cap, by simp [hraw], h.ext, h.noext, ?_, by simp [hnum], ?_, ?_⟩, rfl, rfl, rfl⟩
    · intro b hb
      simp only [LogMsg.slots, List.mem_append] at hb
      rcases hb with hb | hb
      · rcases List.mem_or_eq_of_mem_set hb with hb | hb
        · exact h.wide b (List.mem_append_left _ hb)
        · rw [hb]; exact hov _ (h.wide _ (List.mem_append_left _ (List.getElem_mem hi')))
      · exact h.wide b (List.mem_append_right _ hb)
    · rw [List.length_append, ← hnum]; exact hr
    · intro i b hib
      have := val_push (old := s.raw[s.numArgs]) (bs := bs) h.val
        (by rw [← hnum, LogMsg.slots, List.getElem?_append_left hi', hget]) hv i b hib
      rw [← hnum] at this
      simp only [LogMsg.slots] at this ⊢
      rw [List.set_append_left _ _ hi'] at this
      exact this
  · rw [if_neg hi]
    have hi10 : 10 ≤ s.numArgs := Nat.le_of_not_lt hi
    cases he : s.ext with
    | none => have := h.noext he; omega
    | some e =>
      have hcap := h.ext e he
      have hi' : s.numArgs - 10 < e.length := by omega
      have hget : e[s.numArgs - 10]? = some e[s.numArgs - 10] := List.getElem?_eq_getElem hi'
      simp only [logMsgInit]
      rw [storeSlot_eq bs hget]
      refine ⟨_, rfl, ⟨h.cap, hraw, ?_, ?_, ?_, by simp [hnum], ?_, ?_⟩, rfl, rfl, rfl⟩
      · intro e' heq; cases heq; simpa using hcap
      · intro heq; cases heq
      · intro b hb
        simp only [LogMsg.slots, List.mem_append, Option.getD_some] at hb
        rcases hb with hb | hb
        · exact h.wide b (List.mem_append_left _ hb)
        · rcases List.mem_or_eq_of_mem_set hb with hb | hb
          · exact h.wide b (List.mem_append_right _ (by rw [he]; exact hb))
          · rw [hb]
            exact hov _ (h.wide _ (List.mem_append_right _ (by rw [he]; exact List.getElem_mem hi')))
      · rw [List.length_append, ← hnum]; exact hr
      · intro i b hib
        have := val_push (old := e[s.numArgs - 10]) (bs := bs) h.val
          (by rw [← hnum, LogMsg.slots, he, List.getElem?_append_right (by omega), hraw]; exact hget)
          hv i b hib
        rw [← hnum] at this
        simp only [LogMsg.slots, he, Option.getD_some] at this ⊢
        rw [List.set_append_right _ _ (by omega), hraw] at this
        exact this

theorem msgInv_push {s : LogMsg} {vs : List (Option (List Byte))} (h : MsgInv s vs)
    (hn : vs.length < 10 * 2 ^ 27) (bs : List Byte) (hb : bs.length ≤ 8) (v : Option (List Byte))
    (hv : ∀ b, v = some b → b = bs) (j : Junk) :
    ∃ s', s.push bs j = some s' ∧ MsgInv s' (vs ++ [v])
      ∧ s'.meta? = s.meta? ∧ s'.id = s.id ∧ s'.ts = s.ts := by
  unfold LogMsg.push
  by_cases hf : s.numArgs = s.cap
  · obtain ⟨s1, h1, h2, h3, h4, h5, h6⟩ := msgInv_reserve h hf hn j
    rw [if_pos hf, h1]
    obtain ⟨s2, e, i, a, b, c⟩ := msgInv_store h2 h3 bs hb v hv
    exact ⟨s2, e, i, a.trans h4, b.trans h5, c.trans h6⟩
  · rw [if_neg hf]
    have := h.room
    have := h.num
    exact msgInv_store h (by omega) bs hb v hv

theorem peak_ge (n : Nat) (os : List MsgOp) : n ≤ peak n os := by
  cases os with
  | nil => exact Nat.le_refl _
  | cons o os => cases o <;> simp only [peak] <;> omega

theorem msgInv_run (os : List MsgOp) : ∀ {s : LogMsg} {vs : List (Option (List Byte))},
    MsgInv s vs → (∀ o ∈ os, o.OK) → peak vs.length os ≤ 10 * 2 ^ 27 →
    ∃ s', s.run os = some s' ∧ MsgInv s' (held vs os)
      ∧ (s'.meta?, s'.id, s'.ts) = heading (s.meta?, s.id, s.ts) os := by
  induction os with
  | nil => intro s vs h _ _; exact ⟨s, rfl, h, rfl⟩
  | cons o os ih =>
    intro s vs h hok hpk
    have hok' : ∀ o ∈ os, o.OK := fun o ho => hok o (List.mem_cons_of_mem _ ho)
    have hok1 := hok o List.mem_cons_self
    cases o with
    | reset m id ts =>
      simp only [peak] at hpk
      exact ih (msgInv_reset h m id ts) hok' (by simp only [List.length_nil]; omega)
    | push bs j =>
      simp only [peak] at hpk
      have := peak_ge (vs.length + 1) os
      obtain ⟨s1, e1, i1, a, b, c⟩ := msgInv_push h (by omega) bs hok1 (some bs)
        (fun b hb => (Option.some.inj hb).symm) j
      obtain ⟨s2, e2, i2, hd⟩ := ih i1 hok' (by
        rw [List.length_append, List.length_singleton]
        omega)
      refine ⟨s2, by simp [LogMsg.run, e1, e2], i2, ?_⟩
      rw [hd, a, b, c]; rfl
    | pushLong j =>
      simp only [peak] at hpk
      have := peak_ge (vs.length + 1) os
      obtain ⟨s1, e1, i1, a, b, c⟩ := msgInv_push h (by omega) (List.replicate 4 255) (by simp) none
        (fun b hb => by cases hb) j
      obtain ⟨s2, e2, i2, hd⟩ := ih i1 hok' (by
        rw [List.length_append, List.length_singleton]
        omega)
      refine ⟨s2, by simp only [LogMsg.run, LogMsg.pushLong, e1, e2, Option.bind_some], i2, ?_⟩
      rw [hd, a, b, c]; rfl

theorem msgInv_get {s : LogMsg} {vs : List (Option (List Byte))} (h : MsgInv s vs) {i : Nat}
    {bs : List Byte} (hi : vs[i]? = some (some bs)) : s.get bs.length i = some bs := by
  obtain ⟨b, hb, hp⟩ := h.val i bs hi
  have hlt : i < s.cap := by rw [← slots_length h]; exact (List.getElem?_eq_some_iff.1 hb).1
  have htake : b.take bs.length = bs := (List.prefix_iff_eq_take.1 hp).symm
  unfold LogMsg.get
  rw [if_neg (by omega)]
  by_cases h10 : i < logMsgInit
  · rw [if_pos h10]
    rw [LogMsg.slots, List.getElem?_append_left (by rw [h.raw]; exact h10)] at hb
    simp [hb, htake]
  · rw [if_neg h10]
    have h10' : 10 ≤ i := Nat.le_of_not_lt h10
    rw [LogMsg.slots, List.getElem?_append_right (by rw [h.raw]; exact h10'), h.raw] at hb
    cases he : s.ext with
    | none => simp [he] at hb
    | some e =>
      simp only [he, Option.getD_some] at hb
      simp [hb, htake]

/-! ## Theorems -/

/-- C35.  After any sequence of operations on a new container, in which it never holds more
than `10 * 2^27` values, `getNumArgs` is the number of values pushed since the last reset,
`get` returns for every index the value pushed at that position (at its type; a `long
double` is not kept), and the other members are those given to the last reset.  Whatever the
contents of memory obtained from `malloc`. -/
theorem C35_container (os : List MsgOp) (hok : ∀ o ∈ os, o.OK) (hn : peak 0 os ≤ 10 * 2 ^ 27) :
    ∃ s, LogMsg.new.run os = some s
      ∧ s.numArgs = (held [] os).length
      ∧ (∀ (i : Nat) bs, (held [] os)[i]? = some (some bs) → s.get bs.length i = some bs)
      ∧ (s.meta?, s.id, s.ts) = heading (none, 2 ^ 32 - 1, 0) os := by
  obtain ⟨s, e, i, hd⟩ := msgInv_run os msgInv_new hok hn
  exact ⟨s, e, i.num, fun k bs hk => msgInv_get i hk, hd⟩

/-- Thirteen values of different sizes, a reset, and twenty-five values. -/
def exMsgOps : List MsgOp :=
  (List.range 13).map (fun i => .push (le (i % 8 + 1) (1000003 * i)) (fun _ _ => 170))
    ++ [.reset (some 4) 17 99]
    ++ (List.range 25).map (fun i => .push (le (i % 4 + 1) (70001 * i)) (fun _ _ => 85))

example : ∃ s, LogMsg.new.run exMsgOps = some s ∧ s.numArgs = 25 ∧ s.get 4 23 = some (le 4 1610023)
    ∧ s.id = 17 := by
  have hok : ∀ o ∈ exMsgOps, o.OK := by
    intro o ho
    simp only [exMsgOps, List.mem_append, List.mem_map, List.mem_range, List.mem_singleton] at ho
    rcases ho with (⟨i, _, rfl⟩ | rfl) | ⟨i, _, rfl⟩
    · simp only [MsgOp.OK, le_length]; omega
    · trivial
    · simp only [MsgOp.OK, le_length]; omega
  have hh : held [] exMsgOps = (List.range 25).map fun i => some (le (i % 4 + 1) (70001 * i)) := by
    decide +kernel
  have hp : peak 0 exMsgOps = 25 := by decide +kernel
  obtain ⟨s, e, n, g, hd⟩ := C35_container exMsgOps hok (by rw [hp]; decide)
  rw [hh] at n g
  refine ⟨s, e, n, ?_, ?_⟩
  · have := g 23 (le 4 1610023) (by decide +kernel)
    rwa [le_length] at this
  · have h2 : heading (none, 2 ^ 32 - 1, 0) exMsgOps = (some 4, 17, 99) := by decide +kernel
    rw [h2] at hd
    exact (Prod.mk.inj (Prod.mk.inj hd).2).1

/-- The bound in `C35_container` is exact: one value more overflows the `int` holding the
capacity. -/
theorem C35_limit (os : List MsgOp) (hok : ∀ o ∈ os, o.OK) (hn : peak 0 os ≤ 10 * 2 ^ 27)
    (hf : (held [] os).length = 10 * 2 ^ 27) (bs : List Byte) (j : Junk) :
    LogMsg.new.run (os ++ [.push bs j]) = none := by
  have happ : ∀ (os ps : List MsgOp) (s : LogMsg), s.run (os ++ ps) = (s.run os).bind fun s => s.run ps := by
    intro os ps
    induction os with
    | nil => intro s; rfl
    | cons o os ih =>
      intro s
      cases o with
      | reset m id ts => exact ih _
      | push bs j =>
        simp only [List.cons_append, LogMsg.run]
        cases s.push bs j with
        | none => rfl
        | some s => exact ih s
      | pushLong j =>
        simp only [List.cons_append, LogMsg.run]
        cases s.pushLong j with
        | none => rfl
        | some s => exact ih s
  obtain ⟨s, e, i, _⟩ := msgInv_run os msgInv_new hok hn
  rw [happ, e, Option.bind_some]
  obtain ⟨k, hk, hc⟩ := i.cap
  have hroom := i.room
  have hnum := i.num
  rw [hf] at hroom hnum
  have hp : 2 ^ k ≤ 2 ^ 27 := Nat.pow_le_pow_right (by decide) hk
  have hcap : s.cap = 10 * 2 ^ 27 := by omega
  have hres : s.reserve (s.numArgs + 1) j = none := by
    unfold LogMsg.reserve
    rw [if_neg (by omega), hnum, hcap]
    rfl
  simp only [LogMsg.run, LogMsg.push]
  rw [if_pos (hnum.trans hcap.symm), hres]
  rfl

/-- A container pushed full satisfies the hypotheses of `C35_limit`. -/
example : ∃ os : List MsgOp, (∀ o ∈ os, o.OK) ∧ peak 0 os ≤ 10 * 2 ^ 27
    ∧ (held [] os).length = 10 * 2 ^ 27 := by
  have key : ∀ (n m : Nat) (vs : List (Option (List Byte))), vs.length = m →
      (held vs (List.replicate n (.push [7] fun _ _ => 0))).length = m + n
      ∧ peak m (List.replicate n (.push [7] fun _ _ => 0)) = m + n := by
    intro n
    induction n with
    | zero => intro m vs h; exact ⟨h, rfl⟩
    | succ n ih =>
      intro m vs h
      have := ih (m + 1) (vs ++ [some [7]]) (by simp [h])
      refine ⟨?_, ?_⟩
      · simp only [List.replicate_succ, held]; omega
      · simp only [List.replicate_succ, peak]; omega
  refine ⟨List.replicate (10 * 2 ^ 27) (.push [7] fun _ _ => 0), ?_, ?_, ?_⟩
  · intro o ho
    rw [List.eq_of_mem_replicate ho]
    exact (by decide : ([7] : List Byte).length ≤ 8)
  · rw [(key _ 0 [] rfl).2]; omega
  · rw [(key _ 0 [] rfl).1]

/-- Reading at a wider type than was pushed returns bytes that no operation pushed at that
position since the last reset: a `long` read of slot 0 after `push<int>` yields the upper half
of the message before. -/
theorem C35_wider_read :
    ∃ s, LogMsg.new.run [.push (le 8 (2 ^ 64 - 1)) fun _ _ => 0, .reset (some 1) 5 6,
        .push (le 4 3) fun _ _ => 0] = some s
      ∧ s.get 4 0 = some (le 4 3) ∧ s.get 8 0 = some (le 4 3 ++ List.replicate 4 255) :=
  ⟨_, rfl, by decide, by decide⟩

/-! ## The values of a decoded message -/

theorem unpackInt_inRange {t : ITy} {nib : Nat} {l r : List Byte} {v : Int}
    (h : unpackInt t nib l = some (v, r)) : t.InRange v := by
  unfold unpackInt at h
  split at h
  · cases h1 : takeN nib l with
    | none => simp [h1] at h
    | some p =>
      simp only [h1, Option.bind_eq_bind, Option.bind_some, Option.some.injEq, Prod.mk.injEq] at h
      rw [← h.1]; exact ITy.cast_inRange _ _
  · cases h1 : takeN ((nib - 8) % 16) l with
    | none => simp [h1] at h
    | some p =>
      simp only [h1, Option.bind_eq_bind, Option.bind_some, Option.some.injEq, Prod.mk.injEq] at h
      rw [← h.1]; exact ITy.cast_inRange _ _

/-- What a reader of the container sees of a decoded argument: `get` at the argument's type.
`mem` is the memory of the extent up to address `top`; strings are read through the pointer. -/
def Shows (wd : Widen) (top : Nat) (mem : List Byte) (s : LogMsg) (i : Nat) (ty : FormatType)
    (a : PArg) : Prop :=
  match a with
  | .str x => ∃ p, s.get 8 i = some (le 8 p) ∧ p ≤ top ∧
      ∃ r, takeCStr (mem.drop (mem.length - (top - p))) = some (x, r)
  | .wstr x => ∃ p, s.get 8 i = some (le 8 p) ∧ p ≤ top ∧
      ∃ r, takeWStr (mem.drop (mem.length - (top - p))) = some (x, r)
  | .scalar (.int v) => ∃ t bs, ty.rty = some (.int t) ∧ s.get t.bytes i = some bs
      ∧ t.cast (unle bs) = v
  | .scalar (.ptr v) => ∃ bs, ty.rty = some .ptr ∧ s.get 8 i = some bs ∧ unle bs = v
  | .scalar (.flt (.raw b)) => ty = .longDouble ∨ ty = .double ∧ s.get 8 i = some b
  | .scalar (.flt (.fromFloat b)) =>
      ty = .longDouble ∨ ty = .double ∧ s.get 8 i = some (List.ofFn (wd b))

/-- The arguments of a message with their types: fragments of plain text and dynamic widths and
precisions do not count. -/
def argsOf (fs : List Frag) (ds : List Decoded) : List (FormatType × PArg) :=
  (fs.zip ds).filterMap fun p =>
    match p.1.ty, p.2.arg with
    | some ty, some a => some (ty, a)
    | _, _ => none

/-- Bytes pushed for an argument; like `Shows`, but about the bytes. -/
def Pushed (wd : Widen) (top : Nat) (mem : List Byte) (ty : FormatType) (a : PArg)
    (v : Option (List Byte)) : Prop :=
  match a with
  | .str x => ∃ p, v = some (le 8 p) ∧ p ≤ top ∧
      ∃ r, takeCStr (mem.drop (mem.length - (top - p))) = some (x, r)
  | .wstr x => ∃ p, v = some (le 8 p) ∧ p ≤ top ∧
      ∃ r, takeWStr (mem.drop (mem.length - (top - p))) = some (x, r)
  | .scalar (.int n) => ∃ t bs, ty.rty = some (.int t) ∧ v = some bs ∧ bs.length = t.bytes
      ∧ t.cast (unle bs) = n
  | .scalar (.ptr n) => ∃ bs, ty.rty = some .ptr ∧ v = some bs ∧ bs.length = 8 ∧ unle bs = n
  | .scalar (.flt (.raw b)) => ty = .longDouble ∨ ty = .double ∧ v = some b ∧ b.length = 8
  | .scalar (.flt (.fromFloat b)) => ty = .longDouble ∨ ty = .double ∧ v = some (List.ofFn (wd b))

theorem le_cast (t : ITy) (v : Int) (h : t.InRange v) :
    t.cast (unle (le t.bytes (v % 2 ^ (8 * t.bytes)).toNat)) = v := by
  rw [unle_le]
  cases t <;> simp only [ITy.InRange, ITy.lo, ITy.hi, ITy.cast, ITy.signed, ITy.bytes, if_true,
    Bool.false_eq_true, if_false] at * <;> omega

theorem getNext_shape {nb nb' : Nibbler} {r : RTy} {v : RVal} (h : nb.getNext r = some (v, nb')) :
    match r with
    | .int t => ∃ n, v = .int n ∧ t.InRange n
    | .ptr => ∃ n, v = .ptr n ∧ n < 2 ^ 64
    | .dbl => (∃ b, v = .flt (.raw b) ∧ b.length = 8) ∨ ∃ b, v = .flt (.fromFloat b)
    | .ldbl => (∃ b, v = .flt (.raw b)) ∨ ∃ b, v = .flt (.fromFloat b) := by
  unfold Nibbler.getNext at h
  split at h
  · cases h
  · split at h
    · cases h
    · rename_i b bs _
      simp only [Option.bind_eq_bind, Option.bind_eq_some_iff] at h
      obtain ⟨⟨w, cur⟩, hu, h2⟩ := h
      have hw : w = v := by cases h2; rfl
      subst hw
      generalize (if nb.onFirst = true then nibFirst b else nibSecond b) = nib at hu
      have hf : ∀ sz f rest, unpackFloat sz nib nb.cur = some (f, rest) →
          (∃ b, f = .raw b ∧ b.length = sz) ∨ ∃ b, f = .fromFloat b := by
        intro sz f rest hh
        unfold unpackFloat at hh
        by_cases h4 : nib = 4
        · rw [if_pos h4] at hh
          cases ht : takeN 4 nb.cur with
          | none => simp [ht] at hh
          | some p => simp [ht] at hh; exact .inr ⟨_, hh.1.symm⟩
        · rw [if_neg h4] at hh
          dsimp only at hh
          by_cases hsz : (if nib = 0 then 16 else nib) = sz
          · rw [if_pos hsz] at hh
            cases ht : takeN (if nib = 0 then 16 else nib) nb.cur with
            | none => simp [ht] at hh
            | some p =>
              have := (takeN_length ht)
              simp [ht] at hh
              refine .inl ⟨_, hh.1.symm, ?_⟩
              rw [← hsz]
              generalize (if nib = 0 then 16 else nib) = k at ht
              unfold takeN at ht
              split at ht
              · cases ht; simp; omega
              · cases ht
          · rw [if_neg hsz] at hh; cases hh
      cases r with
      | int t =>
        simp only [unpackAs, Option.map_eq_some_iff] at hu
        obtain ⟨⟨n, rest⟩, h1, h3⟩ := hu
        cases h3
        exact ⟨n, rfl, unpackInt_inRange h1⟩
      | ptr =>
        simp only [unpackAs, Option.map_eq_some_iff] at hu
        obtain ⟨⟨n, rest⟩, h1, h3⟩ := hu
        cases h3
        simp only [unpackPtr, Option.bind_eq_bind, Option.bind_eq_some_iff] at h1
        obtain ⟨⟨m, rest'⟩, h4, h5⟩ := h1
        cases h5
        have := unpackInt_inRange h4
        simp only [ITy.InRange, ITy.lo, ITy.hi, ITy.signed, ITy.bytes, Bool.false_eq_true,
          if_false] at this
        refine ⟨_, rfl, ?_⟩
        show m.toNat < _
        omega
      | dbl =>
        simp only [unpackAs, Option.map_eq_some_iff] at hu
        obtain ⟨⟨n, rest⟩, h1, h3⟩ := hu
        cases h3
        rcases hf _ _ _ h1 with ⟨b, hb, hl⟩ | ⟨b, hb⟩
        · exact .inl ⟨b, by rw [← hb], hl⟩
        · exact .inr ⟨b, by rw [← hb]⟩
      | ldbl =>
        simp only [unpackAs, Option.map_eq_some_iff] at hu
        obtain ⟨⟨n, rest⟩, h1, h3⟩ := hu
        cases h3
        rcases hf _ _ _ h1 with ⟨b, hb, hl⟩ | ⟨b, hb⟩
        · exact .inl ⟨b, by rw [← hb]⟩
        · exact .inr ⟨b, by rw [← hb]⟩

theorem suffix_at {mem strs : List Byte} {top : Nat} (hs : strs <:+ mem) (ht : mem.length ≤ top) :
    top - strs.length ≤ top ∧
    mem.drop (mem.length - (top - (top - strs.length))) = strs := by
  have hl := hs.length_le
  refine ⟨Nat.sub_le _ _, ?_⟩
  have : top - (top - strs.length) = strs.length := by omega
  rw [this]
  exact (List.suffix_iff_eq_drop.1 hs).symm

theorem takeCStr_suffix : ∀ {l s r : List Byte}, takeCStr l = some (s, r) → r <:+ l := by
  intro l
  induction l with
  | nil => intro s r h; cases h
  | cons b bs ih =>
    intro s r h
    unfold takeCStr at h
    split at h
    · cases h; exact List.suffix_cons _ _
    · simp only [Option.map_eq_some_iff] at h
      obtain ⟨⟨a, c⟩, h1, h2⟩ := h
      cases h2
      exact (ih h1).trans (List.suffix_cons _ _)

theorem takeWStr_suffix : ∀ (n : Nat) {l : List Byte} {s : List Nat} {r : List Byte}, l.length ≤ n →
    takeWStr l = some (s, r) → r <:+ l := by
  intro n
  induction n using Nat.strongRecOn with
  | ind n ih =>
    intro l s r hn h
    match l, h with
    | a :: b :: c :: d :: bs, h =>
      rw [takeWStr] at h
      have hs : bs <:+ a :: b :: c :: d :: bs := ⟨[a, b, c, d], rfl⟩
      by_cases h0 : unle [a, b, c, d] = 0
      · simp [h0] at h; rw [← h.2]; exact hs
      · simp only [h0, if_false, Option.map_eq_some_iff] at h
        obtain ⟨⟨x, y⟩, h1, h2⟩ := h
        cases h2
        simp only [List.length_cons] at hn
        exact (ih bs.length (by omega) (Nat.le_refl _) h1).trans hs

/-- One fragment: what is pushed is the decoded argument. -/
theorem pushFrag_ok {wd : Widen} {top : Nat} {s : LogMsg} {vs : List (Option (List Byte))}
    (h : MsgInv s vs) (hn : vs.length < 10 * 2 ^ 27) {nb nb' : Nibbler} {strs strs' mem : List Byte}
    {f : Frag} {d : Decoded} (hd : decodeFrag nb strs f = some (d, nb', strs')) (hs : strs <:+ mem)
    (ht : mem.length ≤ top) (j : Junk) :
    ∃ s', pushFrag wd top s j f strs d = some s' ∧ strs' <:+ mem
      ∧ (s'.meta?, s'.id, s'.ts) = (s.meta?, s.id, s.ts)
      ∧ match f.ty, d.arg with
        | some ty, some a => ∃ v, Pushed wd top mem ty a v ∧ MsgInv s' (vs ++ [v])
        | none, none => MsgInv s' vs
        | _, _ => False := by
  obtain ⟨hp1, hp2⟩ := suffix_at hs ht
  simp only [decodeFrag, Option.bind_eq_bind, Option.bind_eq_some_iff] at hd
  obtain ⟨⟨w, nb1⟩, hw, ⟨p, nb2⟩, hp, hd⟩ := hd
  have scal : ∀ (ty : FormatType) (r : RTy), ty.rty = some r →
      (nb2.getNext r).bind (fun q => some ((⟨f.text, w, p, some (.scalar q.1)⟩ : Decoded), q.2, strs))
        = some (d, nb', strs') →
      f.ty = some ty →
      (pushFrag wd top s j f strs d =
        if ty = .longDouble then s.pushLong j else pushScalar wd s j ty d.arg) →
      ∃ s', pushFrag wd top s j f strs d = some s' ∧ strs' <:+ mem
      ∧ (s'.meta?, s'.id, s'.ts) = (s.meta?, s.id, s.ts)
      ∧ match f.ty, d.arg with
        | some ty, some a => ∃ v, Pushed wd top mem ty a v ∧ MsgInv s' (vs ++ [v])
        | none, none => MsgInv s' vs
        | _, _ => False := by
    intro ty r hr hd hfty hpush
    simp only [Option.bind_eq_some_iff] at hd
    obtain ⟨⟨v, nb3⟩, hg, hd⟩ := hd
    cases hd
    have hsh := getNext_shape hg
    rw [hpush, hfty]
    dsimp only
    by_cases hl : ty = .longDouble
    · subst hl
      rw [if_pos rfl]
      obtain ⟨s', e, i, a, b, c⟩ := msgInv_push h hn (List.replicate 4 255) (by simp) none
        (fun b hb => by cases hb) j
      refine ⟨s', e, hs, by rw [a, b, c], none, ?_, i⟩
      cases hr
      rcases hsh with ⟨b, hb⟩ | ⟨b, hb⟩ <;> (subst hb; exact .inl rfl)
    · rw [if_neg hl]
      have fin : ∀ bs : List Byte, bs.length ≤ 8 → v.rep wd r = some bs →
          Pushed wd top mem ty (.scalar v) (some bs) →
          ∃ s', pushScalar wd s j ty (some (.scalar v)) = some s' ∧ strs <:+ mem
            ∧ (s'.meta?, s'.id, s'.ts) = (s.meta?, s.id, s.ts)
            ∧ ∃ u, Pushed wd top mem ty (.scalar v) u ∧ MsgInv s' (vs ++ [u]) := by
        intro bs hb hrep hpu
        obtain ⟨s', e, i, a, b, c⟩ := msgInv_push h hn bs hb (some bs)
          (fun b hb => (Option.some.inj hb).symm) j
        simp only [pushScalar, hr, hrep]
        exact ⟨s', e, hs, by rw [a, b, c], _, hpu, i⟩
      cases r with
      | int t =>
        obtain ⟨n, rfl, hin⟩ := hsh
        refine fin _ ?_ rfl ⟨t, _, hr, rfl, le_length _ _, le_cast t n hin⟩
        rw [le_length]; cases t <;> decide
      | ptr =>
        obtain ⟨n, rfl, hin⟩ := hsh
        refine fin _ (by simp) rfl ⟨_, hr, rfl, le_length _ _, unle_le_of_lt hin⟩
      | dbl =>
        have hty : ty = .double := by
          revert hr hl; cases ty <;> simp [FormatType.rty]
        rcases hsh with ⟨b, rfl, hb⟩ | ⟨b, rfl⟩
        · exact fin b (by omega) rfl (.inr ⟨hty, rfl, hb⟩)
        · exact fin _ (by simp) rfl (.inr ⟨hty, rfl⟩)
      | ldbl =>
        exfalso
        revert hr hl; cases ty <;> simp [FormatType.rty]
  cases hfty : f.ty with
  | none =>
    rw [hfty] at hd
    cases hd
    refine ⟨s, by simp [pushFrag, hfty], hs, rfl, ?_⟩
    exact h
  | some ty =>
    rw [hfty] at hd
    cases ty with
    | charPtr =>
      simp only [Option.bind_eq_some_iff] at hd
      obtain ⟨⟨x, r⟩, hx, hd⟩ := hd
      cases hd
      obtain ⟨s', e, i, a, b, c⟩ := msgInv_push h hn (le 8 (top - strs.length)) (by simp)
        (some (le 8 (top - strs.length))) (fun b hb => (Option.some.inj hb).symm) j
      refine ⟨s', by simp [pushFrag, hfty, e], (takeCStr_suffix hx).trans hs, by rw [a, b, c],
        _, ⟨_, rfl, hp1, r, by rw [hp2]; exact hx⟩, i⟩
    | wcharPtr =>
      simp only [Option.bind_eq_some_iff] at hd
      obtain ⟨⟨x, r⟩, hx, hd⟩ := hd
      cases hd
      obtain ⟨s', e, i, a, b, c⟩ := msgInv_push h hn (le 8 (top - strs.length)) (by simp)
        (some (le 8 (top - strs.length))) (fun b hb => (Option.some.inj hb).symm) j
      refine ⟨s', by simp [pushFrag, hfty, e],
        (takeWStr_suffix _ (Nat.le_refl _) hx).trans hs, by rw [a, b, c],
        _, ⟨_, rfl, hp1, r, by rw [hp2]; exact hx⟩, i⟩
    | longDouble =>
      rw [← hfty]
      refine scal .longDouble .ldbl rfl ?_ hfty (by simp [pushFrag, hfty])
      simpa [FormatType.rty, Option.bind_eq_bind] using hd
    | _ =>
      rw [← hfty]
      refine scal _ _ rfl ?_ hfty (by simp [pushFrag, hfty])
      simpa [FormatType.rty, Option.bind_eq_bind] using hd

theorem decodeFrag_arg {nb nb' : Nibbler} {strs strs' : List Byte} {f : Frag} {d : Decoded}
    (h : decodeFrag nb strs f = some (d, nb', strs')) :
    (f.ty = none ∧ d.arg = none ∧ strs' = strs) ∨ ∃ ty a, f.ty = some ty ∧ d.arg = some a := by
  simp only [decodeFrag, Option.bind_eq_bind, Option.bind_eq_some_iff] at h
  obtain ⟨⟨w, nb1⟩, _, ⟨p, nb2⟩, _, h⟩ := h
  cases hf : f.ty with
  | none => rw [hf] at h; cases h; exact .inl ⟨rfl, rfl, rfl⟩
  | some ty =>
    rw [hf] at h
    cases ty <;> simp only [FormatType.rty, Option.bind_some, Option.bind_eq_some_iff] at h <;>
      (obtain ⟨x, _, h⟩ := h; cases h; exact .inr ⟨_, _, rfl, rfl⟩)

theorem pushFrags_ok {wd : Widen} {top : Nat} (j : Nat → Junk) {mem : List Byte}
    (ht : mem.length ≤ top) (fs : List Frag) : ∀ {s : LogMsg} {vs : List (Option (List Byte))}
    {nb : Nibbler} {strs rest : List Byte} {ds : List Decoded}, MsgInv s vs →
    decodeFrags nb strs fs = some (ds, rest) → strs <:+ mem →
    vs.length + (argsOf fs ds).length ≤ 10 * 2 ^ 27 →
    ∃ s' us, pushFrags wd top j s nb strs fs = some s' ∧ MsgInv s' (vs ++ us)
      ∧ (s'.meta?, s'.id, s'.ts) = (s.meta?, s.id, s.ts)
      ∧ List.Forall₂ (fun p v => Pushed wd top mem p.1 p.2 v) (argsOf fs ds) us := by
  induction fs with
  | nil =>
    intro s vs nb strs rest ds h hd _ _
    cases hd
    exact ⟨s, [], rfl, by simpa using h, rfl, .nil⟩
  | cons f fs ih =>
    intro s vs nb strs rest ds h hd hs hn
    simp only [decodeFrags, Option.bind_eq_bind, Option.bind_eq_some_iff] at hd
    obtain ⟨⟨d, nb1, strs1⟩, h1, ⟨ds', strs2⟩, h2, hd⟩ := hd
    cases hd
    have hshape : ∃ x : List (FormatType × PArg), argsOf (f :: fs) (d :: ds') = x ++ argsOf fs ds' ∧
        x = (match f.ty, d.arg with
          | some ty, some a => [(ty, a)]
          | _, _ => []) := by
      refine ⟨_, ?_, rfl⟩
      simp only [argsOf, List.zip_cons_cons, List.filterMap_cons]
      cases f.ty <;> cases d.arg <;> rfl
    obtain ⟨x, hx, hx2⟩ := hshape
    by_cases hroom : vs.length < 10 * 2 ^ 27
    · obtain ⟨s1, e1, hs1, hd1, hi1⟩ := pushFrag_ok (wd := wd) h hroom h1 hs ht (j fs.length)
      cases hf : f.ty with
      | none =>
        rw [hf] at hi1 hx2
        cases ha : d.arg with
        | some a => rw [ha] at hi1; exact hi1.elim
        | none =>
          rw [ha] at hi1 hx2
          dsimp only at hi1 hx2
          subst hx2
          rw [hx, List.nil_append] at hn
          obtain ⟨s', us, e2, i2, hd2, hf2⟩ := ih hi1 h2 hs1 hn
          refine ⟨s', us, ?_, i2, hd2.trans hd1, by rw [hx]; exact hf2⟩
          simp [pushFrags, h1, e1, e2]
      | some ty =>
        rw [hf] at hi1 hx2
        cases ha : d.arg with
        | none => rw [ha] at hi1; exact hi1.elim
        | some a =>
          rw [ha] at hi1 hx2
          dsimp only at hi1 hx2
          subst hx2
          obtain ⟨v, hv, hi1⟩ := hi1
          rw [hx] at hn
          simp only [List.length_append, List.length_cons, List.length_nil] at hn
          obtain ⟨s', us, e2, i2, hd2, hf2⟩ := ih hi1 h2 hs1 (by
            rw [List.length_append, List.length_singleton]
            omega)
          refine ⟨s', v :: us, ?_, by simpa using i2, hd2.trans hd1, ?_⟩
          · simp [pushFrags, h1, e1, e2]
          · rw [hx]; exact .cons hv hf2
    · -- the container is full: only text fragments can follow
      rcases decodeFrag_arg h1 with ⟨hf, ha, hst⟩ | ⟨ty, a, hf, ha⟩
      · rw [hf, ha] at hx2
        dsimp only at hx2
        subst hx2
        have hst' : strs1 = strs := hst
        subst hst'
        obtain ⟨s', us, e2, i2, hd2, hf2⟩ := ih h h2 hs (by rw [hx] at hn; simpa using hn)
        refine ⟨s', us, ?_, i2, hd2, ?_⟩
        · simp [pushFrags, h1, pushFrag, hf, e2]
        · rw [hx]; exact hf2
      · rw [hf, ha] at hx2
        dsimp only at hx2
        subst hx2
        rw [hx, List.length_append, List.length_singleton] at hn
        omega

theorem new_suffix {mem strs : List Byte} {n : Nat} {nb : Nibbler}
    (h : Nibbler.new mem n = some (nb, strs)) : strs <:+ mem := by
  have take : ∀ {k : Nat} {l a r : List Byte}, takeN k l = some (a, r) → r <:+ l := by
    intro k l a r ht
    unfold takeN at ht
    split at ht
    · cases ht; exact List.drop_suffix _ _
    · cases ht
  unfold Nibbler.new at h
  simp only [Option.bind_eq_bind, Option.bind_eq_some_iff] at h
  obtain ⟨⟨x, cur⟩, h1, sz, h2, ⟨y, st⟩, h3, h4⟩ := h
  cases h4
  exact (take h3).trans (take h1)

/-- C35 for the decoder: a container that has been used for any sequence of operations is
filled from a message whose arguments the decoder reads as `ds`.  It then has as many arguments
as the message, the `i`-th one shows the `i`-th value read (a `long double` excepted), and its
id and time stamp are those of the message. -/
theorem C35_decoded (wd : Widen) (os : List MsgOp) (hok : ∀ o ∈ os, o.OK)
    (hn : peak 0 os ≤ 10 * 2 ^ 27) (s : LogMsg) (hs : LogMsg.new.run os = some s)
    (m id ts numNibbles top : Nat) (frags : List Frag) (mem rest : List Byte) (ds : List Decoded)
    (j : Nat → Junk) (ht : mem.length ≤ top) (hd : decodeArgs numNibbles frags mem = some (ds, rest))
    (hlim : (argsOf frags ds).length ≤ 10 * 2 ^ 27) :
    ∃ s', fillMsg wd top j s m id ts numNibbles frags mem = some s'
      ∧ s'.numArgs = (argsOf frags ds).length ∧ s'.id = id ∧ s'.ts = ts ∧ s'.valid = true
      ∧ ∀ (i : Nat) ty a, (argsOf frags ds)[i]? = some (ty, a) → Shows wd top mem s' i ty a := by
  obtain ⟨s0, e0, i0, _⟩ := msgInv_run os msgInv_new hok hn
  rw [hs] at e0
  cases e0
  simp only [decodeArgs, Option.bind_eq_bind, Option.bind_eq_some_iff] at hd
  obtain ⟨⟨nb, strs⟩, h1, h2⟩ := hd
  obtain ⟨s', us, e, i, hh, hf⟩ := pushFrags_ok (wd := wd) j ht frags (msgInv_reset i0 (some m) id ts) h2
    (new_suffix h1) (by simpa using hlim)
  simp only [Prod.mk.injEq, LogMsg.reset] at hh
  have hlen := hf.length_eq
  refine ⟨s', ?_, ?_, hh.2.1, hh.2.2, by rw [LogMsg.valid, hh.1]; rfl, ?_⟩
  · simp [fillMsg, h1, e]
  · rw [i.num]; simp [hlen]
  · intro k ty a hk
    rw [List.nil_append] at i
    have hk' : k < us.length := by rw [← hlen]; exact (List.getElem?_eq_some_iff.1 hk).1
    have hu : us[k]? = some us[k] := List.getElem?_eq_getElem hk'
    have hpk : Pushed wd top mem ty a us[k] := by
      have := (List.forall₂_iff_get.1 hf).2 k (by omega) hk'
      simp only [List.get_eq_getElem] at this
      have he : (argsOf frags ds)[k] = (ty, a) := (List.getElem?_eq_some_iff.1 hk).2
      rw [he] at this
      exact this
    have get : ∀ bs, us[k] = some bs → s'.get bs.length k = some bs := by
      intro bs hb
      exact msgInv_get i (by rw [hu, hb])
    cases a with
    | str x =>
      obtain ⟨p, hv, hp, hr⟩ := hpk
      have := get _ hv
      rw [le_length] at this
      exact ⟨p, this, hp, hr⟩
    | wstr x =>
      obtain ⟨p, hv, hp, hr⟩ := hpk
      have := get _ hv
      rw [le_length] at this
      exact ⟨p, this, hp, hr⟩
    | scalar v =>
      cases v with
      | int n =>
        obtain ⟨t, bs, hr, hv, hl, hc⟩ := hpk
        exact ⟨t, bs, hr, hl ▸ get _ hv, hc⟩
      | ptr n =>
        obtain ⟨bs, hr, hv, hl, hc⟩ := hpk
        exact ⟨bs, hr, hl ▸ get _ hv, hc⟩
      | flt f =>
        cases f with
        | raw b =>
          rcases hpk with h | ⟨h, hv, hl⟩
          · exact .inl h
          · exact .inr ⟨h, hl ▸ get _ hv⟩
        | fromFloat b =>
          rcases hpk with h | ⟨h, hv⟩
          · exact .inl h
          · have := get _ hv
            rw [List.length_ofFn] at this
            exact .inr ⟨h, this⟩

/-- Fragments of the format `"a%d %*s"`: an `int`, plain text, a string with dynamic width. -/
def exMsgFrags : List Frag :=
  [⟨some .int, false, false, [97, 37, 100]⟩, ⟨none, false, false, [32]⟩,
   ⟨some .charPtr, true, false, [37, 42, 115]⟩]

/-- Two packed values (-7 and 12) and the string "hi", followed by other bytes. -/
def exMsgMem : List Byte := [0x19, 7, 12, 104, 105, 0, 77, 77]

/-- What the decoder reads. -/
def exMsgDec : List Decoded :=
  [⟨[97, 37, 100], none, none, some (.scalar (.int (-7)))⟩, ⟨[32], none, none, none⟩,
   ⟨[37, 42, 115], some 12, none, some (.str [104, 105])⟩]

example : ∃ s s', LogMsg.new.run exMsgOps = some s
    ∧ fillMsg (fun _ _ => 0) 5000 (fun _ _ _ => 0) s 4 3 99 2 exMsgFrags exMsgMem = some s'
    ∧ s'.numArgs = 2 ∧ (∃ bs, s'.get 4 0 = some bs ∧ ITy.i32.cast (unle bs) = -7) := by
  have hok : ∀ o ∈ exMsgOps, o.OK := by
    intro o ho
    simp only [exMsgOps, List.mem_append, List.mem_map, List.mem_range, List.mem_singleton] at ho
    rcases ho with (⟨i, _, rfl⟩ | rfl) | ⟨i, _, rfl⟩
    · simp only [MsgOp.OK, le_length]; omega
    · trivial
    · simp only [MsgOp.OK, le_length]; omega
  have hp : peak 0 exMsgOps ≤ 10 * 2 ^ 27 := by
    have : peak 0 exMsgOps = 25 := by decide +kernel
    rw [this]; decide
  obtain ⟨s, e, _⟩ := C35_container exMsgOps hok hp
  have hd : decodeArgs 2 exMsgFrags exMsgMem = some (exMsgDec, [77, 77]) := by decide +kernel
  obtain ⟨s', e', n, _, _, _, g⟩ := C35_decoded (fun _ _ => 0) exMsgOps hok hp s e 4 3 99 2 5000
    exMsgFrags exMsgMem [77, 77] exMsgDec (fun _ _ _ => 0) (by decide) hd (by decide)
  refine ⟨s, s', e, e', n, ?_⟩
  obtain ⟨t, bs, ht, hb, hc⟩ := g 0 .int (.scalar (.int (-7))) (by decide)
  cases ht
  exact ⟨bs, hb, hc⟩

end NanoLog
