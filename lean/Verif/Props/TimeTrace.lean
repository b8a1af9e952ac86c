import Verif.TimeTrace

/-!
# C48: printing of time traces
-/

namespace NanoLog

/-! ## Specification -/

/-- Operations of the thread that owns a buffer. -/
inductive TOp where
  | record (e : TEv)
  | reset
  deriving DecidableEq, Repr

/-- The buffer of `2^k` entries after the operations. -/
def TBuf.run (b : TBuf) : List TOp → TBuf
  | [] => b
  | .record e :: os => (b.record e).run os
  | .reset :: os => b.reset.run os

/-- The events recorded since the last reset. -/
def tHist (h : List TEv) : List TOp → List TEv
  | [] => h
  | .record e :: os => tHist (h ++ [e]) os
  | .reset :: os => tHist [] os

/-- The events a trace of a ring of `n` entries covers: the last `n - 1` ones. -/
def retained (n : Nat) (h : List TEv) : List TEv := h.drop (h.length - (n - 1))

/-- Every thread's trace reaches back to this time: the latest of the oldest events. -/
def coveredFrom (rs : List (List TEv)) : Nat :=
  (rs.filterMap List.head?).foldl (fun t e => max t e.ts) 0

/-- The events of the output that belong to thread `i`. -/
def ofThread (i : Nat) (out : List (Nat × TEv)) : List TEv :=
  out.filterMap fun p => if p.1 = i then some p.2 else none

/-! ## The ring -/

/-- The ring `b` of `n` entries holds the last events of `h`. -/
structure RingInv (n : Nat) (b : TBuf) (h : List TEv) : Prop where
  size : b.ev.length = n
  next : b.next = h.length % n
  readers : b.readers = 0
  used : ∀ m e, h[m]? = some e → h.length ≤ m + n → b.ev[m % n]? = some (some e)
  free : ∀ j, j < n → h.length ≤ j → b.ev[j]? = some none

theorem mod_ne {a b n : Nat} (h1 : a < b) (h2 : b < a + n) : a % n ≠ b % n := by
  intro h
  have e : b = a + (b - a) := by omega
  have h4 : (b - a) % n = 0 := by
    have := Nat.sub_mod_eq_zero_of_mod_eq h.symm
    exact this
  rw [Nat.mod_eq_of_lt (by omega)] at h4
  omega

theorem ringInv_new (k : Nat) : RingInv (2 ^ k) (TBuf.new k) [] where
  size := by simp [TBuf.new]
  next := by simp [TBuf.new]
  readers := rfl
  used := by intro m e h; simp at h
  free := by
    intro j hj _
    simp [TBuf.new, hj]

theorem ringInv_record {k : Nat} {b : TBuf} {h : List TEv} (hi : RingInv (2 ^ k) b h) (e : TEv) :
    RingInv (2 ^ k) (b.record e) (h ++ [e]) := by
  have hpos : 0 < 2 ^ k := Nat.two_pow_pos k
  have hr : b.record e
      = { b with ev := b.ev.set b.next (some e), next := (b.next + 1) &&& (b.size - 1) } := by
    unfold TBuf.record
    rw [hi.readers, if_neg (by decide)]
  rw [hr]
  have hnx := hi.next
  refine ⟨by simp [hi.size], ?_, hi.readers, ?_, ?_⟩
  · show (b.next + 1) &&& (b.ev.length - 1) = _
    rw [hi.size, Nat.and_two_pow_sub_one_eq_mod, hnx, Nat.mod_add_mod, List.length_append,
      List.length_singleton]
  · intro m e' hm hlen
    rw [List.length_append, List.length_singleton] at hlen
    show (b.ev.set b.next (some e))[m % 2 ^ k]? = _
    rcases Nat.lt_trichotomy m h.length with hlt | heq | hgt
    · rw [List.getElem?_append_left hlt] at hm
      rw [List.getElem?_set_ne (by rw [hnx]; exact (mod_ne hlt (by omega)).symm)]
      exact hi.used m e' hm (by omega)
    · subst heq
      rw [List.getElem?_append_right (Nat.le_refl _), Nat.sub_self] at hm
      cases hm
      rw [hnx, List.getElem?_set_self (by rw [hi.size]; exact Nat.mod_lt _ hpos)]
    · rw [List.getElem?_eq_none (by simp; omega)] at hm
      cases hm
  · intro j hj hlen
    rw [List.length_append, List.length_singleton] at hlen
    show (b.ev.set b.next (some e))[j]? = _
    rw [List.getElem?_set_ne (by rw [hnx, Nat.mod_eq_of_lt (by omega)]; omega)]
    exact hi.free j hj (by omega)

theorem resetEvs_clears : ∀ (l : List (Option TEv)),
    (∀ i j : Nat, i ≤ j → l[i]? = some none → j < l.length → l[j]? = some none) →
    resetEvs l = List.replicate l.length none := by
  intro l
  induction l with
  | nil => intro _; rfl
  | cons x l ih =>
    intro h
    cases x with
    | none =>
      simp only [resetEvs, List.length_cons, List.replicate_succ]
      congr 1
      refine List.ext_getElem? fun j => ?_
      by_cases hj : j < l.length
      · have := h 0 (j + 1) (Nat.zero_le _) rfl (by simp; omega)
        rw [List.getElem?_cons_succ] at this
        rw [this, List.getElem?_replicate, if_pos hj]
      · rw [List.getElem?_eq_none (by omega), List.getElem?_eq_none (by simp; omega)]
    | some e =>
      simp only [resetEvs, List.length_cons, List.replicate_succ]
      congr 1
      refine ih fun i j hij h1 h2 => ?_
      have := h (i + 1) (j + 1) (by omega) (by simpa using h1) (by simp; omega)
      simpa using this

theorem ringInv_reset {k : Nat} {b : TBuf} {h : List TEv} (hi : RingInv (2 ^ k) b h) :
    RingInv (2 ^ k) b.reset [] := by
  have hpos : 0 < 2 ^ k := Nat.two_pow_pos k
  have hclear : resetEvs b.ev = List.replicate b.ev.length none := by
    refine resetEvs_clears b.ev fun i j hij h1 h2 => ?_
    have hilt : i < 2 ^ k := by rw [← hi.size]; omega
    refine hi.free j (by rw [← hi.size]; exact h2) ?_
    refine Nat.le_trans ?_ hij
    refine Nat.le_of_not_lt fun hlt => ?_
    -- an event recorded at an index congruent to `i` is still there
    have key : ∃ m, m < h.length ∧ h.length ≤ m + 2 ^ k ∧ m % 2 ^ k = i := by
      refine ⟨h.length - 1 - (h.length - 1 - i) % 2 ^ k, by omega, ?_, ?_⟩
      · have := Nat.mod_lt (h.length - 1 - i) hpos
        omega
      · have hdiv := Nat.div_add_mod (h.length - 1 - i) (2 ^ k)
        have hle := Nat.mod_le (h.length - 1 - i) (2 ^ k)
        have e : h.length - 1 - (h.length - 1 - i) % 2 ^ k
            = i + 2 ^ k * ((h.length - 1 - i) / 2 ^ k) := by omega
        rw [e, Nat.add_mul_mod_self_left, Nat.mod_eq_of_lt hilt]
    obtain ⟨m, hm, hm2, hm3⟩ := key
    have := hi.used m h[m] (List.getElem?_eq_getElem hm) hm2
    rw [hm3, h1] at this
    cases this
  refine ⟨by simp [TBuf.reset, hclear, hi.size], by simp [TBuf.reset], hi.readers, ?_, ?_⟩
  · intro m e hm; simp at hm
  · intro j hj _
    show (resetEvs b.ev)[j]? = _
    rw [hclear, List.getElem?_replicate, if_pos (by rw [hi.size]; exact hj)]

theorem ringInv_run {k : Nat} (os : List TOp) : ∀ {b : TBuf} {h : List TEv}, RingInv (2 ^ k) b h →
    RingInv (2 ^ k) (b.run os) (tHist h os) := by
  induction os with
  | nil => intro b h hi; exact hi
  | cons o os ih =>
    intro b h hi
    cases o with
    | record e => exact ih (ringInv_record hi e)
    | reset => exact ih (ringInv_reset hi)

/-- Cursor `c` of ring `b`: the events from the cursor on are `l`. -/
def Rest (n : Nat) (b : TBuf) (l : List TEv) (c : Nat) : Prop :=
  ∃ h m, RingInv n b h ∧ m ≤ h.length ∧ h.length < m + n ∧ c = m % n ∧ l = h.drop m

theorem Rest.at {n : Nat} {b : TBuf} {e : TEv} {l : List TEv} {c : Nat}
    (h : Rest n b (e :: l) c) : c ≠ b.next ∧ b.at c = some e ∧ Rest n b l ((c + 1) % n) := by
  obtain ⟨h, m, hi, h1, h2, rfl, hl⟩ := h
  have hm : m < h.length := by
    rcases Nat.lt_or_ge m h.length with hlt | hge
    · exact hlt
    · rw [List.drop_of_length_le hge] at hl; cases hl
  have hme : h[m]? = some e := by
    have : (h.drop m)[0]? = some e := by rw [← hl]; rfl
    simpa using this
  refine ⟨?_, ?_, h, m + 1, hi, hm, by omega, ?_, ?_⟩
  · rw [hi.next]; exact mod_ne hm h2
  · rw [TBuf.at, hi.used m e hme (by omega)]; rfl
  · rw [Nat.mod_add_mod]
  · rw [List.drop_eq_getElem_cons hm] at hl
    exact (List.cons.inj hl).2

theorem Rest.nil {n : Nat} {b : TBuf} {c : Nat} (h : Rest n b [] c) : c = b.next := by
  obtain ⟨h, m, hi, h1, h2, rfl, hl⟩ := h
  have : h.length ≤ m := List.drop_eq_nil_iff.1 hl.symm
  rw [hi.next, Nat.le_antisymm h1 this]

theorem Rest.avail {n : Nat} {b : TBuf} {l : List TEv} {c : Nat} (h : Rest n b l c) :
    b.avail c = l.head? := by
  unfold TBuf.avail
  cases l with
  | nil => rw [if_neg (by simpa using h.nil)]; rfl
  | cons e l =>
    obtain ⟨h1, h2, _⟩ := h.at
    rw [if_pos h1, h2]; rfl

theorem Rest.length {n : Nat} {b : TBuf} {l : List TEv} {c : Nat} (h : Rest n b l c) :
    l.length < n := by
  obtain ⟨h, m, hi, h1, h2, rfl, rfl⟩ := h
  rw [List.length_drop]; omega

theorem Rest.size {n : Nat} {b : TBuf} {l : List TEv} {c : Nat} (h : Rest n b l c) :
    b.size = n := by
  obtain ⟨h, m, hi, _⟩ := h
  exact hi.size

/-- The first cursor: the retained events. -/
theorem first_rest {n : Nat} (hn : 2 ≤ n) {b : TBuf} {h : List TEv} (hi : RingInv n b h) :
    Rest n b (retained n h) b.first := by
  have hfirst : b.first = (h.length - (n - 1)) % n := by
    unfold TBuf.first
    simp only [TBuf.size, hi.size, hi.next, Nat.mod_add_mod]
    rcases Nat.lt_or_ge h.length (n - 1) with hlt | hge
    · have h1 : (h.length + 1) % n = h.length + 1 := Nat.mod_eq_of_lt (by omega)
      have h2 : b.at (h.length + 1) = none := by
        rw [TBuf.at, hi.free _ (by omega) (by omega)]; rfl
      rw [h1, h2, if_neg (by decide)]
      have : h.length - (n - 1) = 0 := by omega
      rw [this]; simp
    · have hm : (h.length + 1) % n = (h.length - (n - 1)) % n := by
        have : h.length + 1 = (h.length - (n - 1)) + n := by omega
        rw [this, Nat.add_mod_right]
      have hlt : h.length - (n - 1) < h.length := by omega
      have : b.at ((h.length - (n - 1)) % n) = some h[h.length - (n - 1)] := by
        rw [TBuf.at, hi.used _ _ (List.getElem?_eq_getElem hlt) (by omega)]; rfl
      rw [hm, this]; rfl
  exact ⟨h, h.length - (n - 1), hi, by omega, by omega, hfirst, rfl⟩

/-- Skipping events before the start time. -/
theorem skip_rest {n : Nat} {b : TBuf} (start : Nat) : ∀ (fuel : Nat) {l : List TEv} {c : Nat},
    Rest n b l c → l.length ≤ fuel →
    Rest n b (l.dropWhile fun e => decide (e.ts < start)) (b.skip start fuel c) := by
  intro fuel
  induction fuel with
  | zero =>
    intro l c h hl
    have : l = [] := List.eq_nil_of_length_eq_zero (by omega)
    subst this
    exact h
  | succ fuel ih =>
    intro l c h hl
    cases l with
    | nil =>
      have hc := h.nil
      rw [TBuf.skip]
      cases hat : b.at c with
      | none => exact h
      | some e =>
        dsimp only
        rw [if_neg (fun hh => hh.2 hc)]
        exact h
    | cons e l =>
      obtain ⟨h1, h2, h3⟩ := h.at
      rw [TBuf.skip, h2]
      dsimp only
      by_cases he : e.ts < start
      · rw [if_pos ⟨he, h1⟩, List.dropWhile_cons_of_pos (by simpa using he), h.size]
        exact ih h3 (by simpa using hl)
      · rw [if_neg (fun h => he h.1), List.dropWhile_cons_of_neg (by simpa using he)]
        exact h

/-! ## The merge -/

theorem pick_spec (l : List (Option TEv)) : ∀ (i best : Nat) (r : Option (Nat × TEv)),
    (pickEarliest l i best r = r ∧ ∀ e, some e ∈ l → best ≤ e.ts)
    ∨ ∃ j e, pickEarliest l i best r = some (i + j, e) ∧ l[j]? = some (some e) ∧ e.ts < best
        ∧ ∀ e', some e' ∈ l → e.ts ≤ e'.ts := by
  induction l with
  | nil => intro i best r; exact .inl ⟨rfl, fun e h => by cases h⟩
  | cons x l ih =>
    intro i best r
    cases x with
    | none =>
      rw [pickEarliest]
      rcases ih (i + 1) best r with ⟨h1, h2⟩ | ⟨j, e, h1, h2, h3, h4⟩
      · refine .inl ⟨h1, fun e he => ?_⟩
        rcases List.mem_cons.1 he with he | he
        · cases he
        · exact h2 e he
      · refine .inr ⟨j + 1, e, by rw [h1]; congr 2; omega, by simpa using h2, h3, fun e' he => ?_⟩
        rcases List.mem_cons.1 he with he | he
        · cases he
        · exact h4 e' he
    | some x =>
      rw [pickEarliest]
      by_cases hx : x.ts < best
      · rw [if_pos hx]
        rcases ih (i + 1) x.ts (some (i, x)) with ⟨h1, h2⟩ | ⟨j, e, h1, h2, h3, h4⟩
        · refine .inr ⟨0, x, by rw [h1]; rfl, rfl, hx, fun e' he => ?_⟩
          rcases List.mem_cons.1 he with he | he
          · cases he; exact Nat.le_refl _
          · exact h2 e' he
        · refine .inr ⟨j + 1, e, by rw [h1]; congr 2; omega, by simpa using h2, by omega,
            fun e' he => ?_⟩
          rcases List.mem_cons.1 he with he | he
          · cases he; omega
          · exact h4 e' he
      · rw [if_neg hx]
        rcases ih (i + 1) best r with ⟨h1, h2⟩ | ⟨j, e, h1, h2, h3, h4⟩
        · refine .inl ⟨h1, fun e he => ?_⟩
          rcases List.mem_cons.1 he with he | he
          · cases he; omega
          · exact h2 e he
        · refine .inr ⟨j + 1, e, by rw [h1]; congr 2; omega, by simpa using h2, h3, fun e' he => ?_⟩
          rcases List.mem_cons.1 he with he | he
          · cases he; omega
          · exact h4 e' he

/-- Buffers, remaining events and cursors belong together. -/
structure TraceSim (n : Nat) (bs : List TBuf) (ls : List (List TEv)) (cs : List Nat) : Prop where
  len1 : ls.length = bs.length
  len2 : cs.length = bs.length
  rest : ∀ (i : Nat) b l c, bs[i]? = some b → ls[i]? = some l → cs[i]? = some c → Rest n b l c

theorem TraceSim.avail {n : Nat} {bs : List TBuf} {ls : List (List TEv)} {cs : List Nat}
    (h : TraceSim n bs ls cs) : List.zipWith TBuf.avail bs cs = ls.map List.head? := by
  refine List.ext_getElem? fun i => ?_
  rw [List.getElem?_zipWith, List.getElem?_map]
  rcases Nat.lt_or_ge i bs.length with hi | hi
  · have h1 : bs[i]? = some bs[i] := List.getElem?_eq_getElem hi
    have h2 : ls[i]? = some (ls[i]'(by rw [h.len1]; exact hi)) := List.getElem?_eq_getElem _
    have h3 : cs[i]? = some (cs[i]'(by rw [h.len2]; exact hi)) := List.getElem?_eq_getElem _
    have := (h.rest i _ _ _ h1 h2 h3).avail
    rw [h1, h2, h3]
    simp [this]
  · rw [List.getElem?_eq_none hi, List.getElem?_eq_none (l := ls) (by rw [h.len1]; exact hi)]
    rfl

theorem TraceSim.step {n : Nat} {bs : List TBuf} {ls : List (List TEv)} {cs : List Nat}
    (h : TraceSim n bs ls cs) :
    (traceStep bs cs = none ∧ ∀ l ∈ ls, ∀ e, l.head? = some e → 2 ^ 64 - 1 ≤ e.ts)
    ∨ ∃ (i : Nat) (e : TEv) (l : List TEv) (cs' : List Nat), traceStep bs cs = some ((i, e), cs')
        ∧ ls[i]? = some (e :: l) ∧ TraceSim n bs (ls.set i l) cs'
        ∧ ∀ l' ∈ ls, ∀ e', l'.head? = some e' → e.ts ≤ e'.ts := by
  unfold traceStep
  rw [h.avail]
  rcases pick_spec (ls.map List.head?) 0 (2 ^ 64 - 1) none with ⟨h1, h2⟩ | ⟨i, e, h1, h2, h3, h4⟩
  · refine .inl ⟨by rw [h1], fun l hl e he => h2 e ?_⟩
    exact List.mem_map.2 ⟨l, hl, he⟩
  · rw [Nat.zero_add] at h1
    rw [List.getElem?_map, Option.map_eq_some_iff] at h2
    obtain ⟨l0, hl0, hh⟩ := h2
    cases l0 with
    | nil => cases hh
    | cons x l =>
      cases hh
      have hi : i < ls.length := (List.getElem?_eq_some_iff.1 hl0).1
      have hb : bs[i]? = some (bs[i]'(by rw [← h.len1]; exact hi)) := List.getElem?_eq_getElem _
      have hc : cs[i]? = some (cs[i]'(by rw [h.len2, ← h.len1]; exact hi)) :=
        List.getElem?_eq_getElem _
      have hr := h.rest i _ _ _ hb hl0 hc
      have hbl : i < bs.length := by rw [← h.len1]; exact hi
      have hcl : i < cs.length := by rw [h.len2, ← h.len1]; exact hi
      refine .inr ⟨i, e, l, cs.set i ((cs[i] + 1) % bs[i].size), ?_, hl0, ?_, ?_⟩
      · rw [h1]
        dsimp only
        rw [hb, hc]
      · refine ⟨by simp [h.len1], by simp [h.len2], ?_⟩
        intro j b' l' c' hb' hl' hc'
        by_cases hj : i = j
        · subst hj
          rw [List.getElem?_set_self hi] at hl'
          rw [List.getElem?_set_self (by rw [h.len2, ← h.len1]; exact hi)] at hc'
          rw [hb] at hb'
          cases hb'; cases hl'; cases hc'
          rw [hr.size]
          exact hr.at.2.2
        · rw [List.getElem?_set_ne hj] at hl' hc'
          exact h.rest j b' l' c' hb' hl' hc'
      · intro l' hl' e' he'
        exact h4 e' (List.mem_map.2 ⟨l', hl', he'⟩)

theorem sum_set {ls : List (List TEv)} {i : Nat} {e : TEv} {l : List TEv}
    (h : ls[i]? = some (e :: l)) :
    ((ls.set i l).map List.length).sum + 1 = (ls.map List.length).sum := by
  induction ls generalizing i with
  | nil => simp at h
  | cons x ls ih =>
    cases i with
    | zero =>
      simp only [List.getElem?_cons_zero, Option.some.injEq] at h
      subst h
      simp only [List.set_cons_zero, List.map_cons, List.sum_cons, List.length_cons]
      omega
    | succ i =>
      simp only [List.getElem?_cons_succ] at h
      have := ih h
      simp only [List.set_cons_succ, List.map_cons, List.sum_cons]
      omega

theorem ofThread_cons (i j : Nat) (e : TEv) (out : List (Nat × TEv)) :
    ofThread i ((j, e) :: out) = if j = i then e :: ofThread i out else ofThread i out := by
  unfold ofThread
  rw [List.filterMap_cons]
  by_cases h : j = i <;> simp [h]

theorem loop_trace {n : Nat} {bs : List TBuf} : ∀ (fuel : Nat) {ls : List (List TEv)}
    {cs : List Nat}, TraceSim n bs ls cs → (ls.map List.length).sum < fuel →
    ∃ out, traceLoop fuel bs cs = some out
      ∧ (∀ p ∈ out, p.1 < bs.length)
      ∧ (∀ (i : Nat) l, ls[i]? = some l → ofThread i out <+: l)
      ∧ ((∀ l ∈ ls, ∀ e ∈ l, e.ts < 2 ^ 64 - 1) →
          ∀ (i : Nat) l, ls[i]? = some l → ofThread i out = l)
      ∧ ((∀ l ∈ ls, l.Pairwise fun a b => a.ts ≤ b.ts) →
          out.Pairwise fun a b => a.2.ts ≤ b.2.ts) := by
  intro fuel
  induction fuel with
  | zero => intro ls cs _ h; omega
  | succ fuel ih =>
    intro ls cs hs hf
    rw [traceLoop]
    rcases hs.step with ⟨h1, h2⟩ | ⟨i, e, l, cs', h1, h2, h3, h4⟩
    · refine ⟨[], by rw [h1], (fun p hp => by cases hp), (fun i l _ => List.nil_prefix), ?_,
        (fun _ => List.Pairwise.nil)⟩
      intro hlt i l hl
      cases l with
      | nil => rfl
      | cons e l =>
        have hmem := List.mem_of_getElem? hl
        have := h2 _ hmem e rfl
        have := hlt _ hmem e List.mem_cons_self
        omega
    · have hsum := sum_set h2
      obtain ⟨out, e1, hidx, hpre, hall, hsort⟩ := ih h3 (by omega)
      have hi : i < ls.length := (List.getElem?_eq_some_iff.1 h2).1
      refine ⟨(i, e) :: out, by rw [h1]; simp [e1], ?_, ?_, ?_, ?_⟩
      · intro p hp
        rcases List.mem_cons.1 hp with rfl | hp
        · rw [← hs.len1]; exact hi
        · exact hidx p hp
      · intro j l' hl'
        rw [ofThread_cons]
        by_cases hj : i = j
        · subst hj
          rw [if_pos rfl]
          rw [h2] at hl'
          cases hl'
          have := hpre i l (List.getElem?_set_self hi)
          exact List.cons_prefix_cons.2 ⟨rfl, this⟩
        · rw [if_neg hj]
          exact hpre j l' (by rw [List.getElem?_set_ne hj]; exact hl')
      · intro hlt j l' hl'
        have hlt' : ∀ l' ∈ ls.set i l, ∀ e ∈ l', e.ts < 2 ^ 64 - 1 := by
          intro l' hl' e' he'
          rcases List.mem_or_eq_of_mem_set hl' with hl' | rfl
          · exact hlt l' hl' e' he'
          · exact hlt _ (List.mem_of_getElem? h2) e' (List.mem_cons_of_mem _ he')
        rw [ofThread_cons]
        by_cases hj : i = j
        · subst hj
          rw [if_pos rfl]
          rw [h2] at hl'
          cases hl'
          rw [hall hlt' i l (List.getElem?_set_self hi)]
        · rw [if_neg hj]
          exact hall hlt' j l' (by rw [List.getElem?_set_ne hj]; exact hl')
      · intro hso
        have hso' : ∀ l' ∈ ls.set i l, l'.Pairwise fun a b => a.ts ≤ b.ts := by
          intro l' hl'
          rcases List.mem_or_eq_of_mem_set hl' with hl' | rfl
          · exact hso l' hl'
          · exact (List.pairwise_cons.1 (hso _ (List.mem_of_getElem? h2))).2
        refine List.pairwise_cons.2 ⟨?_, hsort hso'⟩
        rintro ⟨j, e'⟩ hp
        -- `e'` is an event of a remaining list, hence not before the head of that list
        have hjl : j < (ls.set i l).length := by
          rw [List.length_set, hs.len1]; exact hidx _ hp
        have hlj : (ls.set i l)[j]? = some (ls.set i l)[j] := List.getElem?_eq_getElem hjl
        have hmem : e' ∈ ofThread j out :=
          List.mem_filterMap.2 ⟨(j, e'), hp, by simp⟩
        have hin := (hpre j _ hlj).subset hmem
        generalize (ls.set i l)[j] = l' at hlj hin
        show e.ts ≤ e'.ts
        by_cases hj : i = j
        · subst hj
          rw [List.getElem?_set_self hi] at hlj
          cases hlj
          exact (List.pairwise_cons.1 (hso _ (List.mem_of_getElem? h2))).1 e' hin
        · rw [List.getElem?_set_ne hj] at hlj
          have hml := List.mem_of_getElem? hlj
          cases l' with
          | nil => cases hin
          | cons x l' =>
            have := h4 _ hml x rfl
            rcases List.mem_cons.1 hin with rfl | hin
            · exact this
            · have := (List.pairwise_cons.1 (hso _ hml)).1 e' hin
              omega

/-! ## The whole trace -/

theorem first_head {n : Nat} (hn : 2 ≤ n) {b : TBuf} {h : List TEv} (hi : RingInv n b h) :
    b.at b.first = (retained n h).head? := by
  have hr := first_rest hn hi
  cases hl : retained n h with
  | cons e l => rw [hl] at hr; exact hr.at.2.1
  | nil =>
    rw [hl] at hr
    have hlen : (retained n h).length = 0 := by rw [hl]; rfl
    rw [retained, List.length_drop] at hlen
    have h0 : h.length = 0 := by omega
    rw [hr.nil, hi.next, h0, Nat.zero_mod, TBuf.at, hi.free 0 (by omega) (by omega)]
    rfl

theorem startTime_eq (l : List (Option TEv)) (t : Nat) :
    startTime l t = (l.filterMap id).foldl (fun t e => max t e.ts) t := by
  induction l generalizing t with
  | nil => rfl
  | cons x l ih =>
    cases x with
    | none => simpa [startTime] using ih t
    | some e =>
      simp only [startTime, ih, List.filterMap_cons, id_eq, List.foldl_cons]
      congr 1
      split <;> omega

theorem foldl_max_le (l : List TEv) : ∀ (t : Nat), t ≤ l.foldl (fun t e => max t e.ts) t
    ∧ ∀ e ∈ l, e.ts ≤ l.foldl (fun t e => max t e.ts) t := by
  induction l with
  | nil => intro t; exact ⟨Nat.le_refl _, fun e h => by cases h⟩
  | cons x l ih =>
    intro t
    obtain ⟨h1, h2⟩ := ih (max t x.ts)
    rw [List.foldl_cons]
    refine ⟨by omega, fun e he => ?_⟩
    rcases List.mem_cons.1 he with rfl | he
    · omega
    · exact h2 e he

/-- The rings of the threads after their operations. -/
def rings (k : Nat) (oss : List (List TOp)) : List TBuf := oss.map fun os => (TBuf.new k).run os

/-- What each thread's trace covers. -/
def covered (k : Nat) (oss : List (List TOp)) : List (List TEv) :=
  oss.map fun os => retained (2 ^ k) (tHist [] os)

theorem start_sim {k : Nat} (hk : 1 ≤ k) (oss : List (List TOp)) :
    TraceSim (2 ^ k) (rings k oss)
      ((covered k oss).map fun l => l.dropWhile fun e => decide (e.ts < coveredFrom (covered k oss)))
      (traceStart (rings k oss)) := by
  have hn : 2 ≤ 2 ^ k := by
    calc 2 = 2 ^ 1 := rfl
      _ ≤ 2 ^ k := Nat.pow_le_pow_right (by decide) hk
  have hrest : ∀ os, Rest (2 ^ k) ((TBuf.new k).run os) (retained (2 ^ k) (tHist [] os))
      ((TBuf.new k).run os).first := fun os => first_rest hn (ringInv_run os (ringInv_new k))
  have hat : List.zipWith TBuf.at (rings k oss) ((rings k oss).map TBuf.first)
      = (oss.map fun os => ((TBuf.new k).run os).at ((TBuf.new k).run os).first) := by
    refine List.ext_getElem? fun i => ?_
    simp only [rings, List.getElem?_zipWith, List.getElem?_map]
    cases oss[i]? <;> rfl
  have hstart : startTime (List.zipWith TBuf.at (rings k oss) ((rings k oss).map TBuf.first)) 0
      = coveredFrom (covered k oss) := by
    have : (fun os => ((TBuf.new k).run os).at ((TBuf.new k).run os).first)
        = fun os => (retained (2 ^ k) (tHist [] os)).head? :=
      funext fun os => first_head hn (ringInv_run os (ringInv_new k))
    rw [startTime_eq, hat, this, coveredFrom, covered, List.filterMap_map, List.filterMap_map]
    rfl
  refine ⟨by simp [rings, covered], by simp [traceStart, rings], ?_⟩
  intro i b l c hb hl hc
  simp only [rings, List.getElem?_map, Option.map_eq_some_iff] at hb
  obtain ⟨os, hos, rfl⟩ := hb
  simp only [covered, List.getElem?_map, hos, Option.map_some, Option.some.injEq] at hl
  subst hl
  simp only [traceStart, hstart] at hc
  simp only [rings, List.getElem?_zipWith, List.getElem?_map, hos, Option.map_some,
    Option.some.injEq] at hc
  subst hc
  have := hrest os
  have h2 := skip_rest (coveredFrom (covered k oss)) (2 ^ k) this (Nat.le_of_lt this.length)
  rw [this.size]
  exact h2

theorem sum_le {n : Nat} (ls : List (List TEv)) (h : ∀ l ∈ ls, l.length ≤ n) :
    (ls.map List.length).sum ≤ (ls.map fun _ => n).sum := by
  induction ls with
  | nil => exact Nat.le_refl _
  | cons l ls ih =>
    have h1 := h l List.mem_cons_self
    have h2 := ih fun l hl => h l (List.mem_cons_of_mem _ hl)
    simp only [List.map_cons, List.sum_cons]
    omega

theorem print_trace {k : Nat} (hk : 1 ≤ k) (oss : List (List TOp)) :
    ∃ out, printTrace (rings k oss) = some out
      ∧ (∀ p ∈ out, p.1 < oss.length)
      ∧ (∀ (i : Nat) l, (covered k oss)[i]? = some l → ofThread i out
          <+: l.dropWhile fun e => decide (e.ts < coveredFrom (covered k oss)))
      ∧ ((∀ l ∈ covered k oss, ∀ e ∈ l, e.ts < 2 ^ 64 - 1) →
          ∀ (i : Nat) l, (covered k oss)[i]? = some l → ofThread i out
            = l.dropWhile fun e => decide (e.ts < coveredFrom (covered k oss)))
      ∧ ((∀ l ∈ covered k oss, l.Pairwise fun a b => a.ts ≤ b.ts) →
          out.Pairwise fun a b => a.2.ts ≤ b.2.ts) := by
  have hsim := start_sim hk oss
  obtain ⟨out, h1, h2, h3, h4, h5⟩ := loop_trace (((rings k oss).map TBuf.size).sum + 1) hsim (by
    refine Nat.lt_succ_of_le (Nat.le_trans (sum_le (n := 2 ^ k) _ ?_) ?_)
    · intro l hl
      simp only [covered, List.map_map, List.mem_map, Function.comp_apply] at hl
      obtain ⟨os, _, rfl⟩ := hl
      refine Nat.le_trans (List.dropWhile_sublist _).length_le ?_
      have := Nat.two_pow_pos k
      rw [retained, List.length_drop]
      omega
    · simp only [covered, rings, List.map_map]
      refine Nat.le_of_eq (congrArg List.sum (List.map_congr_left fun os _ => ?_))
      exact (ringInv_run os (ringInv_new k)).size.symm)
  refine ⟨out, h1, ?_, ?_, ?_, ?_⟩
  · intro p hp
    have := h2 p hp
    rwa [rings, List.length_map] at this
  · intro i l hl
    exact h3 i _ (by rw [List.getElem?_map, hl]; rfl)
  · intro hlt i l hl
    refine h4 ?_ i _ (by rw [List.getElem?_map, hl]; rfl)
    intro l' hl' e he
    obtain ⟨l0, hl0, rfl⟩ := List.mem_map.1 hl'
    exact hlt l0 hl0 e ((List.dropWhile_sublist _).subset he)
  · intro hso
    refine h5 ?_
    intro l' hl'
    obtain ⟨l0, hl0, rfl⟩ := List.mem_map.1 hl'
    exact (hso l0 hl0).sublist (List.dropWhile_sublist _)

theorem dropWhile_sorted (t : Nat) (l : List TEv) (h : l.Pairwise fun a b => a.ts ≤ b.ts) :
    (l.dropWhile fun e => decide (e.ts < t)) = l.filter fun e => decide (t ≤ e.ts) := by
  induction l with
  | nil => rfl
  | cons e l ih =>
    obtain ⟨h1, h2⟩ := List.pairwise_cons.1 h
    by_cases he : e.ts < t
    · rw [List.dropWhile_cons_of_pos (by simpa using he),
        List.filter_cons_of_neg (by simpa using he), ih h2]
    · rw [List.dropWhile_cons_of_neg (by simpa using he)]
      symm
      refine List.filter_eq_self.2 fun x hx => ?_
      rcases List.mem_cons.1 hx with rfl | hx
      · simpa using he
      · have := h1 x hx
        simpa using (by omega : t ≤ x.ts)

/-! ## The properties -/

/-- **C48.**  Printing the traces of any number of threads, each of which recorded and reset as
it liked, with rings of `2^k` entries: printing ends, every event printed for a thread is one of
the last `2^k - 1` events that thread recorded since its last reset, and they appear in the
order recorded, each at most once.  No assumption on the time stamps. -/
theorem C48_once (k : Nat) (hk : 1 ≤ k) (oss : List (List TOp)) :
    ∃ out, printTrace (rings k oss) = some out
      ∧ (∀ p ∈ out, p.1 < oss.length)
      ∧ ∀ (i : Nat) os, oss[i]? = some os →
          (ofThread i out).Sublist (retained (2 ^ k) (tHist [] os)) := by
  obtain ⟨out, h1, h2, h3, _, _⟩ := print_trace hk oss
  refine ⟨out, h1, h2, fun i os ho => ?_⟩
  exact (h3 i _ (by rw [covered, List.getElem?_map, ho]; rfl)).sublist.trans
    (List.dropWhile_sublist _)

/-- **C48.**  If in addition the time stamps of each thread never decrease and none is
`2^64 - 1`, the events are printed in chronological order over all threads, and those of
thread `i` are exactly the retained ones not older than the time from which the traces of all
threads cover everything.  Partial: events recorded while printing are missing
(`C48_lock_false`), and both conditions are needed (`C48_unsorted_false`,
`C48_last_stamp_false`). -/
theorem C48_trace_partial (k : Nat) (hk : 1 ≤ k) (oss : List (List TOp))
    (hs : ∀ os ∈ oss, (tHist [] os).Pairwise fun a b => a.ts ≤ b.ts)
    (hm : ∀ os ∈ oss, ∀ e ∈ tHist [] os, e.ts < 2 ^ 64 - 1) :
    ∃ out, printTrace (rings k oss) = some out
      ∧ out.Pairwise (fun a b => a.2.ts ≤ b.2.ts)
      ∧ (∀ p ∈ out, p.1 < oss.length)
      ∧ ∀ (i : Nat) os, oss[i]? = some os →
          ofThread i out = (retained (2 ^ k) (tHist [] os)).filter
            fun e => decide (coveredFrom (covered k oss) ≤ e.ts) := by
  obtain ⟨out, h1, h2, _, h4, h5⟩ := print_trace hk oss
  have hsub : ∀ l ∈ covered k oss, ∃ os ∈ oss, l.Sublist (tHist [] os) := by
    intro l hl
    obtain ⟨os, ho, rfl⟩ := List.mem_map.1 hl
    exact ⟨os, ho, List.drop_sublist _ _⟩
  refine ⟨out, h1, h5 ?_, h2, fun i os ho => ?_⟩
  · intro l hl
    obtain ⟨os, ho, hsb⟩ := hsub l hl
    exact (hs os ho).sublist hsb
  · have hmem := List.mem_of_getElem? ho
    rw [h4 ?_ i _ (by rw [covered, List.getElem?_map, ho]; rfl)]
    · exact dropWhile_sorted _ _ ((hs os hmem).sublist (List.drop_sublist _ _))
    · intro l hl e he
      obtain ⟨os, ho, hsb⟩ := hsub l hl
      exact hm os ho e (hsb.subset he)

/-- The start time is what the specification says: every thread's oldest retained event is not
later, and it is the time of one of them (or there is none). -/
theorem C48_start (k : Nat) (oss : List (List TOp)) :
    (∀ l ∈ covered k oss, ∀ e, l.head? = some e → e.ts ≤ coveredFrom (covered k oss))
      ∧ (coveredFrom (covered k oss) = 0
          ∨ ∃ l ∈ covered k oss, ∃ e, l.head? = some e
              ∧ e.ts = coveredFrom (covered k oss)) := by
  have hmax : ∀ (l : List TEv) (t : Nat), l.foldl (fun t e => max t e.ts) t = t
      ∨ ∃ e ∈ l, e.ts = l.foldl (fun t e => max t e.ts) t := by
    intro l
    induction l with
    | nil => intro t; exact .inl rfl
    | cons x l ih =>
      intro t
      rw [List.foldl_cons]
      rcases ih (max t x.ts) with h | ⟨e, he, h⟩
      · rw [h]
        rcases Nat.le_total x.ts t with hle | hle
        · exact .inl (Nat.max_eq_left hle)
        · exact .inr ⟨x, List.mem_cons_self, (Nat.max_eq_right hle).symm⟩
      · exact .inr ⟨e, List.mem_cons_of_mem _ he, h⟩
  constructor
  · intro l hl e he
    exact (foldl_max_le _ 0).2 e (List.mem_filterMap.2 ⟨l, hl, he⟩)
  · rcases hmax ((covered k oss).filterMap List.head?) 0 with h | ⟨e, he, h⟩
    · exact .inl h
    · obtain ⟨l, hl, hh⟩ := List.mem_filterMap.1 he
      exact .inr ⟨l, hl, e, hh, h⟩

/-- Three events in a ring of four entries. -/
def exRing : TBuf := (TBuf.new 2).run [.record ⟨10, 1⟩, .record ⟨20, 2⟩, .record ⟨30, 3⟩]

/-- **C48**, refuted part: the count of readers is meant to keep threads from recording while a
trace is printed.  Whatever a buffer went through, an event recorded after the start of
printing is stored; and this loses events that were recorded long before: with three events in
a ring of four entries, two events recorded after the first was printed make the printing stop,
although the ring still holds the second and the third. -/
theorem C48_lock_false :
    (∀ (k : Nat) (os : List TOp) (e : TEv),
      let b := (TBuf.new k).run os
      (b.beginRead.record e).ev[b.next]? = some (some e))
    ∧ traceStep [exRing.beginRead] (traceStart [exRing.beginRead]) = some ((0, ⟨10, 1⟩), [1])
    ∧ traceStep [exRing.beginRead] [1] = some ((0, ⟨20, 2⟩), [2])
    ∧ traceStep [(exRing.beginRead.record ⟨40, 4⟩).record ⟨50, 5⟩] [1] = none
    ∧ ((exRing.beginRead.record ⟨40, 4⟩).record ⟨50, 5⟩).at 1 = some ⟨20, 2⟩
    ∧ ((exRing.beginRead.record ⟨40, 4⟩).record ⟨50, 5⟩).at 2 = some ⟨30, 3⟩ := by
  refine ⟨?_, by decide, by decide, by decide, by decide, by decide⟩
  intro k os e b
  have hi := ringInv_run os (ringInv_new k)
  have hb : b.beginRead = b := by
    show ({ b with readers := b.readers &&& 1 } : TBuf) = b
    have : b.readers = 0 := hi.readers
    rw [this, show (0 : BitVec 32) &&& 1 = 0 from by decide, ← this]
  rw [hb, TBuf.record, hi.readers, if_neg (by decide)]
  refine List.getElem?_set_self ?_
  show b.next < b.ev.length
  rw [hi.size, hi.next]
  exact Nat.mod_lt _ (Nat.two_pow_pos k)

/-- **C48**, the order assumption is needed: `record` takes the time stamp as an argument, and
with decreasing stamps the output is not chronological, and an event older than the start time
(4 before 5) is printed. -/
theorem C48_unsorted_false :
    printTrace (rings 2 [[.record ⟨20, 1⟩, .record ⟨10, 2⟩]])
      = some [(0, ⟨20, 1⟩), (0, ⟨10, 2⟩)]
    ∧ printTrace (rings 2 [[.record ⟨5, 1⟩], [.record ⟨3, 2⟩, .record ⟨7, 3⟩, .record ⟨4, 4⟩]])
      = some [(0, ⟨5, 1⟩), (1, ⟨7, 3⟩), (1, ⟨4, 4⟩)] := by
  decide

/-- **C48**, the bound on stamps is needed: an event with stamp `2^64 - 1` is never printed, and
keeps the later events of its thread from being printed. -/
theorem C48_last_stamp_false :
    printTrace (rings 2 [[.record ⟨5, 1⟩, .record ⟨2 ^ 64 - 1, 2⟩]]) = some [(0, ⟨5, 1⟩)] := by
  decide

/-- Two threads: the first has recorded more than its ring holds and was reset before; the
second has older events than the first retains. -/
def exTrace : List (List TOp) :=
  [[.record ⟨1, 1⟩, .reset, .record ⟨10, 2⟩, .record ⟨20, 3⟩, .record ⟨30, 4⟩, .record ⟨40, 5⟩],
   [.record ⟨15, 6⟩, .record ⟨25, 7⟩, .record ⟨30, 8⟩]]

example : (∀ os ∈ exTrace, (tHist [] os).Pairwise fun a b => a.ts ≤ b.ts)
    ∧ (∀ os ∈ exTrace, ∀ e ∈ tHist [] os, e.ts < 2 ^ 64 - 1)
    ∧ coveredFrom (covered 2 exTrace) = 20
    ∧ printTrace (rings 2 exTrace)
      = some [(0, ⟨20, 3⟩), (1, ⟨25, 7⟩), (0, ⟨30, 4⟩), (1, ⟨30, 8⟩), (0, ⟨40, 5⟩)] := by
  decide

end NanoLog
