import Verif.Rcdf
import Verif.Props.File
import Verif.RuntimeExample

/-!
# C60: the reverse distribution of the times between messages
-/

namespace NanoLog

/-! ## Specification -/

/-- How many of the values are greater than `x`. -/
def above (x : Nat) (ds : List Nat) : Nat := (ds.filter fun d => x < d).length

/-- `rows` is a reverse cumulative distribution of `ds`, accurate to `bound`: it begins at the least
value with everything, each further line but the last gives the exact share of the values greater than its own by more than
`bound`, it ends at the largest value, no value is farther than `bound` from that of a
line, and it goes down. -/
structure ReverseCdf (bound : Nat) (ds : List Nat) (rows : List (Nat × ℚ)) : Prop where
  first : ∃ x inner y p, rows = (x, 1) :: (inner ++ [(y, p)]) ∧ x ∈ ds ∧ (∀ d ∈ ds, x ≤ d) ∧
    y ∈ ds ∧ (∀ d ∈ ds, d ≤ y) ∧ p = 1 / (ds.length : ℚ) ∧
    ∀ r ∈ inner, r.1 ∈ ds ∧ r.2 = (above (r.1 + bound) ds : ℚ) / ds.length
  near : ∀ d ∈ ds, ∃ r ∈ rows, d ≤ r.1 + bound ∧ r.1 ≤ d + bound
  sorted : rows.Pairwise fun r r' => r.1 ≤ r'.1 ∧ r'.2 ≤ r.2

/-! ## Proof -/

/-- State of the loop: `done` are the values before the index, `rest` those from it on. -/
structure LoopInv (bound last : Nat) (done rest : List Nat) : Prop where
  sorted : (done ++ rest).Pairwise (· ≤ ·)
  mem : last ∈ done
  within : ∀ x ∈ done, x ≤ last + bound

theorem LoopInv.le {bound last : Nat} {done rest : List Nat} (h : LoopInv bound last done rest) :
    ∀ d ∈ rest, last ≤ d := fun d hd => (List.pairwise_append.1 h.sorted).2.2 last h.mem d hd

/-- The next value is not far away. -/
theorem LoopInv.skip {bound last d : Nat} {done rest : List Nat} (h : LoopInv bound last done (d :: rest))
    (hd : d ≤ last + bound) : LoopInv bound last (done ++ [d]) rest where
  sorted := by rw [List.append_assoc]; exact h.sorted
  mem := List.mem_append_left _ h.mem
  within := by
    intro x hx
    rcases List.mem_append.1 hx with hx | hx
    · exact h.within x hx
    · rw [List.mem_singleton.1 hx]; exact hd

/-- The next value gets a line. -/
theorem LoopInv.move {bound last d : Nat} {done rest : List Nat} (h : LoopInv bound last done (d :: rest)) :
    LoopInv bound d (done ++ [d]) rest where
  sorted := by rw [List.append_assoc]; exact h.sorted
  mem := by simp
  within := by
    intro x hx
    rcases List.mem_append.1 hx with hx | hx
    · have := (List.pairwise_append.1 h.sorted).2.2 x hx d (by simp); omega
    · rw [List.mem_singleton.1 hx]; omega

theorem above_rest {bound last d : Nat} {done rest : List Nat} (h : LoopInv bound last done (d :: rest))
    (hd : last + bound < d) : above (last + bound) (done ++ d :: rest) = (d :: rest).length := by
  have hs := (List.pairwise_cons.1 (List.pairwise_append.1 h.sorted).2.1).1
  unfold above
  rw [List.filter_append, List.filter_eq_nil_iff.2 (fun x hx => by have := h.within x hx; simp; omega),
    List.filter_eq_self.2 (fun x hx => ?_), List.nil_append]
  rcases List.mem_cons.1 hx with rfl | hx
  · simpa using hd
  · have := hs x hx; simp; omega

theorem diff_small {d last : Nat} (hd : d < 2 ^ 64) (h : last ≤ d) :
    (d + 2 ^ 64 - last) % 2 ^ 64 = d - last := by
  rw [show d + 2 ^ 64 - last = d - last + 2 ^ 64 by omega, Nat.add_mod_right]
  exact Nat.mod_eq_of_lt (by omega)

/-- The lines of the loop. -/
theorem rcdfLoop_spec {bound n : Nat} (rest : List Nat) : ∀ {last : Nat} {done : List Nat},
    LoopInv bound last done rest → (∀ d ∈ rest, d < 2 ^ 64) → n = done.length + rest.length →
    (∀ r ∈ rcdfLoop bound n done.length last rest, r.1 ∈ done ++ rest ∧ last ≤ r.1 ∧
      r.2 = (above (r.1 + bound) (done ++ rest) : ℚ) / n ∧ 1 / (n : ℚ) ≤ r.2) ∧
    (∀ d ∈ last :: rest, (∃ r ∈ rcdfLoop bound n done.length last rest, r.1 ≤ d ∧ d ≤ r.1 + bound) ∨
      ∀ y ∈ done ++ rest, y ≤ d + bound) ∧
    (rcdfLoop bound n done.length last rest).Pairwise fun r r' => r.1 ≤ r'.1 ∧ r'.2 ≤ r.2 := by
  induction rest with
  | nil =>
    intro last done h _ _
    refine ⟨fun r hr => (by cases hr), fun d hd => .inr fun y hy => ?_, .nil⟩
    rw [List.append_nil] at hy
    rw [List.mem_singleton.1 hd]
    exact h.within y hy
  | cons d rest ih =>
    intro last done h hlt hn
    have hle := h.le d (by simp)
    have hlt' : ∀ e ∈ rest, e < 2 ^ 64 := fun e he => hlt e (by simp [he])
    have happ : (done ++ [d]) ++ rest = done ++ d :: rest := by simp
    have hlen : (done ++ [d]).length = done.length + 1 := by simp
    simp only [rcdfLoop, diff_small (hlt d (by simp)) hle]
    split
    · rename_i hb
      obtain ⟨i1, i2, i3⟩ := ih h.move hlt' (by simp at hn ⊢; omega)
      rw [hlen, happ] at i1 i2
      rw [hlen] at i3
      have hab := above_rest h (by omega)
      have hnq : (n : ℚ) ≠ 0 := by
        have : n ≠ 0 := by simp at hn; omega
        exact_mod_cast this
      have hn0 : (0 : ℚ) < n := by
        have : 0 < n := by simp at hn; omega
        exact_mod_cast this
      have hshare : 1 - (done.length : ℚ) / n = (above (last + bound) (done ++ d :: rest) : ℚ) / n := by
        rw [hab]
        have : (n : ℚ) = done.length + (d :: rest).length := by rw [hn]; push_cast; ring
        rw [eq_div_iff hnq, sub_mul, div_mul_cancel₀ _ hnq]
        linarith
      refine ⟨?_, ?_, ?_⟩
      · intro r hr
        rcases List.mem_cons.1 hr with rfl | hr
        · refine ⟨List.mem_append_left _ h.mem, Nat.le_refl _, hshare, ?_⟩
          rw [hshare, hab]
          refine div_le_div_of_nonneg_right ?_ (Nat.cast_nonneg n)
          simp
        · obtain ⟨j1, j2, j3, j4⟩ := i1 r hr
          exact ⟨j1, by omega, j3, j4⟩
      · intro e he
        rcases List.mem_cons.1 he with rfl | he
        · exact .inl ⟨(e, 1 - (done.length : ℚ) / n), by simp, Nat.le_refl _, Nat.le_add_right _ _⟩
        · rcases i2 e he with ⟨r, h1, h2⟩ | h1
          · exact .inl ⟨r, List.mem_cons_of_mem _ h1, h2⟩
          · exact .inr h1
      · refine List.pairwise_cons.2 ⟨fun r hr => ?_, i3⟩
        obtain ⟨-, j2, j3, -⟩ := i1 r hr
        refine ⟨by simp only; omega, ?_⟩
        rw [j3, hshare]
        refine div_le_div_of_nonneg_right (Nat.cast_le.2 ?_) (Nat.cast_nonneg n)
        refine List.Sublist.length_le (List.monotone_filter_right _ ?_)
        intro x hx
        simp only [decide_eq_true_eq] at hx ⊢
        omega
    · rename_i hb
      obtain ⟨i1, i2, i3⟩ := ih (h.skip (by omega)) hlt' (by simp at hn ⊢; omega)
      rw [hlen, happ] at i1 i2
      rw [hlen] at i3
      refine ⟨i1, ?_, i3⟩
      intro e he
      simp only [List.mem_cons] at he
      rcases he with rfl | rfl | he
      · exact i2 e (by simp)
      · rcases i2 last (by simp) with ⟨r, h1, h2, h3⟩ | h1
        · obtain ⟨-, j2, -, -⟩ := i1 r h1
          exact .inl ⟨r, h1, by omega, by omega⟩
        · exact .inr fun y hy => by have := h1 y hy; omega
      · exact i2 e (by simp [he])

theorem insertionSort_perm (ds : List Nat) : (ds.insertionSort (· ≤ ·)).Perm ds := List.perm_insertionSort _ _

theorem above_perm {a b : List Nat} (h : a.Perm b) (x : Nat) : above x a = above x b := (h.filter _).length_eq

theorem above_le (x : Nat) (ds : List Nat) : above x ds ≤ ds.length := List.length_filter_le _ _

theorem le_last {l : List Nat} (hs : l.Pairwise (· ≤ ·)) (h : l ≠ []) : ∀ x ∈ l, x ≤ l.getLast h := by
  intro x hx
  have hdl := List.dropLast_append_getLast h
  rw [← hdl] at hs
  rw [← hdl] at hx
  rcases List.mem_append.1 hx with hx | hx
  · exact (List.pairwise_append.1 hs).2.2 x hx _ (by simp)
  · rw [List.mem_singleton.1 hx]

/-- `runRCDF` prints the reverse distribution of any non-empty list of time differences.  Full claim: also the share of
the last line is that of the operations that took at least as long, and the mean is the mean; see
`C60_last_false`, `C60_mean_false`, `C60_last_partial` and `C60_mean_partial`. -/
theorem C60_rows_partial (bound : Nat) (ds : List Nat) (hne : ds ≠ []) (hlt : ∀ d ∈ ds, d < 2 ^ 64) :
    ∃ rows mean, rcdf bound ds = some (rows, mean) ∧ ReverseCdf bound ds rows := by
  have hp := insertionSort_perm ds
  have hs : (ds.insertionSort (· ≤ ·)).Pairwise (· ≤ ·) := List.pairwise_insertionSort _ _
  unfold rcdf
  generalize ds.insertionSort (· ≤ ·) = S at hp hs ⊢
  cases S with
  | nil => exact absurd hp.symm.eq_nil hne
  | cons d S =>
    refine ⟨_, _, rfl, ?_⟩
    have hmem : ∀ {x}, x ∈ d :: S ↔ x ∈ ds := hp.mem_iff
    have h0 : LoopInv bound d [d] S := ⟨hs, by simp, fun x hx => by rw [List.mem_singleton.1 hx]; omega⟩
    have hlen := hp.length_eq
    obtain ⟨i1, i2, i3⟩ := rcdfLoop_spec (n := ds.length) S h0
      (fun x hx => hlt x (hmem.1 (List.mem_cons_of_mem _ hx))) (by rw [← hlen]; simp; omega)
    simp only [List.length_singleton, List.singleton_append] at i1 i2 i3
    have hfst : ∀ x ∈ ds, d ≤ x := by
      intro x hx
      rcases List.mem_cons.1 (hmem.2 hx) with rfl | hx
      · exact Nat.le_refl _
      · exact (List.pairwise_cons.1 hs).1 x hx
    have hlst : ∀ x ∈ ds, x ≤ (d :: S).getLast (by simp) := by
      intro x hx
      exact le_last hs (by simp) x (hmem.2 hx)
    have hlm : (d :: S).getLast (by simp) ∈ ds := hmem.1 (List.getLast_mem _)
    refine ⟨⟨d, _, _, _, rfl, hmem.1 (by simp), hfst, hlm, hlst, rfl, fun r hr => ?_⟩, fun x hx => ?_, ?_⟩
    · obtain ⟨j1, -, j3, -⟩ := i1 r hr
      exact ⟨hmem.1 j1, by rw [j3, above_perm hp]⟩
    · rcases i2 x (hmem.2 hx) with ⟨r, h1, h2, h3⟩ | h1
      · exact ⟨r, by simp [h1], h3, by omega⟩
      · exact ⟨_, List.mem_cons_of_mem _ (List.mem_append_right _ (List.mem_singleton.2 rfl)),
          Nat.le_trans (hlst x hx) (Nat.le_add_right _ _), h1 _ (hmem.2 hlm)⟩
    · have hn : (0 : ℚ) < ds.length := by
        have : 0 < ds.length := by rw [← hlen]; simp
        exact_mod_cast this
      have hle1 : (1 : ℚ) / ds.length ≤ 1 := by
        rw [div_le_one hn]
        have : 1 ≤ ds.length := by rw [← hlen]; simp
        exact_mod_cast this
      refine List.pairwise_cons.2 ⟨fun r hr => ?_, List.pairwise_append.2 ⟨i3, List.pairwise_singleton _ _, fun r hr r' hr' => ?_⟩⟩
      · rcases List.mem_append.1 hr with hr | hr
        · obtain ⟨-, j2, j3, -⟩ := i1 r hr
          refine ⟨j2, ?_⟩
          rw [j3, div_le_one hn, above_perm hp]
          exact_mod_cast above_le _ _
        · rw [List.mem_singleton.1 hr]
          exact ⟨hfst _ hlm, hle1⟩
      · obtain ⟨j1, -, -, j4⟩ := i1 r hr
        rw [List.mem_singleton.1 hr']
        exact ⟨hlst _ (hmem.1 j1), j4⟩

/-- Without threshold (clocks below 5 GHz) each inner line gives exactly the share of the greater values. -/
theorem C60_bound {own : ℚ} (h0 : 0 < own) (h : own < 5 * 10 ^ 9) : fromSeconds own (1 / 10 ^ 10) own = 0 := by
  unfold fromSeconds
  rw [if_neg h0.ne', Nat.floor_eq_zero]
  have : 1 / 10 ^ 10 * own < 1 / 2 := by
    rw [show (1 : ℚ) / 2 = 1 / 10 ^ 10 * (5 * 10 ^ 9) by norm_num]
    exact mul_lt_mul_of_pos_left h (by norm_num)
  linarith

/-- The last line is right if the largest value occurs once: its share is that of the values that are at least as large. -/
theorem C60_last_partial {bound : Nat} {ds : List Nat} {rows : List (Nat × ℚ)} (h : ReverseCdf bound ds rows)
    {r : Nat × ℚ} (hr : rows.getLast? = some r) (h1 : ds.count r.1 = 1) :
    r.2 = ((ds.filter fun d => r.1 ≤ d).length : ℚ) / ds.length := by
  obtain ⟨x, inner, y, p, rfl, -, -, -, hy, rfl, -⟩ := h.first
  rw [← List.cons_append, List.getLast?_append] at hr
  simp at hr
  subst hr
  have : (ds.filter fun d => decide (y ≤ d)).length = ds.count y := by
    rw [List.count_eq_length_filter]
    congr 1
    refine List.filter_congr fun d hd => ?_
    have := hy d hd
    rw [Bool.eq_iff_iff]
    simp only [decide_eq_true_eq, beq_iff_eq]
    omega
  rw [this, h1]
  simp

/-- With two operations that took equally long, the last line says that half of the operations took that long. -/
theorem C60_last_false : ∃ rows mean, rcdf 0 [10, 10] = some (rows, mean) ∧ rows.getLast? = some (10, 1 / 2) ∧
    ([10, 10].filter fun d => 10 ≤ d).length = 2 := by
  refine ⟨[(10, 1), (10, 1 / 2)], 5, ?_, rfl, by decide⟩
  simp [rcdf, rcdfLoop]

/-- The printed mean leaves out the least value, but counts it. -/
theorem C60_mean_partial {bound : Nat} {ds : List Nat} {rows : List (Nat × ℚ)} {mean : Nat}
    (h : rcdf bound ds = some (rows, mean)) (hs : ds.sum < 2 ^ 64) :
    ∃ x ∈ ds, (∀ d ∈ ds, x ≤ d) ∧ mean = (ds.sum - x) / ds.length ∧ (x = 0 → mean = ds.sum / ds.length) := by
  have hp := insertionSort_perm ds
  have hst : (ds.insertionSort (· ≤ ·)).Pairwise (· ≤ ·) := List.pairwise_insertionSort _ _
  unfold rcdf at h
  generalize ds.insertionSort (· ≤ ·) = S at hp hst h
  cases S with
  | nil => cases h
  | cons d S =>
    cases h
    have hsum := hp.sum_eq
    rw [List.sum_cons] at hsum
    refine ⟨d, hp.mem_iff.1 (by simp), fun x hx => ?_, ?_, ?_⟩
    · rcases List.mem_cons.1 (hp.mem_iff.2 hx) with rfl | hx
      · exact Nat.le_refl _
      · exact (List.pairwise_cons.1 hst).1 x hx
    · rw [Nat.mod_eq_of_lt (by omega), show S.sum = ds.sum - d by omega]
    · rintro rfl
      rw [Nat.mod_eq_of_lt (by omega), show S.sum = ds.sum by omega]

/-- The mean of two operations of ten cycles is printed as five cycles, that of one as zero. -/
theorem C60_mean_false : (∃ rows, rcdf 0 [10, 10] = some (rows, 5)) ∧ ∃ rows, rcdf 0 [10] = some (rows, 0) := by
  constructor
  · exact ⟨[(10, 1), (10, 1 / 2)], by simp [rcdf, rcdfLoop]⟩
  · exact ⟨[(10, 1), (10, 1)], by simp [rcdf, rcdfLoop]⟩

/-- A log with fewer than two messages: undefined behaviour. -/
theorem C60_empty_false (own : ℚ) (ms : List OutMsg) (h : ms.length < 2) : rcdfTime own ms = none := by
  match ms, h with
  | [], _ => rfl
  | [m], _ => rfl

/-! ## The differences -/

/-- Time stamps in order: the differences are those between neighbours. -/
theorem interTimes_exact (ms : List OutMsg) (hlt : ∀ m ∈ ms, m.ts < 2 ^ 64)
    (hs : ms.Pairwise fun a b => a.ts ≤ b.ts) :
    interTimes ms = List.zipWith (fun a b => b.ts - a.ts) ms ms.tail := by
  have key : ∀ (ms : List OutMsg) (m : OutMsg), (∀ x ∈ m :: ms, x.ts < 2 ^ 64) →
      (m :: ms).Pairwise (fun a b => a.ts ≤ b.ts) →
      interTimesFrom m.ts ms = List.zipWith (fun a b => b.ts - a.ts) (m :: ms) ms := by
    intro ms
    induction ms with
    | nil => intro m _ _; rfl
    | cons a ms ih =>
      intro m hlt hs
      rw [interTimesFrom, List.zipWith_cons_cons,
        ih a (fun x hx => hlt x (List.mem_cons_of_mem _ hx)) (List.pairwise_cons.1 hs).2,
        diff_small (hlt a (by simp)) ((List.pairwise_cons.1 hs).1 a (by simp))]
  cases ms with
  | nil => rfl
  | cons m ms => exact key ms m hlt hs

/-- Nanoseconds of a time difference at a given frequency. -/
def nsAt (cps : ℚ) (cycles : Nat) : ℚ := cycles / cps * 10 ^ 9

theorem printedNs_eq {own : ℚ} (h0 : 0 < own) {x : Nat} (hx : x < 2 ^ 63) : printedNs own x own = nsAt own x := by
  have hc : ITy.i64.cast (x : Int) = x := by
    apply ITy.cast_of_inRange
    simp only [ITy.InRange, ITy.lo, ITy.hi, ITy.signed, ITy.bytes, if_true]
    omega
  simp only [printedNs, toSeconds, nsAt, hc, if_neg h0.ne', Int.cast_natCast]
  ring

/-- What the command prints for a complete log file: the reverse distribution of the differences between
the time stamps of consecutive messages, in nanoseconds.  Full claim: for every log file, and in the time of
the machine that wrote it.  Proved for logs with at least two messages whose time stamps do not go back (one thread), whatever else happens in the
file, and if the frequency of the machine that runs the command is that of the machine that wrote the log;
false otherwise, see `C60_empty_false`, `C60_threads_false`, `C60_frequency`. -/
theorem C60_file_partial {cfg c all ops st ns ms} (h : FileRun cfg c all ops st ns ms) {own : ℚ} (h0 : 0 < own)
    (h5 : own < 5 * 10 ^ 9) (h2 : 2 ≤ ms.length) (hlt : ∀ m ∈ ms, m.ts < 2 ^ 63)
    (hs : ms.Pairwise fun a b => a.ts ≤ b.ts) :
    ∃ s s', (Dec.new (cfg.staging + 9)).openFile st.contents = some (true, s) ∧
      (∀ n, ms.length < n → s.iterate n = some s') ∧
      ∃ rows mean, rcdfTime own s'.out = some (rows.map fun r => (nsAt own r.1, r.2), mean) ∧
        ReverseCdf 0 (List.zipWith (fun a b => b.ts - a.ts) ms ms.tail) rows := by
  obtain ⟨s, s1, s2, g1, -, g3, g4, g5⟩ := C24_iterator_agrees h (BufFrag.init (cfg.staging + 9)) (by simp [BufFrag.init])
  refine ⟨s, s2, g1, by rw [g5] at g3; exact g3, ?_⟩
  have he := interTimes_exact ms (fun m hm => Nat.lt_trans (hlt m hm) (by norm_num)) hs
  rw [g4, g5, rcdfTime, C60_bound h0 h5, he]
  generalize hds : List.zipWith (fun a b : OutMsg => b.ts - a.ts) ms ms.tail = ds
  have hne : ds ≠ [] := by
    rintro rfl
    match ms, h2 with
    | a :: b :: ms, _ => simp at hds
  have hsm : ∀ d ∈ ds, d < 2 ^ 63 := by
    intro d hd
    rw [← hds, List.mem_iff_getElem] at hd
    obtain ⟨k, hk, rfl⟩ := hd
    rw [List.getElem_zipWith]
    have := hlt _ (List.mem_of_mem_tail (List.getElem_mem (l := ms.tail) (n := k) (by simp at hk ⊢; omega)))
    omega
  obtain ⟨rows, mean, r1, r2⟩ := C60_rows_partial 0 ds hne fun d hd => Nat.lt_trans (hsm d hd) (by norm_num)
  rw [r1]
  refine ⟨rows, printedNs own mean own, ?_, r2⟩
  simp only [Option.some.injEq, Prod.mk.injEq, and_true]
  refine List.map_congr_left fun r hr => ?_
  rw [printedNs_eq h0]
  obtain ⟨x, inner, y, p, rfl, hx, -, hy, -, -, hi⟩ := r2.first
  simp only [List.mem_cons, List.mem_append, List.not_mem_nil, or_false] at hr
  rcases hr with rfl | hr | rfl
  · exact hsm _ hx
  · exact hsm _ (hi r hr).1
  · exact hsm _ hy

/-- The time printed for a difference `x > 0` is the one that passed on the machine that wrote the log (frequency `cps`) exactly if the
machine that runs the command has the same frequency (`own`). -/
theorem C60_frequency {own cps : ℚ} (h0 : 0 < own) (h1 : 0 < cps) {x : Nat} (hx : 0 < x) (hx' : x < 2 ^ 63) :
    printedNs own x own = nsAt cps x ↔ own = cps := by
  rw [printedNs_eq h0 hx']
  unfold nsAt
  have hxq : (x : ℚ) ≠ 0 := by exact_mod_cast hx.ne'
  constructor
  · intro h
    have h2 := mul_right_cancel₀ (by norm_num : (10 : ℚ) ^ 9 ≠ 0) h
    rw [div_eq_div_iff h0.ne' h1.ne'] at h2
    exact (mul_left_cancel₀ hxq h2).symm
  · rintro rfl; rfl

/-- Case for `C60_rows_partial`, `C60_last_partial`, `C60_mean_partial`. -/
example : ∃ rows mean, rcdf 2 [30, 10, 11, 15, 30, 14] = some (rows, mean) ∧ mean = 16 ∧
    rows = [(10, 1), (10, 2 / 3), (14, 1 / 3), (30, 1 / 6)] ∧ above 12 [30, 10, 11, 15, 30, 14] = 4 := by
  refine ⟨[(10, 1), (10, 2 / 3), (14, 1 / 3), (30, 1 / 6)], 16, ?_, rfl, rfl, by decide⟩
  simp only [rcdf]
  norm_num [rcdfLoop, List.insertionSort, List.orderedInsert]

/-- Case for `C60_last_partial`: the largest value occurs once. -/
example : ReverseCdf 0 [10, 20] [(10, 1), (10, 1 / 2), (20, 1 / 2)] ∧ [10, 20].count 20 = 1 := by
  obtain ⟨rows, mean, h1, h2⟩ := C60_rows_partial 0 [10, 20] (by simp) (by simp)
  have : rows = [(10, 1), (10, 1 / 2), (20, 1 / 2)] := by
    simp only [rcdf] at h1
    norm_num [rcdfLoop, List.insertionSort, List.orderedInsert] at h1
    exact h1.1.symm
  exact ⟨this ▸ h2, by decide⟩

/-- Case for `C60_file_partial`: a file with three messages. -/
example : ∃ st ns ms, FileRun Config.default exCk exSites exOps st ns ms ∧ 2 ≤ ms.length ∧
    (∀ m ∈ ms, m.ts < 2 ^ 63) ∧ ms.Pairwise (fun a b => a.ts ≤ b.ts) ∧
    List.zipWith (fun a b => b.ts - a.ts) ms ms.tail = [10, 10] := by
  obtain ⟨st, ns, ms, h⟩ := exRun
  refine ⟨st, ns, ms, h, ?_⟩
  have hr : EncSt.init.run Config.default exOps = some (st, ns) := h.run
  have : ns = [42, 20] := by
    have e : (EncSt.init.run Config.default exOps).map Prod.snd = some [42, 20] := by decide +kernel
    rw [hr] at e
    simpa using e
  subst this
  have hl : Logged Config.default exCk exSites exOps [42, 20]
      ((exMsgs 1 exCk).take 2 ++ (((exMsgs 1 exCk).drop 2).take 1 ++ [])) :=
    .start exCk_plain exSites_ok (by decide) (.dict (.batch (k := 2) exBatch1 (by decide)
      (.flush (.batch (k := 1) exBatch2 (by decide) .nil))))
  rw [Logged.unique exSites_ok h.logged hl]
  decide

/-- Thread 2 logs before thread 1, which has the first staging buffer; both messages are written. -/
def exBack : List Lbl :=
  exFirst 1 0 1000 [.int .i32 (-5)] ++ exFirst 2 1 995 [.cstr 4096 [104, 105]] ++
  [.top, .dict false, .peek 1, .encode (fun _ => 0) [], .peek 1, .encode (fun _ => 0) [], .scanned none, .aio,
    .write, .disk 108]

/-- With two threads the command prints a negative time for every operation although five cycles passed. -/
theorem C60_threads_false : ∃ s, RtExec exCfg exSites exBack s ∧
    ∃ ms, decodeFile (exCfg.staging + 9) s.disk = some ms ∧ ms.map (·.ts) = [1000, 995] ∧
      rcdfTime (10 ^ 9) ms = some ([(-5, 1), (-5, 1)], 0) := by
  obtain ⟨s, hs, hp⟩ := exExec (ls := exBack)
    (p := fun s => match decodeFile (exCfg.staging + 9) s.disk with
      | some ms => ms.map (·.ts) == [1000, 995]
      | none => false) (by decide +kernel) (by decide +kernel)
  refine ⟨s, hs, ?_⟩
  split at hp
  · rename_i ms hms
    refine ⟨ms, hms, by simpa using hp, ?_⟩
    simp only [beq_iff_eq] at hp
    match ms, hp with
    | [], hp => cases hp
    | [_], hp => simp at hp
    | _ :: _ :: _ :: _, hp => simp at hp
    | [a, b], hp =>
      simp only [List.map_cons, List.map_nil, List.cons.injEq, and_true] at hp
      have hi : interTimes [a, b] = [2 ^ 64 - 5] := by
        simp [interTimes, interTimesFrom, hp.1, hp.2]
      have hr : rcdf 0 [2 ^ 64 - 5] = some ([(2 ^ 64 - 5, 1), (2 ^ 64 - 5, 1)], 0) := by
        simp [rcdf, rcdfLoop]
      rw [rcdfTime, C60_bound (by norm_num) (by norm_num), hi, hr]
      have hc : ITy.i64.cast ((2 ^ 64 - 5 : Nat) : Int) = -5 := by decide +kernel
      have h0 : ITy.i64.cast ((0 : Nat) : Int) = 0 := by decide +kernel
      simp only [List.map_cons, List.map_nil, printedNs, hc, h0, toSeconds]
      norm_num
  · cases hp

end NanoLog
