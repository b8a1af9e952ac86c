import Verif.ArgProgram
import Verif.Props.ArgScript

/-!
# C65: the program that aggregates printed numbers
-/

namespace NanoLog

/-- **C65**: the number is looked for after the first occurrence of the text. -/
theorem C65_first (needle l r : List Byte) : afterFirst needle l = some r ↔ AfterFirst needle l r := by
  induction l with
  | nil =>
    simp only [afterFirst]
    constructor
    · intro h
      split at h
      · rename_i hn; cases h; exact ⟨[], by simp [hn], by simp⟩
      · cases h
    · rintro ⟨pre, h, -⟩
      have hlen := congrArg List.length h
      simp only [List.length_nil, List.length_append] at hlen
      rw [if_pos (List.length_eq_zero_iff.1 (by omega)), List.length_eq_zero_iff.1 (show r.length = 0 by omega)]
  | cons c cs ih =>
    rw [afterFirst]
    by_cases hp : needle <+: c :: cs
    · rw [if_pos (List.isPrefixOf_iff_prefix.2 hp)]
      obtain ⟨q, hq⟩ := hp
      constructor
      · intro h
        cases h
        exact ⟨[], by rw [← hq]; simp, by simp⟩
      · rintro ⟨pre, h1, h2⟩
        have := h2 [] q (by rw [← hq]; simp)
        have hpre : pre = [] := List.length_eq_zero_iff.1 (by simpa using this)
        subst hpre
        rw [h1]
        simp
    · rw [if_neg (fun h => hp (List.isPrefixOf_iff_prefix.1 h)), ih]
      constructor
      · rintro ⟨pre, rfl, h2⟩
        refine ⟨c :: pre, by simp, fun pre2 r2 h => ?_⟩
        cases pre2 with
        | nil => exact absurd ⟨r2, by simpa using h.symm⟩ hp
        | cons d pre2 =>
          simp only [List.cons_append, List.cons.injEq] at h
          have := h2 pre2 r2 (by simpa using h.2)
          simpa using this
      · rintro ⟨pre, h1, h2⟩
        cases pre with
        | nil => exact absurd ⟨r, by simpa using h1.symm⟩ hp
        | cons d pre =>
          simp only [List.cons_append, List.cons.injEq] at h1
          refine ⟨pre, h1.2, fun pre2 r2 h => ?_⟩
          have := h2 (c :: pre2) r2 (by rw [h]; simp)
          simpa using this

theorem leadDigits_run {ds post : List Byte} (h1 : ∀ d ∈ ds, 48 ≤ d ∧ d ≤ 57)
    (h2 : ∀ d, post.head? = some d → ¬ (48 ≤ d ∧ d ≤ 57)) (acc : Nat) :
    leadDigits acc true (ds ++ post) = some (ds.foldl (fun a b => 10 * a + (b.toNat - 48)) acc) := by
  induction ds generalizing acc with
  | nil =>
    cases post with
    | nil => rfl
    | cons c post =>
      simp only [List.nil_append, leadDigits, digitC]
      rw [if_neg (h2 c rfl)]
      rfl
  | cons d ds ih =>
    simp only [List.cons_append, leadDigits, digitC]
    rw [if_pos (h1 d (by simp))]
    exact ih (fun c hc => h1 c (by simp [hc])) _

theorem digit_not_other {d : Byte} (h : 48 ≤ d ∧ d ≤ 57) : isSpaceC d = false ∧ d ≠ 45 ∧ d ≠ 43 := by
  have : ∀ n : Fin 256, 48 ≤ n.1 → n.1 ≤ 57 → isSpaceC (UInt8.ofNat n) = false ∧ UInt8.ofNat n ≠ 45 ∧ UInt8.ofNat n ≠ 43 := by
    decide +kernel
  obtain ⟨h1, h2⟩ := h
  have := this ⟨d.toNat, d.toNat_lt⟩ (UInt8.le_iff_toNat_le.1 h1) (UInt8.le_iff_toNat_le.1 h2)
  simpa using this

/-- **C65**: the number is read as it is written, if it is a `long`. -/
theorem C65_number_partial {t : List Byte} {v : Int} (h : TextNum t v) (hr : -2 ^ 63 ≤ v ∧ v < 2 ^ 63) :
    atol t = some v := by
  obtain ⟨ws, sign, ds, post, rfl, h1, h2, h3, h4, h5, hv⟩ := h
  obtain ⟨d, ds, rfl⟩ := List.exists_cons_of_ne_nil h4
  have hd := h3 d (by simp)
  obtain ⟨hs, hm, hp⟩ := digit_not_other hd
  have hw : ∀ c ∈ ws, isSpaceC c = true := by
    intro c hc
    rcases h1 c hc with rfl | h
    · rfl
    · simp [isSpaceC, h]
  have hl : leadDigits 0 false (d :: (ds ++ post)) = some ((d :: ds).foldl (fun a b => 10 * a + (b.toNat - 48)) 0) := by
    simp only [leadDigits, digitC]
    rw [if_pos hd]
    exact leadDigits_run (fun c hc => h3 c (by simp [hc])) h5 _
  have hdrop : ∀ c r, isSpaceC c = false → (ws ++ c :: r).dropWhile isSpaceC = c :: r := by
    intro c r hc
    rw [List.dropWhile_append_of_pos hw, List.dropWhile_cons_of_neg (by simp [hc])]
  rcases h2 with rfl | rfl | rfl
  · have e : ws ++ [] ++ d :: ds ++ post = ws ++ d :: (ds ++ post) := by simp
    rw [e, atol, hdrop d _ hs]
    simp only [if_neg hm, if_neg hp, hl, Bool.false_eq_true, if_false]
    rw [hv] at hr ⊢
    simp only [List.nil_eq, reduceCtorEq, if_false, Int.one_mul] at hr ⊢
    rw [if_pos hr]
  · have e : ws ++ [45] ++ d :: ds ++ post = ws ++ 45 :: (d :: (ds ++ post)) := by simp
    rw [e, atol, hdrop 45 _ (by decide)]
    simp only [if_true, hl]
    rw [hv] at hr ⊢
    simp only [if_true, Int.neg_mul, Int.one_mul] at hr ⊢
    rw [if_pos hr]
  · have e : ws ++ [43] ++ d :: ds ++ post = ws ++ 43 :: (d :: (ds ++ post)) := by simp
    rw [e, atol, hdrop 43 _ (by decide)]
    rw [if_neg (by decide)] at hv
    simp only [show ¬ (43 : Byte) = 45 by decide, if_false, if_true, hl, Bool.false_eq_true]
    rw [hv, Int.one_mul] at hr ⊢
    rw [if_pos hr]

/-- The numbers of the lines that contain the text. -/
inductive TextNums (needle : List Byte) : List (List Byte) → List Int → Prop
  | nil : TextNums needle [] []
  | skip {l ls ns} : (∀ r, ¬ AfterFirst needle l r) → TextNums needle ls ns → TextNums needle (l :: ls) ns
  | num {l ls r v ns} : AfterFirst needle l r → TextNum r v → (-2 ^ 63 ≤ v ∧ v < 2 ^ 63) → TextNums needle ls ns →
      TextNums needle (l :: ls) (v :: ns)

/-- A line that `getline` can read and `strstr` sees whole. -/
def GoodLine (l : List Byte) : Prop := l.length ≤ 1023 ∧ 10 ∉ l ∧ 0 ∉ l

/-- The variables after some numbers. -/
def addNums : List Int → AggVars → Option AggVars
  | [], s => some s
  | n :: ns, s => match s.add n with
    | none => none
    | some s => addNums ns s

theorem aggRead_line {needle l : List Byte} (hl : l.length ≤ 1023) (hn : 10 ∉ l) (acc cs : List Byte)
    (ha : acc.length + l.length ≤ 1023) (s : AggVars) :
    aggRead needle (l ++ cs) acc s = aggRead needle cs (acc ++ l) s := by
  induction l generalizing acc with
  | nil => simp
  | cons c l ih =>
    simp only [List.mem_cons, not_or] at hn
    simp only [List.length_cons] at ha hl
    rw [List.cons_append, aggRead, if_neg (fun h => hn.1 h.symm), if_neg (by omega),
      ih (by omega) hn.2 _ (by simp; omega)]
    simp

theorem takeWhile_all {p : Byte → Bool} {l : List Byte} (h : ∀ c ∈ l, p c = true) : l.takeWhile p = l := by
  induction l with
  | nil => rfl
  | cons c l ih => rw [List.takeWhile_cons_of_pos (h c (by simp)), ih (fun d hd => h d (by simp [hd]))]

theorem aggRead_lines {needle : List Byte} {ls : List (List Byte)} {ns : List Int} (h : TextNums needle ls ns)
    (hl : ∀ l ∈ ls, GoodLine l) (cs : List Byte) (s : AggVars) :
    aggRead needle (ls.flatMap (· ++ [10]) ++ cs) [] s = match addNums ns s with
      | none => .inl .ub
      | some s => aggRead needle cs [] s := by
  induction h generalizing s with
  | nil => rfl
  | @skip l ls ns h1 _ ih =>
    obtain ⟨g1, g2, g3⟩ := hl l (by simp)
    rw [List.flatMap_cons, List.append_assoc, List.append_assoc, aggRead_line g1 g2 _ _ (by simpa using g1),
      List.nil_append, List.singleton_append, aggRead, if_pos rfl]
    have : l.takeWhile (· ≠ 0) = l := takeWhile_all (by
      intro c hc; simp; rintro rfl; exact g3 hc)
    rw [this]
    cases hf : afterFirst needle l with
    | none => exact ih (fun l hl2 => hl l (by simp [hl2])) s
    | some r => exact absurd ((C65_first _ _ _).1 hf) (h1 r)
  | @num l ls r v ns h1 h2 h3 _ ih =>
    obtain ⟨g1, g2, g3⟩ := hl l (by simp)
    rw [List.flatMap_cons, List.append_assoc, List.append_assoc, aggRead_line g1 g2 _ _ (by simpa using g1),
      List.nil_append, List.singleton_append, aggRead, if_pos rfl]
    have : l.takeWhile (· ≠ 0) = l := takeWhile_all (by
      intro c hc; simp; rintro rfl; exact g3 hc)
    rw [this, (C65_first _ _ _).2 h1]
    simp only [C65_number_partial h2 h3, addNums]
    cases s.add v with
    | none => rfl
    | some s => exact ih (fun l hl2 => hl l (by simp [hl2])) s

/-- The sums so far are `long`s. -/
def SumsFit (ns : List Int) : Prop := ∀ k, -2 ^ 63 ≤ (ns.take k).sum ∧ (ns.take k).sum < 2 ^ 63

theorem addNums_ok (ns done : List Int) (s : AggVars) (hd : done ≠ []) (hfit : SumsFit (done ++ ns))
    (h1 : s.total = done.sum) (h2 : s.count = done.length) (h3 : s.min ∈ done ∧ ∀ n ∈ done, s.min ≤ n)
    (h4 : s.max ∈ done ∧ ∀ n ∈ done, n ≤ s.max) : ∃ t, addNums ns s = some t ∧ t.total = (done ++ ns).sum ∧
      t.count = (done ++ ns).length ∧ (t.min ∈ done ++ ns ∧ ∀ n ∈ done ++ ns, t.min ≤ n) ∧
      (t.max ∈ done ++ ns ∧ ∀ n ∈ done ++ ns, n ≤ t.max) := by
  induction ns generalizing done s with
  | nil => exact ⟨s, rfl, by simpa using h1, by simpa using h2, by simpa using h3, by simpa using h4⟩
  | cons n ns ih =>
    have hl : 0 < done.length := List.length_pos_iff.2 hd
    have hf := hfit (done.length + 1)
    rw [show (done ++ n :: ns).take (done.length + 1) = done ++ [n] by
      rw [List.take_length_add_append]; rfl] at hf
    simp only [List.sum_append, List.sum_cons, List.sum_nil, Int.add_zero] at hf
    have hadd : s.add n = some ⟨if s.min > n then n else s.min, if s.max < n then n else s.max, s.total + n,
        s.count + 1⟩ := by
      unfold AggVars.add
      rw [if_pos (by omega), if_pos (by rw [h1]; exact hf)]
    simp only [addNums, hadd]
    have e : done ++ n :: ns = (done ++ [n]) ++ ns := by simp
    rw [e]
    refine ih (done ++ [n]) _ (by simp) (by rw [← e]; exact hfit) ?_ ?_ ?_ ?_
    · simp [h1]
    · simp [h2]
    · constructor
      · dsimp only
        split
        · simp
        · simp [h3.1]
      · intro m hm
        rw [List.mem_append, List.mem_singleton] at hm
        dsimp only
        rcases hm with hm | rfl
        · have := h3.2 m hm
          split <;> omega
        · split <;> omega
    · constructor
      · dsimp only
        split
        · simp
        · simp [h4.1]
      · intro m hm
        rw [List.mem_append, List.mem_singleton] at hm
        dsimp only
        rcases hm with hm | rfl
        · have := h4.2 m hm
          split <;> omega
        · split <;> omega

/-- **C65**: if every line that is ended by a newline is readable, at least one of them has a number, and numbers and
sums are `long`s, then `aggregate` prints least and greatest number, sum, count and the mean rounded towards zero,
of the lines ended by a newline. -/
theorem C65_program_partial {needle : List Byte} {ls : List (List Byte)} {ns : List Int} (h : TextNums needle ls ns)
    (hl : ∀ l ∈ ls, GoodLine l) (hn : ns ≠ []) (hfit : SumsFit ns) {tail : List Byte} (ht : tail.length ≤ 1023)
    (ht2 : 10 ∉ tail) : ∃ v mean, aggProgram needle (ls.flatMap (· ++ [10]) ++ tail) = .printed v mean ∧
      (v.min ∈ ns ∧ ∀ n ∈ ns, v.min ≤ n) ∧ (v.max ∈ ns ∧ ∀ n ∈ ns, n ≤ v.max) ∧ v.total = ns.sum ∧
      v.count = ns.length ∧ mean.natAbs * ns.length ≤ ns.sum.natAbs ∧ ns.sum.natAbs < (mean.natAbs + 1) * ns.length ∧
      0 ≤ mean * ns.sum := by
  obtain ⟨n, ns, rfl⟩ := List.exists_cons_of_ne_nil hn
  obtain ⟨v, hv, h1, h2, h3, h4⟩ := addNums_ok ns [n] ⟨n, n, n, 1⟩ (by simp) hfit (by simp) rfl (by simp) (by simp)
  have hv0 : addNums (n :: ns) ⟨0, 0, 0, 0⟩ = some v := hv
  have e : [n] ++ ns = n :: ns := rfl
  rw [e] at h1 h2 h3 h4
  refine ⟨v, v.total.tdiv v.count, ?_, h3, h4, h1, h2, ?_, ?_, ?_⟩
  · have h5 := aggRead_line (needle := needle) ht ht2 [] [] (by simpa using ht) v
    rw [List.append_nil] at h5
    simp only [aggProgram, aggRead_lines h hl, hv0, h5, aggRead]
    rw [if_neg (by rw [h2]; simp)]
  · rw [Int.natAbs_tdiv, h1, h2, Int.natAbs_natCast]
    exact Nat.div_mul_le_self _ _
  · rw [Int.natAbs_tdiv, h1, h2, Int.natAbs_natCast, Nat.mul_comm]
    exact Nat.lt_mul_div_succ _ (by simp)
  · rw [h1, h2]
    rcases Int.le_total 0 (n :: ns).sum with hs | hs
    · exact Int.mul_nonneg (Int.tdiv_nonneg hs (by omega)) hs
    · have := Int.tdiv_nonneg (a := -(n :: ns).sum) (b := ((n :: ns).length : Nat)) (by omega) (by omega)
      rw [Int.neg_tdiv] at this
      have := Int.mul_nonneg this (show 0 ≤ -(n :: ns).sum by omega)
      rwa [Int.neg_mul_neg] at this

/-- **C65**, the last line: a number in a last line without newline is not counted. -/
theorem C65_last_line_false : aggProgram [35, 32] ([35, 32, 53, 10] ++ [35, 32, 55]) = .printed ⟨5, 5, 5, 1⟩ 5 := by
  decide

/-- **C65**, without a number: division by zero. -/
theorem C65_no_number_false {needle : List Byte} {ls : List (List Byte)} (h : TextNums needle ls [])
    (hl : ∀ l ∈ ls, GoodLine l) : aggProgram needle (ls.flatMap (· ++ [10])) = .ub := by
  have := aggRead_lines h hl [] ⟨0, 0, 0, 0⟩
  rw [List.append_nil] at this
  simp only [aggProgram, this, addNums, aggRead]
  rfl

/-- **C65**, long lines: the program gives up at the first line of more than 1023 characters. -/
theorem C65_long_line_false {needle l : List Byte} (hl : 1023 < l.length) (hn : 10 ∉ l) (cs : List Byte) :
    aggProgram needle (l ++ cs) = .lineTooLong := by
  obtain ⟨a, c, b, rfl, ha⟩ : ∃ a c b, l = a ++ c :: b ∧ a.length = 1023 :=
    ⟨l.take 1023, l[1023], l.drop 1024, by
      rw [← List.drop_eq_getElem_cons hl, List.take_append_drop], by simp; omega⟩
  simp only [List.mem_append, List.mem_cons, not_or] at hn
  rw [aggProgram, List.append_assoc, aggRead_line (by omega) hn.1 _ _ (by simp; omega), List.nil_append,
    List.cons_append, aggRead, if_neg (fun h => hn.2.1 h.symm), if_pos ha]

/-- The hypotheses: `# 5`, a line without the text, `# -7` and an unfinished line. -/
example : ∃ ls ns tail, TextNums [35, 32] ls ns ∧ (∀ l ∈ ls, GoodLine l) ∧ ns = [5, -7] ∧ SumsFit ns ∧
    aggProgram [35, 32] (ls.flatMap (· ++ [10]) ++ tail) = .printed ⟨-7, 5, -2, 2⟩ (-1) := by
  refine ⟨[[35, 32, 53], [65], [35, 32, 45, 55, 13]], [5, -7], [66], ?_, ?_, rfl, ?_, by decide⟩
  · refine .num ((C65_first _ _ [53]).1 (by decide)) ⟨[], [], [53], [], rfl, by simp, by simp, by decide, by simp, by simp,
      by decide⟩ (by decide) (.skip (fun r hr => ?_) (.num ((C65_first _ _ [45, 55, 13]).1 (by decide))
        ⟨[], [45], [55], [13], rfl, by simp, by simp, by decide, by simp, ?_, by decide⟩ (by decide) .nil))
    · have := (C65_first _ _ _).2 hr
      revert this
      simp [afterFirst]
    · intro d hd
      cases hd
      decide
  · intro l hl
    simp only [List.mem_cons, List.not_mem_nil, or_false] at hl
    rcases hl with rfl | rfl | rfl <;> exact ⟨by decide, by decide, by decide⟩
  · intro k
    match k with
    | 0 => decide
    | 1 => decide
    | k + 2 => simp

end NanoLog
