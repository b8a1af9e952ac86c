import Verif.ArgScript

/-!
# C65: the script that aggregates printed numbers
-/

namespace NanoLog

/-! ## Matching a line -/

theorem isDig_iff (b : Byte) : isDig b = true ↔ 48 ≤ b ∧ b ≤ 57 := by simp [isDig]

/-- A place in the line where the rest of the expression matches. -/
def HashAt (l : List Byte) (k : Nat) : Prop :=
  ∃ pre c post, l = pre ++ [35, 32] ++ c :: post ∧ 10 ∉ pre ∧ isDig c = true ∧ pre.length = k

theorem hashHere_none {l : List Byte} (h : hashHere l = none) : ¬ HashAt l 0 := by
  rintro ⟨pre, c, post, rfl, -, hc, hp⟩
  rw [List.length_eq_zero_iff] at hp
  subst hp
  simp [hashHere, hc] at h

theorem hashHere_some {l d : List Byte} (h : hashHere l = some d) :
    d ≠ [] ∧ ∃ r, l = [35, 32] ++ r ∧ d = r.takeWhile isDig := by
  unfold hashHere at h
  split at h
  · rename_i r
    split at h
    · cases h
    · rename_i hn
      cases h
      exact ⟨hn, r, rfl, rfl⟩
  · cases h

theorem HashAt.tail {b : Byte} {l : List Byte} {k : Nat} (h : HashAt (b :: l) (k + 1)) : b ≠ 10 ∧ HashAt l k := by
  obtain ⟨pre, c, post, h1, h2, h3, h4⟩ := h
  cases pre with
  | nil => simp at h4
  | cons a pre =>
    simp only [List.cons_append, List.cons.injEq] at h1
    obtain ⟨rfl, rfl⟩ := h1
    simp only [List.mem_cons, not_or] at h2
    exact ⟨fun h => h2.1 h.symm, pre, c, post, rfl, h2.2, h3, by simpa using h4⟩

theorem hashMatch_spec (l : List Byte) : match hashMatch l with
    | none => ∀ k, ¬ HashAt l k
    | some d => ∃ pre r, l = pre ++ [35, 32] ++ r ∧ 10 ∉ pre ∧ d ≠ [] ∧ d = r.takeWhile isDig ∧
        ∀ k, HashAt l k → k ≤ pre.length := by
  induction l with
  | nil =>
    simp only [hashMatch, hashHere]
    rintro k ⟨pre, c, post, h, -⟩
    simp at h
  | cons b l ih =>
    by_cases hb : b = 10
    · subst hb
      have : hashMatch (10 :: l) = none := by
        rw [hashMatch, if_pos rfl]
        simp [hashHere]
      rw [this]
      rintro (_ | k) h
      · exact hashHere_none (by simp [hashHere]) h
      · exact h.tail.1 rfl
    · cases hm : hashMatch l with
      | some d =>
        have : hashMatch (b :: l) = some d := by rw [hashMatch, if_neg hb, hm]
        rw [this]
        rw [hm] at ih
        obtain ⟨pre, r, rfl, h1, h2, h3, h4⟩ := ih
        refine ⟨b :: pre, r, by simp, by simp [h1, Ne.symm hb], h2, h3, ?_⟩
        rintro (_ | k) h
        · exact Nat.zero_le _
        · have := h4 k h.tail.2
          simp; omega
      | none =>
        have : hashMatch (b :: l) = hashHere (b :: l) := by rw [hashMatch, if_neg hb, hm]
        rw [this]
        rw [hm] at ih
        cases hh : hashHere (b :: l) with
        | none =>
          rintro (_ | k) h
          · exact hashHere_none hh h
          · exact ih k h.tail.2
        | some d =>
          obtain ⟨h1, r, h2, h3⟩ := hashHere_some hh
          refine ⟨[], r, h2, by simp, h1, h3, ?_⟩
          rintro (_ | k) h
          · exact Nat.zero_le _
          · exact absurd h.tail.2 (ih k)

theorem takeWhile_digits {ds post : List Byte} (h1 : ∀ d ∈ ds, 48 ≤ d ∧ d ≤ 57)
    (h2 : ∀ d, post.head? = some d → ¬ (48 ≤ d ∧ d ≤ 57)) : (ds ++ post).takeWhile isDig = ds := by
  rw [List.takeWhile_append_of_pos fun d hd => (isDig_iff d).2 (h1 d hd)]
  cases post with
  | nil => simp
  | cons c post =>
    rw [List.takeWhile_cons_of_neg (by rw [isDig_iff]; exact h2 c rfl), List.append_nil]

/-- **C65**: the number the script takes from a line is the one after the last `# ` followed by a digit. -/
theorem C65_line (l : List Byte) (n : Nat) : (hashMatch l).map intOf = some n ↔ LineNum l n := by
  have hs := hashMatch_spec l
  constructor
  · intro h
    cases hm : hashMatch l with
    | none => rw [hm] at h; cases h
    | some d =>
      rw [hm] at h hs
      simp only [Option.map_some, Option.some.injEq] at h
      obtain ⟨pre, r, h1, h2, h3, h4, h5⟩ := hs
      refine ⟨pre, d, r.dropWhile isDig, ?_, h2, h3, ?_, ?_, h.symm, ?_⟩
      · rw [List.append_assoc _ d, h4, List.takeWhile_append_dropWhile, h1]
      · intro c hc
        rw [h4] at hc
        exact (isDig_iff c).1 (List.all_eq_true.1 List.all_takeWhile c hc)
      · intro c hc
        rw [← isDig_iff]
        have := List.head?_dropWhile_not isDig r
        rw [hc] at this
        simpa using this
      · intro pre2 c post2 he hn hc
        exact h5 _ ⟨pre2, c, post2, he, hn, (isDig_iff c).2 hc, rfl⟩
  · rintro ⟨pre, ds, post, h1, h2, h3, h4, h5, h6, h7⟩
    obtain ⟨c, ds', rfl⟩ := List.exists_cons_of_ne_nil h3
    have hat : HashAt l pre.length := ⟨pre, c, ds' ++ post, by rw [h1]; simp, h2, (isDig_iff c).2 (h4 c (by simp)), rfl⟩
    cases hm : hashMatch l with
    | none => rw [hm] at hs; exact absurd hat (hs _)
    | some d =>
      rw [hm] at hs
      obtain ⟨pre2, r, g1, g2, g3, g4, g5⟩ := hs
      have hle := g5 _ hat
      obtain ⟨c2, d2, rfl⟩ := List.exists_cons_of_ne_nil g3
      have hr : r = (c2 :: d2) ++ r.dropWhile isDig := by rw [g4, List.takeWhile_append_dropWhile]
      have hc2 : isDig c2 = true := by
        have : c2 ∈ r.takeWhile isDig := by rw [← g4]; simp
        exact List.all_eq_true.1 List.all_takeWhile c2 this
      have hge := h7 pre2 c2 (d2 ++ r.dropWhile isDig) (by rw [g1, ← List.cons_append, ← hr]) g2 ((isDig_iff c2).1 hc2)
      have he : pre ++ ([35, 32] ++ (c :: ds') ++ post) = pre2 ++ ([35, 32] ++ r) := by
        rw [← List.append_assoc pre2, ← g1, h1]; simp
      obtain ⟨-, he2⟩ := List.append_inj he (by omega)
      simp only [List.cons_append, List.nil_append, List.cons.injEq, true_and] at he2
      rw [Option.map_some, h6, g4, ← he2]
      rw [show c :: (ds' ++ post) = (c :: ds') ++ post by simp, takeWhile_digits h4 h5]
      rfl

/-! ## The loop -/

/-- The variables after the numbers `ns`. -/
def addAll : List Nat → ArgSt → ArgSt
  | [], s => s
  | n :: ns, s => addAll ns (s.add n)

theorem argLoop_nums {ls : List (List Byte)} {ns : List Nat} (h : FileNums ls ns) (s : ArgSt) :
    argLoop ls s = addAll ns s := by
  induction h generalizing s with
  | nil => rfl
  | @skip l ls ns hl _ ih =>
    cases hm : hashMatch l with
    | none => simp only [argLoop, hm]; exact ih s
    | some d => exact absurd ((C65_line l (intOf d)).1 (by rw [hm]; rfl)) (hl _)
  | @num l ls n ns hl _ ih =>
    have := (C65_line l n).2 hl
    cases hm : hashMatch l with
    | none => rw [hm] at this; cases this
    | some d =>
      rw [hm] at this
      simp only [Option.map_some, Option.some.injEq] at this
      simp only [argLoop, hm, this]
      exact ih _

theorem addAll_snoc (ns : List Nat) (n : Nat) (s : ArgSt) : addAll (ns ++ [n]) s = (addAll ns s).add n := by
  induction ns generalizing s with
  | nil => rfl
  | cons m ns ih => exact ih _

theorem addAll_sums (ns : List Nat) (s : ArgSt) :
    (addAll ns s).total = s.total + ns.sum ∧ (addAll ns s).count = s.count + ns.length := by
  induction ns generalizing s with
  | nil => simp [addAll]
  | cons n ns ih =>
    obtain ⟨h1, h2⟩ := ih (s.add n)
    simp only [addAll]
    rw [h1, h2]
    simp only [ArgSt.add, List.sum_cons, List.length_cons]
    omega

/-- Every file has a list of numbers. -/
theorem fileNums_exists (ls : List (List Byte)) : ∃ ns, FileNums ls ns := by
  induction ls with
  | nil => exact ⟨[], .nil⟩
  | cons l ls ih =>
    obtain ⟨ns, h⟩ := ih
    by_cases hl : ∃ n, LineNum l n
    · obtain ⟨n, hn⟩ := hl
      exact ⟨n :: ns, .num hn h⟩
    · exact ⟨ns, .skip (fun n hn => hl ⟨n, hn⟩) h⟩

/-- Maximum and minimum after at least one number. -/
theorem addAll_ends (ns : List Nat) (hn : ns ≠ []) : ∃ a b, (addAll ns ⟨none, none, 0, 0⟩).min = some a ∧
    (addAll ns ⟨none, none, 0, 0⟩).max = some b ∧ IsMost b ns ∧
    (IsLeast' a ns ↔ (0 ∈ ns → ns.getLast? = some 0)) ∧ a ∈ ns := by
  obtain ⟨k, hk⟩ : ∃ k, ns.length = k := ⟨_, rfl⟩
  induction k generalizing ns with
  | zero => exact absurd (List.length_eq_zero_iff.1 hk) hn
  | succ k ih =>
    obtain ⟨ms, n, rfl⟩ := (List.eq_nil_or_concat ns).resolve_left hn
    rename List Nat => ns
    rw [List.concat_eq_append] at hn hk ⊢
    rw [addAll_snoc]
    by_cases h0 : ns = []
    · subst h0
      refine ⟨n, n, rfl, rfl, ⟨by simp, by simp⟩, ?_, by simp⟩
      simp only [IsLeast', List.nil_append, List.mem_singleton, List.getLast?_singleton, Option.some.injEq]
      exact ⟨fun _ h => h.symm, fun _ => ⟨trivial, by simp⟩⟩
    · obtain ⟨a, b, h1, h2, ⟨h3, h3'⟩, h4, h5⟩ := ih ns h0 (by simpa using hk)
      have hmax : ((addAll ns ⟨none, none, 0, 0⟩).add n).max = some (Nat.max b n) := by
        simp only [ArgSt.add, h2, pyNot]
        split
        · rename_i hb; simp at hb; subst hb; simp
        · split
          · congr 1; exact (Nat.max_eq_right (by omega)).symm
          · congr 1; exact (Nat.max_eq_left (by omega)).symm
      have hmin : ((addAll ns ⟨none, none, 0, 0⟩).add n).min = some (if a = 0 then n else Nat.min a n) := by
        simp only [ArgSt.add, h1, pyNot]
        by_cases ha : a = 0
        · simp [ha]
        · simp only [ha, decide_false, Bool.false_eq_true, if_false]
          split
          · congr 1; exact (Nat.min_eq_right (by omega)).symm
          · congr 1; exact (Nat.min_eq_left (by omega)).symm
      refine ⟨_, _, hmin, hmax, ⟨?_, ?_⟩, ?_, ?_⟩
      · rcases Nat.le_total b n with h | h
        · rw [show Nat.max b n = n from Nat.max_eq_right h]; simp
        · rw [show Nat.max b n = b from Nat.max_eq_left h]; simp [h3]
      · intro m hm
        rw [List.mem_append, List.mem_singleton] at hm
        rcases hm with hm | rfl
        · exact Nat.le_trans (h3' m hm) (Nat.le_max_left _ _)
        · exact Nat.le_max_right _ _
      · simp only [List.getLast?_concat, Option.some.injEq, List.mem_append, List.mem_singleton]
        constructor
        · rintro ⟨-, hl⟩ hz
          have := hl 0 (by simp only [List.mem_append, List.mem_singleton]; exact hz)
          split at this
          · omega
          · have hz2 : Nat.min a n = 0 := by omega
            rcases Nat.le_total a n with h | h
            · rw [show Nat.min a n = a from Nat.min_eq_left h] at hz2; omega
            · rwa [show Nat.min a n = n from Nat.min_eq_right h] at hz2
        · intro H
          by_cases hn0 : n = 0
          · subst hn0
            have : (if a = 0 then 0 else Nat.min a 0) = 0 := by split <;> simp
            rw [this]
            exact ⟨by simp, fun m _ => Nat.zero_le m⟩
          · have hz : 0 ∉ ns := fun h => hn0 (H (.inl h))
            have hla := h4.2 fun h => absurd h hz
            have ha : a ≠ 0 := fun h => hz (h ▸ h5)
            rw [if_neg ha]
            refine ⟨?_, ?_⟩
            · rcases Nat.le_total a n with h | h
              · rw [show Nat.min a n = a from Nat.min_eq_left h]; simp [h5]
              · rw [show Nat.min a n = n from Nat.min_eq_right h]; simp
            · intro m hm
              rw [List.mem_append, List.mem_singleton] at hm
              rcases hm with hm | rfl
              · exact Nat.le_trans (Nat.min_le_left _ _) (hla.2 m hm)
              · exact Nat.min_le_right _ _
      · split
        · simp
        · rcases Nat.le_total a n with h | h
          · rw [show Nat.min a n = a from Nat.min_eq_left h]; simp [h5]
          · rw [show Nat.min a n = n from Nat.min_eq_right h]; simp

/-- **C65**: with at least one number, the script prints the greatest number, the count, the sum and the average
rounded down; the minimum is right exactly if no zero is followed by another number at the end. -/
theorem C65_output_partial {ls : List (List Byte)} {ns : List Nat} (h : FileNums ls ns) (hn : ns ≠ []) :
    ∃ o, argScript ls = some o ∧ IsMost o.max ns ∧ o.count = ns.length ∧ o.total = ns.sum ∧
      o.avg * ns.length ≤ ns.sum ∧ ns.sum < (o.avg + 1) * ns.length ∧
      (IsLeast' o.min ns ↔ (0 ∈ ns → ns.getLast? = some 0)) := by
  obtain ⟨a, b, h1, h2, h3, h4, -⟩ := addAll_ends ns hn
  obtain ⟨h5, h6⟩ := addAll_sums ns ⟨none, none, 0, 0⟩
  have hl : 0 < ns.length := List.length_pos_iff.2 hn
  refine ⟨⟨a, b, ns.sum / ns.length, ns.length, ns.sum⟩, ?_, h3, rfl, rfl, Nat.div_mul_le_self _ _, ?_, h4⟩
  · simp only [argScript, argLoop_nums h, h1, h2, h5, h6, Nat.zero_add]
  · rw [Nat.mul_comm]; exact Nat.lt_mul_div_succ _ hl

/-- **C65**, the minimum: false in general.  The lines `# 0` and `# 5` have the minimum 0; 5 is printed. -/
theorem C65_min_false : ∃ ls ns o, FileNums ls ns ∧ argScript ls = some o ∧ ¬ IsLeast' o.min ns := by
  refine ⟨[[35, 32, 48, 10], [35, 32, 53, 10]], [0, 5], ⟨5, 5, 2, 2, 5⟩, ?_, by decide, ?_⟩
  · exact .num ((C65_line _ _).1 (by decide)) (.num ((C65_line _ _).1 (by decide)) .nil)
  · rintro ⟨-, h⟩
    exact absurd (h 0 (by simp)) (by simp)

/-- **C65**, without a number: the script ends with an exception. -/
theorem C65_none_false {ls : List (List Byte)} (h : FileNums ls []) : argScript ls = none := by
  simp only [argScript, argLoop_nums h, addAll]

/-- The hypotheses: `a # 1 # 12x`, a line without number, and `# 7`. -/
example : ∃ ls ns, FileNums ls ns ∧ ns = [12, 7] ∧ ls.length = 3 ∧ argScript ls = some ⟨7, 12, 9, 2, 19⟩ := by
  refine ⟨[[97, 35, 32, 49, 32, 35, 32, 49, 50, 120, 10], [35, 49, 10], [35, 32, 55, 10]], [12, 7], ?_, rfl, rfl,
    by decide⟩
  refine .num ((C65_line _ _).1 (by decide)) (.skip (fun n hn => ?_) (.num ((C65_line _ _).1 (by decide)) .nil))
  have := (C65_line _ _).2 hn
  revert this
  simp [hashMatch, hashHere]

end NanoLog
