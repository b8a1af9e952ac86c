import Verif.FmtSpec

/-! # Lemmas about the format parsers -/

namespace NanoLog

/-- The first byte, if any, is not in the class. -/
def HeadNot (p : Byte → Bool) (r : List Byte) : Prop := ∀ b, r.head? = some b → p b = false

theorem HeadNot.cons {p : Byte → Bool} {b : Byte} {r : List Byte} (h : p b = false) :
    HeadNot p (b :: r) := by
  intro c hc; simp at hc; subst hc; exact h

theorem HeadNot.dropWhile {p : Byte → Bool} {r : List Byte} (h : HeadNot p r) :
    r.dropWhile p = r := by
  cases r with
  | nil => rfl
  | cons b bs => simp [h b rfl]

theorem dropWhile_append_of {p : Byte → Bool} {l r : List Byte} (hl : ∀ b ∈ l, p b = true)
    (hr : HeadNot p r) : (l ++ r).dropWhile p = r := by
  induction l with
  | nil => exact hr.dropWhile
  | cons b bs ih =>
    simp only [List.cons_append, List.dropWhile_cons, hl b (by simp), if_true]
    exact ih (fun c hc => hl c (by simp [hc]))

theorem takeWhile_append_of {p : Byte → Bool} {l r : List Byte} (hl : ∀ b ∈ l, p b = true)
    (hr : HeadNot p r) : (l ++ r).takeWhile p = l := by
  induction l with
  | nil =>
    cases r with
    | nil => rfl
    | cons b bs => simp [hr b rfl]
  | cons b bs ih =>
    simp only [List.cons_append, List.takeWhile_cons, hl b (by simp), if_true]
    rw [ih (fun c hc => hl c (by simp [hc]))]

theorem forall_byte {P : Byte → Prop} (h : ∀ n, n < 256 → P (UInt8.ofNat n)) (b : Byte) : P b := by
  have := h b.toNat b.toNat_lt
  rwa [UInt8.ofNat_toNat] at this

theorem digit_facts (b : Byte) (h : isDigit b = true) :
    b ≠ ch '*' ∧ b ≠ ch '.' ∧ b ≠ ch '%' ∧ (isFlag b = true → b = ch '0') := by
  revert h
  exact forall_byte (P := fun b => isDigit b = true →
    b ≠ ch '*' ∧ b ≠ ch '.' ∧ b ≠ ch '%' ∧ (isFlag b = true → b = ch '0'))
    (by decide +kernel) b

theorem length_facts (b : Byte) (h : isLength b = true) :
    b ≠ ch '*' ∧ b ≠ ch '.' ∧ b ≠ ch '%' ∧ isFlag b = false ∧ isDigit b = false := by
  revert h
  exact forall_byte (P := fun b => isLength b = true →
    b ≠ ch '*' ∧ b ≠ ch '.' ∧ b ≠ ch '%' ∧ isFlag b = false ∧ isDigit b = false)
    (by decide +kernel) b

theorem spec_facts (s : Byte × SpecCls) (h : s ∈ specTable) :
    s.1 ≠ ch '*' ∧ s.1 ≠ ch '.' ∧ s.1 ≠ ch '%' ∧ isFlag s.1 = false ∧ isDigit s.1 = false ∧
    isLength s.1 = false ∧ isTerminal s.1 = true ∧ s.1 ≠ ch 'n' ∧ isSpec s.1 = true ∧
    s.1 ≠ ch 'Z' ∧ s.1 ≠ ch 'h' ∧ s.1 ≠ ch 'l' := by
  have : ∀ s ∈ specTable,
    s.1 ≠ ch '*' ∧ s.1 ≠ ch '.' ∧ s.1 ≠ ch '%' ∧ isFlag s.1 = false ∧ isDigit s.1 = false ∧
    isLength s.1 = false ∧ isTerminal s.1 = true ∧ s.1 ≠ ch 'n' ∧ isSpec s.1 = true ∧
    s.1 ≠ ch 'Z' ∧ s.1 ≠ ch 'h' ∧ s.1 ≠ ch 'l' := by decide +kernel
  exact this s h

theorem lenMod_isLength (m : LenMod) : ∀ b ∈ m.bytes, isLength b = true := by
  cases m <;> decide

theorem flag_facts (b : Byte) (h : isFlag b = true) : b ≠ ch '%' ∧ b ≠ ch '*' := by
  revert h
  exact forall_byte (P := fun b => isFlag b = true → b ≠ ch '%' ∧ b ≠ ch '*')
    (by decide +kernel) b

/-- Tail of a conversion from the length modifier on. -/
theorem lenTail_head {m : LenMod} {s : Byte × SpecCls} (hs : s ∈ specTable) (r : List Byte) :
    ∀ b, (m.bytes ++ (s.1 :: r)).head? = some b →
      b ≠ ch '*' ∧ b ≠ ch '.' ∧ b ≠ ch '%' ∧ isFlag b = false ∧ isDigit b = false := by
  intro b hb
  cases hm : m.bytes with
  | nil =>
    simp [hm] at hb
    subst hb
    have := spec_facts s hs
    exact ⟨this.1, this.2.1, this.2.2.1, this.2.2.2.1, this.2.2.2.2.1⟩
  | cons c cs =>
    simp [hm] at hb
    subst hb
    exact length_facts c (lenMod_isLength m c (by simp [hm]))

/-- Tail of a conversion from the precision on. -/
theorem precTail_head {p : NumField} {m : LenMod} {s : Byte × SpecCls} (hs : s ∈ specTable)
    (r : List Byte) :
    ∀ b, (precBytes p ++ (m.bytes ++ (s.1 :: r))).head? = some b →
      b ≠ ch '*' ∧ b ≠ ch '%' ∧ isFlag b = false ∧ isDigit b = false := by
  intro b hb
  cases p with
  | none =>
    have := lenTail_head hs r b hb
    exact ⟨this.1, this.2.2.1, this.2.2.2.1, this.2.2.2.2⟩
  | digits ds => simp [precBytes] at hb; subst hb; decide
  | star => simp [precBytes] at hb; subst hb; decide

/-- Tail of a conversion from the width on. -/
theorem widthTail_head {c : ConvS} (hc : c.WF) (r : List Byte) :
    ∀ b, (c.width.bytes ++ (precBytes c.prec ++ (c.len.bytes ++ (c.spec.1 :: r)))).head? = some b →
      b ≠ ch '%' ∧ isFlag b = false := by
  intro b hb
  obtain ⟨_, hw, _, hs, _⟩ := hc
  cases hwd : c.width with
  | none =>
    rw [hwd] at hb
    have := precTail_head hs r b hb
    exact ⟨this.2.1, this.2.2.1⟩
  | digits ds =>
    obtain ⟨h1, h2, h3⟩ := hw ds hwd
    cases ds with
    | nil => exact absurd rfl h1
    | cons d ds =>
      simp [hwd, NumField.bytes] at hb
      subst hb
      have := digit_facts d (h2 d (by simp))
      refine ⟨this.2.2.1, ?_⟩
      cases hf : isFlag d with
      | false => rfl
      | true => exact absurd (this.2.2.2 hf) (by simpa using h3)
  | star => simp [hwd, NumField.bytes] at hb; subst hb; decide

theorem convTail_append (c : ConvS) (r : List Byte) :
    c.tailBytes ++ r =
      c.flags ++ (c.width.bytes ++ (precBytes c.prec ++ (c.len.bytes ++ (c.spec.1 :: r)))) := by
  simp [ConvS.tailBytes]

theorem conv_head_not_pct {c : ConvS} (hc : c.WF) (r : List Byte) :
    (c.tailBytes ++ r).head? ≠ some (ch '%') := by
  intro h
  rw [convTail_append] at h
  cases hf : c.flags with
  | nil =>
    rw [hf] at h
    exact (widthTail_head hc r _ h).1 rfl
  | cons f fs =>
    simp [hf] at h
    exact (flag_facts f (hc.1 f (by simp [hf]))).1 h

theorem skipWidth_conv {c : ConvS} (hc : c.WF) (r : List Byte) :
    skipWidth (c.width.bytes ++ (precBytes c.prec ++ (c.len.bytes ++ (c.spec.1 :: r)))) =
      (decide (c.width = .star), precBytes c.prec ++ (c.len.bytes ++ (c.spec.1 :: r))) := by
  obtain ⟨_, hw, _, hs, _⟩ := hc
  have hh := precTail_head (p := c.prec) (m := c.len) hs r
  generalize precBytes c.prec ++ (c.len.bytes ++ (c.spec.1 :: r)) = t at *
  have hd : HeadNot isDigit t := fun b hb => (hh b hb).2.2.2
  cases hwd : c.width with
  | none =>
    simp only [NumField.bytes, List.nil_append]
    cases t with
    | nil => rfl
    | cons b bs =>
      have := (hh b rfl).1
      simp [skipWidth, this, hd b rfl]
  | digits ds =>
    obtain ⟨h1, h2, h3⟩ := hw ds hwd
    simp only [NumField.bytes]
    cases ds with
    | nil => exact absurd rfl h1
    | cons d ds =>
      have := (digit_facts d (h2 d (by simp))).1
      have e := dropWhile_append_of (p := isDigit) h2 hd
      simp only [List.cons_append] at e
      simp [skipWidth, this, e]
  | star => simp [NumField.bytes, skipWidth]

theorem skipPrec_conv {c : ConvS} (hc : c.WF) (r : List Byte) :
    skipPrec (precBytes c.prec ++ (c.len.bytes ++ (c.spec.1 :: r))) =
      (match c.prec with
        | .none => none
        | .star => some none
        | .digits ds => some (some ds), c.len.bytes ++ (c.spec.1 :: r)) := by
  obtain ⟨_, _, hp, hs, _⟩ := hc
  have hh := lenTail_head (m := c.len) hs r
  generalize c.len.bytes ++ (c.spec.1 :: r) = t at *
  have hd : HeadNot isDigit t := fun b hb => (hh b hb).2.2.2.2
  cases hpd : c.prec with
  | none =>
    simp only [precBytes, List.nil_append]
    cases t with
    | nil => rfl
    | cons b bs =>
      have := (hh b rfl).2.1
      simp [skipPrec, this]
  | digits ds =>
    obtain ⟨h1, h2, h3⟩ := hp ds hpd
    cases ds with
    | nil => exact absurd rfl h1
    | cons d ds =>
      have := (digit_facts d (h2 d (by simp))).1
      have e := dropWhile_append_of (p := isDigit) h2 hd
      have e2 := takeWhile_append_of (p := isDigit) h2 hd
      simp only [List.cons_append] at e e2
      simp [precBytes, NumField.bytes, skipPrec, this, e, e2]
  | star => simp [precBytes, NumField.bytes, skipPrec]

theorem cType_str {c : ConvS} (hc : c.WF) : c.spec.1 = ch 's' ↔ c.ty.rty = none := by
  obtain ⟨_, _, _, hs, ht⟩ := hc
  have : ∀ s ∈ specTable, ∀ m ty, cType m s.2 = some ty → (s.1 = ch 's' ↔ ty.rty = none) := by
    intro s hs m ty h
    have hcls : ∀ s ∈ specTable, s.1 = ch 's' ↔ s.2 = .str := by decide +kernel
    rw [hcls s hs]
    generalize s.2 = k at *
    revert h
    cases m <;> cases k <;> simp [cType] <;> rintro rfl <;> simp [FormatType.rty]
  exact this _ hs _ _ ht

/-- One iteration of `getParamInfo` on a well-formed conversion. -/
theorem getParamInfoF_conv {c : ConvS} (hc : c.WF) (fuel : Nat) (r : List Byte) (n : Nat) :
    getParamInfoF (fuel + 1) (c.bytes ++ r) n =
      match c.conv.params[n]? with
      | some p => .param p
      | none => getParamInfoF fuel r (n - c.conv.params.length) := by
  have h1 := conv_head_not_pct hc r
  have hf : (c.tailBytes ++ r).dropWhile isFlag =
      c.width.bytes ++ (precBytes c.prec ++ (c.len.bytes ++ (c.spec.1 :: r))) := by
    rw [convTail_append]
    exact dropWhile_append_of hc.1 (fun b hb => (widthTail_head hc r b hb).2)
  have hsf := spec_facts _ hc.2.2.2.1
  have hl : (c.len.bytes ++ (c.spec.1 :: r)).dropWhile isLength = c.spec.1 :: r :=
    dropWhile_append_of (lenMod_isLength _) (HeadNot.cons hsf.2.2.2.2.2.1)
  have hstr := cType_str hc
  have hbig := hc.2.2.1
  simp only [ConvS.bytes, List.cons_append, getParamInfoF, ne_eq, not_true_eq_false, if_false, h1,
    hf, skipWidth_conv hc, skipPrec_conv hc, hl]
  have hpar : c.conv.params = (if c.width = .star then [.dynWidth] else []) ++
      (if c.prec = .star then [.dynPrec] else []) ++
      [if c.ty.rty.isSome then .nonString
        else if c.prec = .star then .strDyn
        else match c.conv.prec with
          | some n => .strPrec n
          | none => .strNo] := by
    simp [Conv.params, ConvS.conv]
    rfl
  rw [hpar]
  have hnt : ¬ (¬ isTerminal c.spec.1 = true) := by simp [hsf.2.2.2.2.2.2.1]
  have hnn : ¬ (c.spec.1 = ch 'n') := hsf.2.2.2.2.2.2.2.1
  simp only [hnt, hnn, if_false]
  by_cases hw : c.width = .star
  · cases n with
    | zero => simp [hw]
    | succ n =>
      simp only [hw, if_true, decide_true, true_and]
      cases hp : c.prec with
      | star =>
        simp only [if_true]
        cases n with
        | zero => simp
        | succ n =>
          cases n with
          | zero =>
            by_cases hs : c.spec.1 = ch 's'
            · simp [hs, hstr.1 hs]
            · have : c.ty.rty.isSome = true := by
                cases h : c.ty.rty with
                | none => exact absurd (hstr.2 h) hs
                | some _ => rfl
              simp [hs, this]
          | succ n => simp
      | none =>
        cases n with
        | zero =>
          by_cases hs : c.spec.1 = ch 's'
          · simp [hs, hstr.1 hs, ConvS.conv, hp]
          · have : c.ty.rty.isSome = true := by
              cases h : c.ty.rty with
              | none => exact absurd (hstr.2 h) hs
              | some _ => rfl
            simp [hs, this]
        | succ n => simp
      | digits ds =>
        have hb : ¬ (digitsVal ds ≥ 2 ^ 31) := by have := (hbig ds hp).2.2; omega
        simp only [hb, decide_false]
        cases n with
        | zero =>
          by_cases hs : c.spec.1 = ch 's'
          · simp [hs, hstr.1 hs, ConvS.conv, hp]
          · have : c.ty.rty.isSome = true := by
              cases h : c.ty.rty with
              | none => exact absurd (hstr.2 h) hs
              | some _ => rfl
            simp [hs, this]
        | succ n => simp
  · simp only [hw, if_false, decide_false, Bool.false_eq_true, false_and, List.nil_append]
    cases hp : c.prec with
    | star =>
      simp only [if_true]
      cases n with
      | zero => simp
      | succ n =>
        cases n with
        | zero =>
          by_cases hs : c.spec.1 = ch 's'
          · simp [hs, hstr.1 hs]
          · have : c.ty.rty.isSome = true := by
              cases h : c.ty.rty with
              | none => exact absurd (hstr.2 h) hs
              | some _ => rfl
            simp [hs, this]
        | succ n => simp
    | none =>
      cases n with
      | zero =>
        by_cases hs : c.spec.1 = ch 's'
        · simp [hs, hstr.1 hs, ConvS.conv, hp]
        · have : c.ty.rty.isSome = true := by
            cases h : c.ty.rty with
            | none => exact absurd (hstr.2 h) hs
            | some _ => rfl
          simp [hs, this]
      | succ n => simp
    | digits ds =>
      have hb : ¬ (digitsVal ds ≥ 2 ^ 31) := by have := (hbig ds hp).2.2; omega
      simp only [hb, decide_false]
      cases n with
      | zero =>
        by_cases hs : c.spec.1 = ch 's'
        · simp [hs, hstr.1 hs, ConvS.conv, hp]
        · have : c.ty.rty.isSome = true := by
            cases h : c.ty.rty with
            | none => exact absurd (hstr.2 h) hs
            | some _ => rfl
          simp [hs, this]
      | succ n => simp

theorem getParamInfoF_items {is : List FItem} (h : ∀ i ∈ is, i.WF) (fuel n : Nat)
    (hf : (render is).length ≤ fuel) :
    getParamInfoF fuel (render is) n =
      match (itemParams is)[n]? with
      | some p => .param p
      | none => .invalid := by
  induction is generalizing fuel n with
  | nil => cases fuel <;> simp [render, itemParams, getParamInfoF]
  | cons i is ih =>
    have hi := h i (by simp)
    have hr : render (i :: is) = i.bytes ++ render is := by simp [render]
    rw [hr] at hf ⊢
    simp only [List.length_append] at hf
    have ih' := fun fuel n => ih (fun j hj => h j (by simp [hj])) fuel n
    cases i with
    | text b =>
      have hp : itemParams (.text b :: is) = itemParams is := by simp [itemParams]
      simp only [FItem.bytes, List.length_cons, List.length_nil] at hf
      obtain ⟨fuel, rfl⟩ : ∃ k, fuel = k + 1 := ⟨fuel - 1, by omega⟩
      have hb : b ≠ ch '%' := hi.1
      simp only [FItem.bytes, List.cons_append, List.nil_append, getParamInfoF, ne_eq, hb,
        not_false_eq_true, if_true, hp]
      exact ih' fuel n (by omega)
    | pct =>
      have hp : itemParams (.pct :: is) = itemParams is := by simp [itemParams]
      simp only [FItem.bytes, List.length_cons, List.length_nil] at hf
      obtain ⟨fuel, rfl⟩ : ∃ k, fuel = k + 1 := ⟨fuel - 1, by omega⟩
      simp only [FItem.bytes, List.cons_append, List.nil_append, getParamInfoF, ne_eq,
        not_true_eq_false, if_false, List.head?_cons, if_true, List.tail_cons, hp]
      exact ih' fuel n (by omega)
    | conv c =>
      have hp : itemParams (.conv c :: is) = c.conv.params ++ itemParams is := by
        simp [itemParams]
      simp only [FItem.bytes, ConvS.bytes, List.length_cons] at hf
      obtain ⟨fuel, rfl⟩ : ∃ k, fuel = k + 1 := ⟨fuel - 1, by omega⟩
      rw [FItem.bytes, getParamInfoF_conv hi, hp, List.getElem?_append]
      by_cases hn : n < c.conv.params.length
      · simp [hn]
      · rw [List.getElem?_eq_none (by omega)]
        simp only [hn, if_false]
        exact ih' fuel _ (by omega)

theorem itemParams_length_le (is : List FItem) :
    (itemParams is).length ≤ 2 * (render is).length := by
  induction is with
  | nil => simp [itemParams]
  | cons i is ih =>
    have hr : render (i :: is) = i.bytes ++ render is := by simp [render]
    rw [hr, List.length_append]
    cases i with
    | text b =>
      have hp : itemParams (.text b :: is) = itemParams is := by simp [itemParams]
      rw [hp]; omega
    | pct =>
      have hp : itemParams (.pct :: is) = itemParams is := by simp [itemParams]
      rw [hp]; omega
    | conv c =>
      have hp : itemParams (.conv c :: is) = c.conv.params ++ itemParams is := by
        simp [itemParams]
      rw [hp, List.length_append]
      have : c.conv.params.length ≤ 3 := by
        simp only [Conv.params, List.length_append, List.length_cons, List.length_nil]
        split <;> split <;> simp
      simp only [FItem.bytes, ConvS.bytes, ConvS.tailBytes, List.length_cons, List.length_append]
      omega

theorem analyzeF_eq {s : List Byte} {ps : List ParamType}
    (h : ∀ n, getParamInfo s n = match ps[n]? with | some p => .param p | none => .invalid)
    (fuel k : Nat) (hf : ps.length < fuel + k) :
    analyzeF s fuel k = some (ps.drop k) := by
  induction fuel generalizing k with
  | zero => rw [List.drop_of_length_le (by omega)]; rfl
  | succ fuel ih =>
    simp only [analyzeF, h k]
    by_cases hk : k < ps.length
    · rw [List.getElem?_eq_getElem hk]
      simp only [ih (k + 1) (by omega), Option.map_some]
      rw [List.drop_eq_getElem_cons hk]
    · rw [List.getElem?_eq_none (by omega), List.drop_of_length_le (by omega)]

theorem analyze_items {is : List FItem} (h : ∀ i ∈ is, i.WF) :
    analyze (render is) = some (itemParams is) := by
  have := analyzeF_eq (s := render is) (ps := itemParams is)
    (fun n => getParamInfoF_items h _ n (Nat.le_refl _)) (2 * (render is).length + 1) 0
    (by have := itemParams_length_le is; omega)
  simpa [analyze] using this

/-! ## The decoder's parser -/

theorem many1_none {p : Byte → Bool} {r : List Byte} (h : HeadNot p r) : many1 p r = [] := by
  cases r with
  | nil => rfl
  | cons b bs => simp [many1, h b rfl]

theorem many1_head {p : Byte → Bool} {l r : List Byte} (hne : l ≠ []) (hl : ∀ b ∈ l, p b = true)
    (hr : HeadNot p r) : (many1 p (l ++ r)).head? = some (l, r) := by
  induction l with
  | nil => exact absurd rfl hne
  | cons b bs ih =>
    simp only [List.cons_append, many1, hl b (by simp), if_true]
    cases bs with
    | nil => simp [many1_none hr]
    | cons c cs =>
      have := ih (by simp) (fun d hd => hl d (by simp [hd]))
      rw [List.head?_append, List.head?_map, this]
      rfl

theorem head?_flatMap_of {α β : Type} {l : List α} {f : α → List β} {a : α} {y : β}
    (hl : l.head? = some a) (hf : (f a).head? = some y) : (l.flatMap f).head? = some y := by
  cases l with
  | nil => simp at hl
  | cons x xs =>
    simp at hl
    subst hl
    rw [List.flatMap_cons, List.head?_append, hf]
    rfl

/-- Flags. -/
theorem flagsM_head {l r : List Byte} (hl : ∀ b ∈ l, isFlag b = true) (hr : HeadNot isFlag r) :
    (optM (many1 isFlag) (l ++ r)).head? = some (l, r) := by
  cases l with
  | nil => simp [optM, many1_none hr]
  | cons b bs => rw [optM, List.head?_append, many1_head (by simp) hl hr]; rfl

/-- Digits or star. -/
theorem numM_head {f : NumField} {r : List Byte}
    (hf : ∀ ds, f = .digits ds → ds ≠ [] ∧ ∀ b ∈ ds, isDigit b = true)
    (hr : HeadNot isDigit r) (hs : r.head? ≠ some (ch '*')) :
    (optM (altM (many1 isDigit) (one (· = ch '*'))) (f.bytes ++ r)).head? = some (f.bytes, r) := by
  cases f with
  | none =>
    simp only [NumField.bytes, List.nil_append, optM, altM, many1_none hr]
    cases r with
    | nil => rfl
    | cons b bs =>
      have : b ≠ ch '*' := by simpa using hs
      simp [one, this]
  | digits ds =>
    obtain ⟨h1, h2⟩ := hf ds rfl
    simp only [NumField.bytes, optM, altM, List.head?_append, many1_head h1 h2 hr]
    rfl
  | star =>
    have : isDigit (ch '*') = false := by decide
    simp [NumField.bytes, optM, altM, many1, this, one]

theorem precM_head {f : NumField} {r : List Byte}
    (hf : ∀ ds, f = .digits ds → ds ≠ [] ∧ ∀ b ∈ ds, isDigit b = true)
    (hr : HeadNot isDigit r) (hd : r.head? ≠ some (ch '.')) :
    (optM precM (precBytes f ++ r)).head? = some (f.bytes, r) := by
  cases f with
  | none =>
    simp only [precBytes, List.nil_append, optM, NumField.bytes]
    cases r with
    | nil => rfl
    | cons b bs =>
      have : b ≠ ch '.' := by simpa using hd
      simp [precM, this]
  | digits ds =>
    obtain ⟨h1, h2⟩ := hf ds rfl
    simp only [precBytes, NumField.bytes, List.cons_append, optM, precM, altM, if_true,
      List.head?_append, many1_head h1 h2 hr]
    rfl
  | star =>
    have : isDigit (ch '*') = false := by decide
    simp [precBytes, NumField.bytes, optM, precM, altM, many1, this, one]

/-- The last two groups. -/
theorem lenSpec_head {m : LenMod} {s : Byte × SpecCls} (hs : s ∈ specTable) (r : List Byte)
    (w p : List Byte) :
    ((optM lenAlts (m.bytes ++ (s.1 :: r))).flatMap fun m5 =>
      (one isSpec m5.2).flatMap fun m6 =>
        match m6.1 with
        | [c] => [({ width := w, prec := p, len := m5.1, spec := c, rest := m6.2 } : RMatch)]
        | _ => []).head? =
      some { width := w, prec := p, len := m.bytes, spec := s.1, rest := r } := by
  obtain ⟨b, k⟩ := s
  have hall : ∀ s ∈ specTable, isSpec s.1 = true ∧ ch 'h' ≠ s.1 ∧ ch 'l' ≠ s.1 ∧
      ch 'j' ≠ s.1 ∧ ch 'z' ≠ s.1 ∧ ch 't' ≠ s.1 ∧ ch 'L' ≠ s.1 ∧ ch 'Z' ≠ s.1 ∧
      s.1 ≠ ch 'h' ∧ s.1 ≠ ch 'l' ∧
      s.1 ≠ ch 'j' ∧ s.1 ≠ ch 'z' ∧ s.1 ≠ ch 't' ∧ s.1 ≠ ch 'L' ∧ s.1 ≠ ch 'Z' := by
    decide +kernel
  have h := hall _ hs
  simp only at h
  obtain ⟨h0, h1, h2, h3, h4, h5, h6, h7, g1, g2, g3, g4, g5, g6, g7⟩ := h
  have hl : isSpec (ch 'l') = false := by decide
  have e1 : (ch 'l' : Byte) ≠ ch 'h' := by decide
  have e2 : (ch 'j' : Byte) ≠ ch 'h' ∧ (ch 'j' : Byte) ≠ ch 'l' := by decide
  have e3 : (ch 'z' : Byte) ≠ ch 'h' ∧ (ch 'z' : Byte) ≠ ch 'l' ∧ (ch 'z' : Byte) ≠ ch 'j' := by
    decide
  have e4 : (ch 't' : Byte) ≠ ch 'h' ∧ (ch 't' : Byte) ≠ ch 'l' ∧ (ch 't' : Byte) ≠ ch 'j' ∧
    (ch 't' : Byte) ≠ ch 'z' ∧ (ch 't' : Byte) ≠ ch 'Z' := by decide
  have e5 : (ch 'L' : Byte) ≠ ch 'h' ∧ (ch 'L' : Byte) ≠ ch 'l' ∧ (ch 'L' : Byte) ≠ ch 'j' ∧
    (ch 'L' : Byte) ≠ ch 'z' ∧ (ch 'L' : Byte) ≠ ch 'Z' ∧ (ch 'L' : Byte) ≠ ch 't' := by decide
  cases m <;>
    simp [LenMod.bytes, optM, lenAlts, altM, lit, one, h0, hl,
      g1, g2, g3, g4, g5, g6, g7, e1, e2, e3, e4, e5, List.flatMap_cons]

theorem regexMatch_conv {c : ConvS} (hc : c.WF) (r : List Byte) :
    regexMatch (c.bytes ++ r) =
      some { width := c.width.bytes, prec := c.prec.bytes, len := c.len.bytes
             spec := c.spec.1, rest := r } := by
  unfold regexMatch
  simp only [ConvS.bytes, List.cons_append, regexAll, if_true]
  rw [convTail_append]
  have hs := hc.2.2.2.1
  refine head?_flatMap_of (flagsM_head hc.1 (fun b hb => (widthTail_head hc r b hb).2)) ?_
  refine head?_flatMap_of (numM_head (fun ds h => ⟨(hc.2.1 ds h).1, (hc.2.1 ds h).2.1⟩)
    (fun b hb => (precTail_head hs r b hb).2.2.2)
    (fun h => (precTail_head hs r _ h).1 rfl)) ?_
  refine head?_flatMap_of (precM_head (fun ds h => ⟨(hc.2.2.1 ds h).1, (hc.2.2.1 ds h).2.1⟩)
    (fun b hb => (lenTail_head hs r b hb).2.2.2.2)
    (fun h => (lenTail_head hs r _ h).2.1 rfl)) ?_
  exact lenSpec_head hs r _ _

theorem regexMatch_pct (r : List Byte) : regexMatch (ch '%' :: ch '%' :: r) = none := by
  have h1 : isFlag (ch '%') = false := by decide
  have h2 : isDigit (ch '%') = false := by decide
  have h3 : ch '%' ≠ ch '*' ∧ ch '%' ≠ ch '.' ∧ ch '%' ≠ ch 'h' ∧ ch '%' ≠ ch 'l' ∧
    ch '%' ≠ ch 'j' ∧ ch '%' ≠ ch 'z' ∧ ch '%' ≠ ch 'Z' ∧ ch '%' ≠ ch 't' ∧ ch '%' ≠ ch 'L' := by
    decide
  have h4 : isSpec (ch '%') = false := by decide
  simp [regexMatch, regexAll, optM, many1, h1, h2, altM, one, h3, precM, lenAlts, lit, h4]

theorem getFormatType_conv {c : ConvS} (hc : c.WF) :
    getFormatType c.len.bytes c.spec.1 = some c.ty := by
  have hs := hc.2.2.2.1
  have ht := hc.2.2.2.2
  generalize c.spec = s at *
  generalize c.len = m at *
  rw [← ht]
  revert s
  have : ∀ m : LenMod, ∀ s ∈ specTable, cType m s.2 = some c.ty →
      getFormatType m.bytes s.1 = cType m s.2 := by
    intro m s hs h
    have hd : ∀ s ∈ specTable, (cType m s.2).isSome = true →
        getFormatType m.bytes s.1 = cType m s.2 := by
      cases m <;> decide +kernel
    exact hd s hs (by rw [h]; rfl)
  exact this m

theorem convNibbles {c : ConvS} (hc : c.WF) :
    (if c.spec.1 ≠ ch 's' then 1 else 0) +
      (if c.width.bytes.head? = some (ch '*') then 1 else 0) +
      (if c.prec.bytes.head? = some (ch '*') then 1 else 0) = numNibblesNeeded c.conv.params ∧
    (decide (c.width.bytes.head? = some (ch '*')) = c.conv.dynW) ∧
    (decide (c.prec.bytes.head? = some (ch '*')) = c.conv.dynP) := by
  have hstar : ∀ f : NumField, (∀ ds, f = .digits ds → ds ≠ [] ∧ ∀ b ∈ ds, isDigit b = true) →
      (f.bytes.head? = some (ch '*') ↔ f = .star) := by
    intro f hf
    cases f with
    | none => simp [NumField.bytes]
    | digits ds =>
      obtain ⟨h1, h2⟩ := hf ds rfl
      cases ds with
      | nil => exact absurd rfl h1
      | cons d ds =>
        have := (digit_facts d (h2 d (by simp))).1
        simp [NumField.bytes, this]
    | star => simp [NumField.bytes]
  have hw := hstar c.width (fun ds h => ⟨(hc.2.1 ds h).1, (hc.2.1 ds h).2.1⟩)
  have hp := hstar c.prec (fun ds h => ⟨(hc.2.2.1 ds h).1, (hc.2.2.1 ds h).2.1⟩)
  have hs := cType_str hc
  refine ⟨?_, by simp [hw, ConvS.conv], by simp [hp, ConvS.conv]⟩
  simp only [hw, hp]
  have hlast : ∀ x : Option Nat, numNibblesNeeded [if c.ty.rty.isSome then ParamType.nonString
      else if c.prec = .star then .strDyn
      else match x with
        | some n => .strPrec n
        | none => .strNo] = if c.spec.1 ≠ ch 's' then 1 else 0 := by
    intro x
    by_cases h : c.spec.1 = ch 's'
    · simp only [hs.1 h, Option.isSome_none, Bool.false_eq_true, if_false, h, ne_eq,
        not_true_eq_false]
      split
      · rfl
      · split <;> simp [numNibblesNeeded]
    · have : c.ty.rty.isSome = true := by
        cases h' : c.ty.rty with
        | none => exact absurd (hs.2 h') h
        | some _ => rfl
      simp [this, h, numNibblesNeeded]
  have hsplit : ∀ a b : List ParamType,
      numNibblesNeeded (a ++ b) = numNibblesNeeded a + numNibblesNeeded b := by
    intro a b; simp [numNibblesNeeded]
  have hl := hlast c.conv.prec
  simp only [Conv.params, hsplit]
  have e1 : c.conv.dynP = decide (c.prec = .star) := rfl
  have e2 : c.conv.dynW = decide (c.width = .star) := rfl
  have e3 : c.conv.ty = c.ty := rfl
  simp only [e1, e2, e3, decide_eq_true_eq]
  refine Eq.trans ?_ (congrArg (numNibblesNeeded _ + numNibblesNeeded _ + ·) hl.symm)
  by_cases h1 : c.width = .star <;> by_cases h2 : c.prec = .star <;>
    simp [h1, h2, numNibblesNeeded] <;> omega

/-- Fragment of a conversion with its text. -/
def convFrag (c : Conv × List Byte) : Frag := ⟨some c.1.ty, c.1.dynW, c.1.dynP, c.2⟩

theorem microLoop_items {is : List FItem} (h : ∀ i ∈ is, i.WF) (fuel pct : Nat) (st : MState)
    (hf : (render is).length ≤ fuel) (hpct : pct % 2 = 0) :
    microLoop fuel (render is) pct st =
      some { text := (splitConvs st.text is).2
             frags := st.frags ++ (splitConvs st.text is).1.map convFrag
             nibbles := st.nibbles + numNibblesNeeded (itemParams is) } := by
  induction is generalizing fuel pct st with
  | nil =>
    cases fuel <;> simp [render, microLoop, splitConvs, itemParams, numNibblesNeeded]
  | cons i is ih =>
    have hi := h i (by simp)
    have hr : render (i :: is) = i.bytes ++ render is := by simp [render]
    rw [hr] at hf ⊢
    simp only [List.length_append] at hf
    have ih' := fun fuel pct st => ih (fun j hj => h j (by simp [hj])) fuel pct st
    have hbs : ch '%' ≠ ch '\\' := by decide
    cases i with
    | text b =>
      have hp : itemParams (.text b :: is) = itemParams is := by simp [itemParams]
      simp only [FItem.bytes, List.length_cons, List.length_nil] at hf
      obtain ⟨fuel, rfl⟩ : ∃ k, fuel = k + 1 := ⟨fuel - 1, by omega⟩
      simp only [FItem.bytes, List.cons_append, List.nil_append, microLoop, hi.1, hi.2.1, ne_eq,
        not_false_eq_true, if_true, if_false, hp, splitConvs]
      exact ih' fuel 0 _ (by omega) rfl
    | pct =>
      have hp : itemParams (.pct :: is) = itemParams is := by simp [itemParams]
      simp only [FItem.bytes, List.length_cons, List.length_nil] at hf
      obtain ⟨fuel, rfl⟩ : ∃ k, fuel = k + 2 := ⟨fuel - 2, by omega⟩
      have h1 : ¬ ((pct + 1) % 2 = 0) := by omega
      have h2 : (pct + 1 + 1) % 2 = 0 := by omega
      simp only [FItem.bytes, List.cons_append, List.nil_append, microLoop, hbs, if_false, ne_eq,
        not_true_eq_false, h1, regexMatch_pct, h2, if_true, hp, splitConvs]
      rw [ih' fuel (pct + 1 + 1) _ (by omega) h2]
      simp
    | conv c =>
      have hp : itemParams (.conv c :: is) = c.conv.params ++ itemParams is := by
        simp [itemParams]
      have hlen : (c.bytes).length = c.tailBytes.length + 1 := by simp [ConvS.bytes]
      simp only [FItem.bytes] at hf
      obtain ⟨fuel, rfl⟩ : ∃ k, fuel = k + 1 := ⟨fuel - 1, by omega⟩
      have h1 : ¬ ((pct + 1) % 2 = 0) := by omega
      have hrx := regexMatch_conv hi (render is)
      have hcb : c.bytes ++ render is = ch '%' :: (c.tailBytes ++ render is) := rfl
      rw [hcb] at hrx
      rw [FItem.bytes, hcb]
      obtain ⟨hn, hdw, hdp⟩ := convNibbles hi
      simp only [microLoop, hbs, if_false, ne_eq, not_true_eq_false, h1, hrx,
        getFormatType_conv hi, hdw, hdp]
      rw [ih' fuel 0 _ (by omega) rfl]
      simp only [splitConvs, hp, List.map_cons, convFrag]
      congr 1
      have ht : (ch '%' :: (c.tailBytes ++ render is)).take
          ((ch '%' :: (c.tailBytes ++ render is)).length - (render is).length) = c.bytes := by
        rw [← hcb]
        have : (c.bytes ++ render is).length - (render is).length = c.bytes.length := by simp
        rw [this]; simp
      have hnn : numNibblesNeeded (c.conv.params ++ itemParams is) =
          numNibblesNeeded c.conv.params + numNibblesNeeded (itemParams is) := by
        simp [numNibblesNeeded]
      rw [hnn, ← hn]
      simp only [ht, List.append_assoc, List.cons_append, List.nil_append, ConvS.conv, ne_eq]
      congr 1
      omega

theorem extendLast_map (cs : List (Conv × List Byte)) (t : List Byte) (h : cs ≠ []) :
    extendLast (cs.map convFrag) t = formatFrags (attachTail cs t) := by
  induction cs with
  | nil => exact absurd rfl h
  | cons c cs ih =>
    cases cs with
    | nil => simp [extendLast, convFrag, formatFrags, attachTail, Piece.frag]
    | cons d cs =>
      have := ih (by simp)
      simp only [List.map_cons, extendLast, attachTail, formatFrags] at this ⊢
      rw [this]
      rfl

theorem splitConvs_text (is : List FItem) (acc : List Byte) (h : (splitConvs acc is).1 = []) :
    (splitConvs acc is).2 = acc ++ render is := by
  induction is generalizing acc with
  | nil => simp [splitConvs, render]
  | cons i is ih =>
    have hr : render (i :: is) = i.bytes ++ render is := by simp [render]
    cases i with
    | conv c => simp [splitConvs] at h
    | text b => simp only [splitConvs] at h ⊢; rw [ih _ h, hr]; simp
    | pct => simp only [splitConvs] at h ⊢; rw [ih _ h, hr]; simp

theorem attachTail_params (cs : List (Conv × List Byte)) (t : List Byte) :
    formatParams (attachTail cs t) = cs.flatMap fun c => c.1.params := by
  induction cs with
  | nil => simp [attachTail, formatParams, Piece.params]
  | cons c cs ih =>
    cases cs with
    | nil => simp [attachTail, formatParams, Piece.params]
    | cons d cs =>
      simp only [formatParams] at ih
      simp only [attachTail, formatParams, List.flatMap_cons, ih]
      simp [Piece.params]

theorem splitConvs_params (is : List FItem) (acc : List Byte) :
    ((splitConvs acc is).1.flatMap fun c => c.1.params) = itemParams is := by
  induction is generalizing acc with
  | nil => simp [splitConvs, itemParams]
  | cons i is ih =>
    cases i with
    | conv c => simp [splitConvs, itemParams, ih]
    | text b => simp only [splitConvs]; rw [ih]; simp [itemParams]
    | pct => simp only [splitConvs]; rw [ih]; simp [itemParams]

theorem pieces_params (is : List FItem) : formatParams (pieces is) = itemParams is := by
  rw [pieces, attachTail_params, splitConvs_params]

theorem attachTail_length (cs : List (Conv × List Byte)) (t : List Byte) (h : cs ≠ []) :
    (attachTail cs t).length = cs.length := by
  induction cs with
  | nil => exact absurd rfl h
  | cons c cs ih =>
    cases cs with
    | nil => rfl
    | cons d cs => simp [attachTail, ih]

/-- The decoder's parser on a well-formed format string. -/
theorem createMicroCode_items {is : List FItem} (h : ∀ i ∈ is, i.WF) (file : List Byte)
    (line level : Nat) (hn : numNibblesNeeded (itemParams is) ≤ 255)
    (hp : (pieces is).length ≤ 255) :
    createMicroCode (render is) file line level =
      some { file := file, line := line, level := level
             numNibbles := numNibblesNeeded (itemParams is)
             frags := formatFrags (pieces is) } := by
  have hm := microLoop_items h (render is).length 0 ⟨[], [], 0⟩ (Nat.le_refl _) rfl
  simp only [createMicroCode, hm, Option.bind_eq_bind, Option.bind_some, List.nil_append,
    Nat.zero_add, List.map_eq_nil_iff]
  rw [Nat.mod_eq_of_lt (by omega)]
  by_cases hc : (splitConvs [] is).1 = []
  · simp only [hc, if_true]
    have := splitConvs_text is [] hc
    simp [pieces, hc, attachTail, formatFrags, Piece.frag, this]
  · simp only [hc, if_false]
    have hl := attachTail_length (splitConvs [] is).1 (splitConvs [] is).2 hc
    have e := extendLast_map (splitConvs [] is).1 (splitConvs [] is).2 hc
    rw [e]
    have : (attachTail (splitConvs [] is).1 (splitConvs [] is).2) = pieces is := rfl
    rw [this] at hl ⊢
    rw [List.length_map, ← hl, Nat.mod_eq_of_lt (by omega), List.take_of_length_le]
    simp [formatFrags]

end NanoLog
