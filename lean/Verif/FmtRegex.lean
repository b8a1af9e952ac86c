import Verif.FmtText

/-!
# Exactly what the regular expression for conversions matches
-/

namespace NanoLog

/-- What the regular expression knows of a conversion. -/
structure RawConv where
  flags : List Byte
  width : NumField
  prec : NumField
  len : List Byte
  spec : Byte
  deriving DecidableEq, Repr

/-- Length modifiers of the regular expression. -/
def rawLens : List (List Byte) :=
  [[], [ch 'h', ch 'h'], [ch 'h'], [ch 'l'], [ch 'l', ch 'l'], [ch 'j'], [ch 'z'], [ch 'Z'], [ch 't'],
   [ch 'L']]

/-- Digits of a field. -/
def NumField.Digits (f : NumField) : Prop :=
  ∀ ds, f = .digits ds → ds ≠ [] ∧ ∀ b ∈ ds, isDigit b = true

/-- Well-formed; zeros before the width are flags. -/
def RawConv.WF (c : RawConv) : Prop :=
  (∀ b ∈ c.flags, isFlag b = true) ∧ c.width.Digits ∧
  (∀ ds, c.width = .digits ds → ds.head? ≠ some (ch '0')) ∧ c.prec.Digits ∧ c.len ∈ rawLens ∧
  isSpec c.spec = true

/-- Text after the `%`. -/
def RawConv.tail (c : RawConv) : List Byte :=
  c.flags ++ (c.width.bytes ++ (precBytes c.prec ++ (c.len ++ [c.spec])))

/-- Text. -/
def RawConv.bytes (c : RawConv) : List Byte := ch '%' :: c.tail

theorem spec_byte (b : Byte) (h : isSpec b = true) :
    b ≠ ch '*' ∧ b ≠ ch '.' ∧ b ≠ ch '%' ∧ b ≠ ch '\\' ∧ isFlag b = false ∧ isDigit b = false ∧
    b ≠ ch 'h' ∧ b ≠ ch 'l' ∧ b ≠ ch 'j' ∧ b ≠ ch 'z' ∧ b ≠ ch 'Z' ∧ b ≠ ch 't' ∧ b ≠ ch 'L' := by
  have hall : ∀ b ∈ [ch 'd', ch 'i', ch 'u', ch 'o', ch 'x', ch 'X', ch 'f', ch 'F', ch 'e', ch 'E',
      ch 'g', ch 'G', ch 'a', ch 'A', ch 'c', ch 's', ch 'p', ch 'n'],
      b ≠ ch '*' ∧ b ≠ ch '.' ∧ b ≠ ch '%' ∧ b ≠ ch '\\' ∧ isFlag b = false ∧ isDigit b = false ∧
      b ≠ ch 'h' ∧ b ≠ ch 'l' ∧ b ≠ ch 'j' ∧ b ≠ ch 'z' ∧ b ≠ ch 'Z' ∧ b ≠ ch 't' ∧ b ≠ ch 'L' := by
    decide +kernel
  exact hall b (of_decide_eq_true h)

theorem rawLen_byte : ∀ l ∈ rawLens, ∀ b ∈ l,
    b ≠ ch '*' ∧ b ≠ ch '.' ∧ b ≠ ch '%' ∧ b ≠ ch '\\' ∧ isFlag b = false ∧ isDigit b = false := by
  decide +kernel

/-- From the length modifier on. -/
theorem rawLen_head {l : List Byte} (hl : l ∈ rawLens) {s : Byte} (hs : isSpec s = true) (r : List Byte) :
    ∀ b, (l ++ s :: r).head? = some b →
      b ≠ ch '*' ∧ b ≠ ch '.' ∧ b ≠ ch '%' ∧ isFlag b = false ∧ isDigit b = false := by
  intro b hb
  cases l with
  | nil =>
    simp only [List.nil_append, List.head?_cons, Option.some.injEq] at hb
    subst hb
    have := spec_byte s hs
    exact ⟨this.1, this.2.1, this.2.2.1, this.2.2.2.2.1, this.2.2.2.2.2.1⟩
  | cons c cs =>
    simp only [List.cons_append, List.head?_cons, Option.some.injEq] at hb
    subst hb
    have := rawLen_byte _ hl c List.mem_cons_self
    exact ⟨this.1, this.2.1, this.2.2.1, this.2.2.2.2.1, this.2.2.2.2.2⟩

/-- From the precision on. -/
theorem rawPrec_head (p : NumField) {l : List Byte} (hl : l ∈ rawLens) {s : Byte} (hs : isSpec s = true)
    (r : List Byte) :
    ∀ b, (precBytes p ++ (l ++ s :: r)).head? = some b →
      b ≠ ch '*' ∧ b ≠ ch '%' ∧ isFlag b = false ∧ isDigit b = false := by
  intro b hb
  cases p with
  | none =>
    have := rawLen_head hl hs r b hb
    exact ⟨this.1, this.2.2.1, this.2.2.2.1, this.2.2.2.2⟩
  | digits ds => simp [precBytes] at hb; subst hb; decide
  | star => simp [precBytes] at hb; subst hb; decide

/-- From the width on. -/
theorem rawWidth_head {c : RawConv} (hc : c.WF) (r : List Byte) :
    HeadNot isFlag (c.width.bytes ++ (precBytes c.prec ++ (c.len ++ c.spec :: r))) := by
  intro b hb
  obtain ⟨_, hw, hz, _, hl, hs⟩ := hc
  cases hwd : c.width with
  | none =>
    rw [hwd] at hb
    exact (rawPrec_head c.prec hl hs r b hb).2.2.1
  | digits ds =>
    obtain ⟨h1, h2⟩ := hw ds hwd
    have h3 := hz ds hwd
    cases ds with
    | nil => exact absurd rfl h1
    | cons d ds =>
      simp [hwd, NumField.bytes] at hb
      subst hb
      have := digit_facts d (h2 d (by simp))
      cases hf : isFlag d with
      | false => rfl
      | true => exact absurd (this.2.2.2 hf) (by simpa using h3)
  | star => simp [hwd, NumField.bytes] at hb; subst hb; decide

theorem RawConv.tail_append (c : RawConv) (r : List Byte) :
    c.tail ++ r = c.flags ++ (c.width.bytes ++ (precBytes c.prec ++ (c.len ++ c.spec :: r))) := by
  simp [RawConv.tail]

/-- The last two groups. -/
theorem rawLenSpec_head {l : List Byte} (hl : l ∈ rawLens) {s : Byte} (hs : isSpec s = true) (r : List Byte)
    (w p : List Byte) :
    ((optM lenAlts (l ++ (s :: r))).flatMap fun m5 =>
      (one isSpec m5.2).flatMap fun m6 =>
        match m6.1 with
        | [c] => [({ width := w, prec := p, len := m5.1, spec := c, rest := m6.2 } : RMatch)]
        | _ => []).head? =
      some { width := w, prec := p, len := l, spec := s, rest := r } := by
  obtain ⟨_, _, _, _, _, _, g1, g2, g3, g4, g5, g6, g7⟩ := spec_byte s hs
  have hl' : isSpec (ch 'l') = false ∧ isSpec (ch 'h') = false := by decide
  have e1 : (ch 'l' : Byte) ≠ ch 'h' := by decide
  have e2 : (ch 'j' : Byte) ≠ ch 'h' ∧ (ch 'j' : Byte) ≠ ch 'l' := by decide
  have e3 : (ch 'z' : Byte) ≠ ch 'h' ∧ (ch 'z' : Byte) ≠ ch 'l' ∧ (ch 'z' : Byte) ≠ ch 'j' := by
    decide
  have e4 : (ch 't' : Byte) ≠ ch 'h' ∧ (ch 't' : Byte) ≠ ch 'l' ∧ (ch 't' : Byte) ≠ ch 'j' ∧
    (ch 't' : Byte) ≠ ch 'z' ∧ (ch 't' : Byte) ≠ ch 'Z' := by decide
  have e5 : (ch 'L' : Byte) ≠ ch 'h' ∧ (ch 'L' : Byte) ≠ ch 'l' ∧ (ch 'L' : Byte) ≠ ch 'j' ∧
    (ch 'L' : Byte) ≠ ch 'z' ∧ (ch 'L' : Byte) ≠ ch 'Z' ∧ (ch 'L' : Byte) ≠ ch 't' := by decide
  have e6 : (ch 'Z' : Byte) ≠ ch 'h' ∧ (ch 'Z' : Byte) ≠ ch 'l' ∧ (ch 'Z' : Byte) ≠ ch 'j' ∧
    (ch 'Z' : Byte) ≠ ch 'z' := by decide
  simp only [rawLens, List.mem_cons, List.not_mem_nil, or_false] at hl
  rcases hl with rfl | rfl | rfl | rfl | rfl | rfl | rfl | rfl | rfl | rfl <;>
    simp [optM, lenAlts, altM, lit, one, hs, hl',
      g1, g2, g3, g4, g5, g6, g7, e1, e2, e3, e4, e5, e6, List.flatMap_cons]

/-- A conversion is matched as a whole whatever follows. -/
theorem regexMatch_raw {c : RawConv} (hc : c.WF) (r : List Byte) :
    regexMatch (c.bytes ++ r) =
      some { width := c.width.bytes, prec := c.prec.bytes, len := c.len
             spec := c.spec, rest := r } := by
  unfold regexMatch
  simp only [RawConv.bytes, List.cons_append, regexAll, if_true]
  rw [RawConv.tail_append]
  obtain ⟨hf, hw, _, hp, hl, hs⟩ := id hc
  refine head?_flatMap_of (flagsM_head hf (rawWidth_head hc r)) ?_
  refine head?_flatMap_of (numM_head hw
    (fun b hb => (rawPrec_head c.prec hl hs r b hb).2.2.2)
    (fun h => (rawPrec_head c.prec hl hs r _ h).1 rfl)) ?_
  refine head?_flatMap_of (precM_head hp
    (fun b hb => (rawLen_head hl hs r b hb).2.2.2.2)
    (fun h => (rawLen_head hl hs r _ h).2.1 rfl)) ?_
  exact rawLenSpec_head hl hs r _ _

/-! ## Everything matched is a conversion -/

theorem many1_mem {p : Byte → Bool} : ∀ {s : List Byte} {m : List Byte × List Byte}, m ∈ many1 p s →
    s = m.1 ++ m.2 ∧ m.1 ≠ [] ∧ ∀ b ∈ m.1, p b = true := by
  intro s
  induction s with
  | nil => intro m h; simp [many1] at h
  | cons b bs ih =>
    intro m h
    rw [many1] at h
    split at h
    · next hb =>
      rcases List.mem_append.1 h with h | h
      · obtain ⟨q, h1, rfl⟩ := List.mem_map.1 h
        obtain ⟨e1, e2, e3⟩ := ih h1
        refine ⟨by simp [e1], by simp, ?_⟩
        intro x hx
        rcases List.mem_cons.1 hx with rfl | hx
        · exact hb
        · exact e3 x hx
      · simp only [List.mem_singleton] at h
        subst h
        exact ⟨rfl, by simp, by simpa using hb⟩
    · simp at h

theorem one_mem {p : Byte → Bool} {s : List Byte} {m : List Byte × List Byte} (h : m ∈ one p s) :
    ∃ b, p b = true ∧ m.1 = [b] ∧ s = b :: m.2 := by
  cases s with
  | nil => simp [one] at h
  | cons b bs =>
    rw [one] at h
    split at h
    · next hb =>
      simp only [List.mem_singleton] at h
      subst h
      exact ⟨b, hb, rfl, rfl⟩
    · simp at h

theorem numM_mem {s : List Byte} {m : List Byte × List Byte}
    (h : m ∈ altM (many1 isDigit) (one (· = ch '*')) s) :
    ∃ f : NumField, f.Digits ∧ f ≠ .none ∧ m.1 = f.bytes ∧ s = f.bytes ++ m.2 := by
  rcases List.mem_append.1 h with h | h
  · obtain ⟨h1, h2, h3⟩ := many1_mem h
    exact ⟨.digits m.1, fun ds hd => by cases hd; exact ⟨h2, h3⟩, by simp, rfl, h1⟩
  · obtain ⟨b, h1, h2, h3⟩ := one_mem h
    obtain rfl : b = ch '*' := of_decide_eq_true h1
    exact ⟨.star, (fun ds hd => by cases hd), by simp, h2, h3⟩

theorem numDigits_none : NumField.Digits .none := fun ds hd => by cases hd

theorem rawLens_mem {s : List Byte} {m : List Byte × List Byte} (h : m ∈ optM lenAlts s) :
    m.1 ∈ rawLens ∧ s = m.1 ++ m.2 := by
  have hlit : ∀ l : List Byte, m ∈ lit l s → m.1 = l ∧ s = m.1 ++ m.2 := by
    intro l hm
    rw [lit] at hm
    split at hm
    · next hc =>
      simp only [List.mem_singleton] at hm
      subst hm
      refine ⟨rfl, ?_⟩
      conv => lhs; rw [← List.take_append_drop l.length s, hc.1]
    · simp at hm
  simp only [optM, lenAlts, altM, List.mem_append, List.mem_singleton] at h
  have hin : ∀ l ∈ rawLens, m ∈ lit l s → m.1 ∈ rawLens ∧ s = m.1 ++ m.2 := by
    intro l hl hm
    obtain ⟨h1, h2⟩ := hlit l hm
    exact ⟨h1 ▸ hl, h2⟩
  rcases h with (h | h | h | h | h | h | h | h | h) | h
  · exact hin _ (by decide) h
  · exact hin _ (by decide) h
  · exact hin _ (by decide) h
  · exact hin _ (by decide) h
  · exact hin _ (by decide) h
  · exact hin _ (by decide) h
  · exact hin _ (by decide) h
  · exact hin _ (by decide) h
  · exact hin _ (by decide) h
  · subst h
    exact ⟨List.mem_cons_self, rfl⟩

/-- Zeros at the start of a width may be counted among the flags. -/
theorem width_normal (ds : List Byte) (h : ∀ b ∈ ds, isDigit b = true) :
    ∃ zs ds', ds = zs ++ ds' ∧ (∀ b ∈ zs, isFlag b = true) ∧ (∀ b ∈ ds', isDigit b = true)
      ∧ ds'.head? ≠ some (ch '0') := by
  induction ds with
  | nil => exact ⟨[], [], rfl, by simp, by simp, by simp⟩
  | cons d ds ih =>
    by_cases hd : d = ch '0'
    · obtain ⟨zs, ds', h1, h2, h3, h4⟩ := ih (fun b hb => h b (List.mem_cons_of_mem _ hb))
      refine ⟨d :: zs, ds', by rw [h1]; rfl, ?_, h3, h4⟩
      intro b hb
      rcases List.mem_cons.1 hb with rfl | hb
      · rw [hd]; decide
      · exact h2 b hb
    · exact ⟨[], d :: ds, rfl, by simp, h, by simpa using hd⟩

/-- Everything the regular expression matches is a conversion. -/
theorem regexMatch_inv {s : List Byte} {m : RMatch} (h : regexMatch s = some m) :
    ∃ c : RawConv, c.WF ∧ s = c.bytes ++ m.rest ∧
      m = { width := c.width.bytes, prec := c.prec.bytes, len := c.len, spec := c.spec, rest := m.rest } := by
  have hm := List.mem_of_head? h
  cases s with
  | nil => simp [regexAll] at hm
  | cons b s0 =>
    simp only [regexAll] at hm
    split at hm
    · next hb =>
      simp only [List.mem_flatMap] at hm
      obtain ⟨m1, h1, m2, h2, m4, h4, m5, h5, m6, h6, hm⟩ := hm
      obtain ⟨c6, hc6, e6, r6⟩ := one_mem h6
      rw [e6] at hm
      simp only [List.mem_singleton] at hm
      obtain ⟨hl, r5⟩ := rawLens_mem h5
      have hp : ∃ f : NumField, f.Digits ∧ m2.2 = precBytes f ++ m4.2 := by
        rcases List.mem_append.1 h4 with h4 | h4
        · cases hs : m2.2 with
          | nil => rw [hs] at h4; simp [precM] at h4
          | cons d ds =>
            rw [hs, precM] at h4
            split at h4
            · next hd =>
              obtain ⟨f, f1, f2, f3, f4⟩ := numM_mem h4
              refine ⟨f, f1, ?_⟩
              rw [hd, f4]
              cases f with
              | none => exact absurd rfl f2
              | digits ds => rfl
              | star => rfl
            · simp at h4
        · simp only [List.mem_singleton] at h4
          subst h4
          exact ⟨.none, numDigits_none, rfl⟩
      obtain ⟨fp, hfp, r4⟩ := hp
      have hw : ∃ f : NumField, f.Digits ∧ m1.2 = f.bytes ++ m2.2 := by
        rcases List.mem_append.1 h2 with h2 | h2
        · obtain ⟨f, f1, f2, f3, f4⟩ := numM_mem h2
          exact ⟨f, f1, f4⟩
        · simp only [List.mem_singleton] at h2
          subst h2
          exact ⟨.none, numDigits_none, rfl⟩
      obtain ⟨fw, hfw, r2⟩ := hw
      have hf : ∃ fl : List Byte, (∀ b ∈ fl, isFlag b = true) ∧ s0 = fl ++ m1.2 := by
        rcases List.mem_append.1 h1 with h1 | h1
        · obtain ⟨q1, q2, q3⟩ := many1_mem h1
          exact ⟨m1.1, q3, q1⟩
        · simp only [List.mem_singleton] at h1
          subst h1
          exact ⟨[], by simp, rfl⟩
      obtain ⟨fl, hfl, r1⟩ := hf
      have hn : ∃ (zs : List Byte) (fw' : NumField), fw.bytes = zs ++ fw'.bytes
          ∧ (∀ b ∈ zs, isFlag b = true) ∧ fw'.Digits
          ∧ ∀ ds, fw' = .digits ds → ds.head? ≠ some (ch '0') := by
        cases fw with
        | none => exact ⟨[], .none, rfl, by simp, numDigits_none, fun ds hd => by cases hd⟩
        | star => exact ⟨[], .star, rfl, by simp, (fun ds hd => by cases hd), fun ds hd => by cases hd⟩
        | digits ds =>
          obtain ⟨_, hd⟩ := hfw ds rfl
          obtain ⟨zs, ds', q1, q2, q3, q4⟩ := width_normal ds hd
          cases ds' with
          | nil => exact ⟨zs, .none, q1, q2, numDigits_none, fun ds hd => by cases hd⟩
          | cons d ds' =>
            exact ⟨zs, .digits (d :: ds'), q1, q2, (fun x hx => by cases hx; exact ⟨by simp, q3⟩),
              fun x hx => by cases hx; exact q4⟩
      obtain ⟨zs, fw', n1, n2, n3, n4⟩ := hn
      have hrest : m.rest = m6.2 := by rw [hm]
      let c : RawConv := ⟨fl ++ zs, fw', fp, m5.1, c6⟩
      have hc : c.WF := by
        refine ⟨?_, n3, n4, hfp, hl, hc6⟩
        intro x hx
        rcases List.mem_append.1 hx with hx | hx
        · exact hfl x hx
        · exact n2 x hx
      have hs : b :: s0 = c.bytes ++ m.rest := by
        rw [RawConv.bytes, List.cons_append, RawConv.tail_append, hrest, hb, r1, r2, r4, r5, r6, n1]
        simp [c]
      refine ⟨c, hc, hs, ?_⟩
      have := regexMatch_raw hc m.rest
      rw [← hs, h] at this
      exact Option.some.inj this
    · simp at hm

/-- The text of a conversion after the `%` has neither `%` nor a backslash. -/
theorem RawConv.tail_plain {c : RawConv} (hc : c.WF) : ∀ b ∈ c.tail, b ≠ ch '%' ∧ b ≠ ch '\\' := by
  obtain ⟨hf, hw, _, hp, hl, hs⟩ := hc
  have hflag : ∀ b, isFlag b = true → b ≠ ch '%' ∧ b ≠ ch '\\' := by
    intro b
    exact forall_byte (P := fun b => isFlag b = true → b ≠ ch '%' ∧ b ≠ ch '\\') (by decide +kernel) b
  have hdig : ∀ b, isDigit b = true → b ≠ ch '%' ∧ b ≠ ch '\\' := by
    intro b
    exact forall_byte (P := fun b => isDigit b = true → b ≠ ch '%' ∧ b ≠ ch '\\') (by decide +kernel) b
  have hnum : ∀ f : NumField, f.Digits → ∀ b ∈ f.bytes, b ≠ ch '%' ∧ b ≠ ch '\\' := by
    intro f hf b hb
    cases f with
    | none => simp [NumField.bytes] at hb
    | digits ds => exact hdig b ((hf ds rfl).2 b hb)
    | star => simp only [NumField.bytes, List.mem_singleton] at hb; subst hb; decide
  intro b hb
  simp only [RawConv.tail, List.mem_append, List.mem_singleton] at hb
  rcases hb with hb | hb | hb | hb | hb
  · exact hflag b (hf b hb)
  · exact hnum _ hw b hb
  · have : b = ch '.' ∨ b ∈ c.prec.bytes := by
      cases hpp : c.prec with
      | none => rw [hpp] at hb; simp [precBytes] at hb
      | digits ds => rw [hpp] at hb; simpa [precBytes, NumField.bytes] using hb
      | star => rw [hpp] at hb; simpa [precBytes, NumField.bytes] using hb
    rcases this with rfl | hb
    · decide
    · exact hnum _ hp b hb
  · have := rawLen_byte _ hl b hb
    exact ⟨this.2.2.1, this.2.2.2.1⟩
  · subst hb
    have := spec_byte _ hs
    exact ⟨this.2.2.1, this.2.2.2.1⟩

end NanoLog
