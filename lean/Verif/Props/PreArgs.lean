import Verif.PreParse
import Verif.Props.Format

/-!
# C41: splitting of log statements into arguments by the preprocessor
-/

namespace NanoLog

/-! ## Specification: texts with balanced brackets and string literals -/

/-- Kinds of brackets. -/
inductive Brk where
  | paren | curly | bracket
  deriving DecidableEq, Repr

def Brk.open : Brk → Byte
  | .paren => ch '(' | .curly => ch '{' | .bracket => ch '['

def Brk.close : Brk → Byte
  | .paren => ch ')' | .curly => ch '}' | .bracket => ch ']'

/-- Elements of a string literal: a character, or a backslash and any character. -/
inductive SItem where
  | plain (b : Byte)
  | esc (b : Byte)
  deriving DecidableEq, Repr

def SItem.WF : SItem → Prop
  | .plain b => b ≠ ch '"' ∧ b ≠ ch '\\'
  | .esc _ => True

def SItem.bytes : SItem → List Byte
  | .plain b => [b]
  | .esc b => [ch '\\', b]

/-- Tokens of an argument: any character without special meaning, a backslash with the character
after it (as in the character constant `'\''`), a string literal, a comma, brackets. -/
inductive ATok where
  | chr (b : Byte)
  | esc (b : Byte)
  | str (l : List SItem)
  | comma
  | op (k : Brk)
  | cl (k : Brk)
  deriving DecidableEq, Repr

def ATok.WF : ATok → Prop
  | .chr b => b ∉ [ch '"', ch '\\', ch '(', ch ')', ch '{', ch '}', ch '[', ch ']', ch ',']
  | .str l => ∀ i ∈ l, i.WF
  | _ => True

def ATok.bytes : ATok → List Byte
  | .chr b => [b]
  | .esc b => [ch '\\', b]
  | .str l => ch '"' :: l.flatMap SItem.bytes ++ [ch '"']
  | .comma => [ch ',']
  | .op k => [k.open]
  | .cl k => [k.close]

/-- Text of tokens. -/
def tokText (l : List ATok) : List Byte := l.flatMap ATok.bytes

/-- Not a bracket. -/
def ATok.simple : ATok → Prop
  | .op _ => False
  | .cl _ => False
  | _ => True

/-- Balanced token sequences (commas allowed). -/
inductive Bal : List ATok → Prop where
  | nil : Bal []
  | cons {t l} : t.simple → Bal l → Bal (t :: l)
  | grp {k a b} : Bal a → Bal b → Bal (.op k :: a ++ .cl k :: b)

/-- An argument: balanced, and commas only inside brackets. -/
inductive ArgToks : List ATok → Prop where
  | nil : ArgToks []
  | cons {t l} : t.simple → t ≠ .comma → ArgToks l → ArgToks (t :: l)
  | grp {k a b} : Bal a → ArgToks b → ArgToks (.op k :: a ++ .cl k :: b)

/-- Lines as returned by `readlines`: each ends in a newline and contains no other, except that
the last one may lack it. -/
def LinesOK : List (List Byte) → Prop
  | [] => True
  | l :: ls => ((∃ b, (10 : Byte) ∉ b ∧ l = b ++ [10]) ∧ LinesOK ls) ∨ ls = [] ∧ (10 : Byte) ∉ l

/-- The text from offset `off` of the first line on. -/
def restL (off : Nat) : List (List Byte) → List Byte
  | [] => []
  | l :: ls => l.drop off ++ ls.flatten

/-- The text from a position on. -/
def restAt (lines : List (List Byte)) (p : FPos) : List Byte := restL p.off (lines.drop p.line)

/-- Position `p` is that of the first character of `r`, the rest of the text. -/
def StandsAt (lines : List (List Byte)) (p : FPos) (r : List Byte) : Prop :=
  restAt lines p = r ∧ charAt lines p = r.head?

/-- Text of several arguments: separated by commas, closed by a parenthesis. -/
def argsText : List (List ATok) → List Byte
  | [] => [ch ')']
  | [a] => tokText a ++ [ch ')']
  | a :: as => tokText a ++ ch ',' :: argsText as

/-! ## The scanner on flat text -/

/-- The scanner without lines: text of the argument, and the text from its end on. -/
def argFlat (st : AScan) (esc : Bool) : List Byte → Option (List Byte × List Byte)
  | [] => none
  | c :: s =>
    match argChar st esc c with
    | none => some (st.src, c :: s)
    | some (st', esc') => argFlat st' esc' s

theorem argFlat_step {st st' : AScan} {esc esc' : Bool} {c : Byte}
    (h : argChar st esc c = some (st', esc')) (s : List Byte) :
    argFlat st esc (c :: s) = argFlat st' esc' s := by
  rw [argFlat, h]

/-- State with more text. -/
def AScan.more (st : AScan) (t : List Byte) : AScan := { st with src := st.src ++ t }

theorem AScan.more_more (st : AScan) (a b : List Byte) : (st.more a).more b = st.more (a ++ b) := by
  simp [AScan.more]

theorem AScan.more_nil (st : AScan) : st.more [] = st := by simp [AScan.more]

theorem argChar_bs (st : AScan) : argChar st false (ch '\\') = some (st.more [ch '\\'], true) := by
  unfold argChar
  rw [if_pos (.inl rfl)]
  rfl

theorem argChar_esc (st : AScan) (c : Byte) : argChar st true c = some (st.more [c], false) := by
  unfold argChar
  rw [if_pos (.inr rfl)]
  rfl

theorem argChar_inQ {st : AScan} {c : Byte} (hq : st.inQ = true) (h1 : c ≠ ch '"')
    (h2 : c ≠ ch '\\') : argChar st false c = some (st.more [c], false) := by
  unfold argChar
  rw [if_neg (by simp [h2]), if_neg h1]
  dsimp only
  rw [if_pos hq]
  rfl

theorem argChar_quote_open {st : AScan} (hq : st.inQ = false) :
    argChar st false (ch '"') = some ({ st.more [ch '"'] with inQ := true }, false) := by
  unfold argChar
  rw [if_neg (by decide), if_pos rfl]
  dsimp only
  simp [hq, AScan.more]

theorem argChar_quote_close {st : AScan} (hq : st.inQ = true) :
    argChar st false (ch '"') = some ({ st.more [ch '"'] with inQ := false }, false) := by
  simp +decide [argChar, AScan.more, hq]

theorem argChar_chr {st : AScan} {c : Byte} (hq : st.inQ = false) (hc : (ATok.chr c).WF) :
    argChar st false c = some (st.more [c], false) := by
  simp only [ATok.WF, List.mem_cons, List.not_mem_nil, or_false, not_or] at hc
  obtain ⟨h1, h2, h3, h4, h5, h6, h7, h8, h9⟩ := hc
  unfold argChar
  rw [if_neg (by simp [h2]), if_neg h1]
  dsimp only
  rw [if_neg (by simp [hq]), if_neg h5, if_neg h6, if_neg h3, if_neg (fun h => h4 h.1), if_neg h7,
    if_neg h8, if_neg]
  · rfl
  · intro h
    exact h.1.elim h9 h4

/-- Inside some bracket. -/
def AScan.Deep (st : AScan) : Prop :=
  st.inQ = false ∧ ¬ (st.curly = 0 ∧ st.paren = 0 ∧ st.bracket = 0)

theorem argChar_comma {st : AScan} (h : st.Deep) :
    argChar st false (ch ',') = some (st.more [ch ','], false) := by
  obtain ⟨hq, hd⟩ := h
  simp +decide only [argChar, AScan.more, hq, hd, if_false, false_and, and_false]

/-- One bracket deeper. -/
def AScan.enter (st : AScan) : Brk → AScan
  | .paren => { st with paren := st.paren + 1 }
  | .curly => { st with curly := st.curly + 1 }
  | .bracket => { st with bracket := st.bracket + 1 }

theorem argChar_open {st : AScan} (hq : st.inQ = false) (k : Brk) :
    argChar st false k.open = some ((st.more [k.open]).enter k, false) := by
  cases k <;> simp +decide [argChar, AScan.more, AScan.enter, Brk.open, hq]

theorem argChar_close {st : AScan} (hq : st.inQ = false) (k : Brk) (t : List Byte) :
    argChar ((st.enter k).more t) false k.close = some (st.more (t ++ [k.close]), false) := by
  cases k <;> simp +decide [argChar, AScan.more, AScan.enter, Brk.close, hq]

theorem argChar_end {st : AScan} (hq : st.inQ = false) (h0 : st.curly = 0 ∧ st.paren = 0 ∧ st.bracket = 0)
    {c : Byte} (hc : c = ch ',' ∨ c = ch ')') : argChar st false c = none := by
  rcases hc with rfl | rfl <;> simp +decide [argChar, hq, h0]

theorem flat_items (l : List SItem) (hw : ∀ i ∈ l, i.WF) : ∀ (st : AScan), st.inQ = true →
    ∀ s, argFlat st false (l.flatMap SItem.bytes ++ s)
      = argFlat (st.more (l.flatMap SItem.bytes)) false s := by
  induction l with
  | nil => intro st _ s; simp [AScan.more_nil]
  | cons i l ih =>
    intro st hq s
    have hw' : ∀ i ∈ l, i.WF := fun i hi => hw i (List.mem_cons_of_mem _ hi)
    have hi := hw i List.mem_cons_self
    rw [List.flatMap_cons, List.append_assoc]
    cases i with
    | plain b =>
      show argFlat st false (b :: (l.flatMap SItem.bytes ++ s)) = _
      rw [argFlat_step (argChar_inQ hq hi.1 hi.2), ih hw' (st.more [b]) hq, AScan.more_more]
      rfl
    | esc b =>
      show argFlat st false (ch '\\' :: b :: (l.flatMap SItem.bytes ++ s)) = _
      rw [argFlat_step (argChar_bs st), argFlat_step (argChar_esc _ b), AScan.more_more,
        ih hw' (st.more ([ch '\\'] ++ [b])) hq, AScan.more_more]
      rfl

theorem flat_simple {t : ATok} (hw : t.WF) (hs : t.simple) {st : AScan} (hq : st.inQ = false)
    (hc : t = .comma → st.Deep) (s : List Byte) :
    argFlat st false (t.bytes ++ s) = argFlat (st.more t.bytes) false s := by
  cases t with
  | chr b => exact argFlat_step (argChar_chr hq hw) s
  | esc b =>
    show argFlat st false (ch '\\' :: b :: s) = _
    rw [argFlat_step (argChar_bs st), argFlat_step (argChar_esc _ b), AScan.more_more]
    rfl
  | str l =>
    show argFlat st false (ch '"' :: (l.flatMap SItem.bytes ++ [ch '"']) ++ s) = _
    rw [List.cons_append, List.append_assoc, argFlat_step (argChar_quote_open hq),
      flat_items l hw { st.more [ch '"'] with inQ := true } rfl]
    show argFlat _ false (ch '"' :: s) = _
    rw [argFlat_step (argChar_quote_close rfl)]
    congr 1
    simp [AScan.more, ATok.bytes, hq]
  | comma => exact argFlat_step (argChar_comma (hc rfl)) s
  | op k => exact hs.elim
  | cl k => exact hs.elim

theorem enter_deep {st : AScan} (hq : st.inQ = false) (hc : 0 ≤ st.curly) (hb : 0 ≤ st.bracket)
    (k : Brk) (t : List Byte) : ((st.enter k).more t).Deep := by
  refine ⟨by cases k <;> exact hq, ?_⟩
  rintro ⟨h1, h2, h3⟩
  cases k <;> simp only [AScan.enter, AScan.more] at h1 h2 h3 <;> omega

theorem enter_nonneg {st : AScan} (hc : 0 ≤ st.curly) (hb : 0 ≤ st.bracket) (k : Brk) :
    0 ≤ (st.enter k).curly ∧ 0 ≤ (st.enter k).bracket := by
  cases k <;> simp only [AScan.enter] <;> omega

theorem tokText_append (a b : List ATok) : tokText (a ++ b) = tokText a ++ tokText b := by
  simp [tokText]

theorem more_enter (st : AScan) (k : Brk) (t : List Byte) :
    (st.more t).enter k = (st.enter k).more t := by cases k <;> rfl

theorem flat_bal {l : List ATok} (hb : Bal l) : (∀ t ∈ l, t.WF) → ∀ (st : AScan), st.Deep →
    0 ≤ st.curly → 0 ≤ st.bracket → ∀ s, argFlat st false (tokText l ++ s)
      = argFlat (st.more (tokText l)) false s := by
  induction hb with
  | nil => intro _ st _ _ _ s; simp [tokText, AScan.more_nil]
  | @cons t l hs hb ih =>
    intro hw st hd h1 h2 s
    show argFlat st false (t.bytes ++ tokText l ++ s) = _
    rw [List.append_assoc, flat_simple (hw t List.mem_cons_self) hs hd.1 (fun _ => hd),
      ih (fun t ht => hw t (List.mem_cons_of_mem _ ht)) (st.more t.bytes) hd h1 h2, AScan.more_more]
    rfl
  | @grp k a b ha hb iha ihb =>
    intro hw st hd h1 h2 s
    have e : tokText (.op k :: a ++ .cl k :: b) = k.open :: (tokText a ++ k.close :: tokText b) := by
      show k.open :: tokText (a ++ .cl k :: b) = _
      rw [tokText_append]
      rfl
    have hwa : ∀ t ∈ a, t.WF := fun t ht => hw t (by simp [ht])
    have hwb : ∀ t ∈ b, t.WF := fun t ht => hw t (by simp [ht])
    rw [e, List.cons_append, List.append_assoc, argFlat_step (argChar_open hd.1 k), more_enter,
      iha hwa _ (enter_deep hd.1 h1 h2 k _) (enter_nonneg h1 h2 k).1 (enter_nonneg h1 h2 k).2,
      List.cons_append, AScan.more_more, argFlat_step (argChar_close hd.1 k _),
      ihb hwb (st.more _) hd h1 h2, AScan.more_more]
    congr 2
    simp

theorem flat_arg {l : List ATok} (hb : ArgToks l) : (∀ t ∈ l, t.WF) → ∀ (st : AScan), st.inQ = false →
    0 ≤ st.curly → 0 ≤ st.bracket → ∀ s, argFlat st false (tokText l ++ s)
      = argFlat (st.more (tokText l)) false s := by
  induction hb with
  | nil => intro _ st _ _ _ s; simp [tokText, AScan.more_nil]
  | @cons t l hs hne hb ih =>
    intro hw st hd h1 h2 s
    show argFlat st false (t.bytes ++ tokText l ++ s) = _
    rw [List.append_assoc, flat_simple (hw t List.mem_cons_self) hs hd (fun h => absurd h hne),
      ih (fun t ht => hw t (List.mem_cons_of_mem _ ht)) (st.more t.bytes) hd h1 h2, AScan.more_more]
    rfl
  | @grp k a b ha hb ihb =>
    intro hw st hd h1 h2 s
    have e : tokText (.op k :: a ++ .cl k :: b) = k.open :: (tokText a ++ k.close :: tokText b) := by
      show k.open :: tokText (a ++ .cl k :: b) = _
      rw [tokText_append]
      rfl
    have hwa : ∀ t ∈ a, t.WF := fun t ht => hw t (by simp [ht])
    have hwb : ∀ t ∈ b, t.WF := fun t ht => hw t (by simp [ht])
    rw [e, List.cons_append, List.append_assoc, argFlat_step (argChar_open hd k), more_enter,
      flat_bal ha hwa _ (enter_deep hd h1 h2 k _) (enter_nonneg h1 h2 k).1 (enter_nonneg h1 h2 k).2,
      List.cons_append, AScan.more_more, argFlat_step (argChar_close hd k _),
      ihb hwb (st.more _) hd h1 h2, AScan.more_more]
    congr 2
    simp

theorem flat_whole {l : List ATok} (hb : ArgToks l) (hw : ∀ t ∈ l, t.WF) {c : Byte}
    (hc : c = ch ',' ∨ c = ch ')') (s : List Byte) :
    argFlat .init false (tokText l ++ c :: s) = some (tokText l, c :: s) := by
  rw [flat_arg hb hw _ rfl (by decide) (by decide), argFlat,
    argChar_end (st := AScan.init.more (tokText l)) rfl ⟨rfl, rfl, rfl⟩ hc]
  rfl

/-! ## Lines -/

/-- After a newline the escape flag is off. -/
theorem argChar_newline {st st' : AScan} {esc esc' : Bool}
    (h : argChar st esc 10 = some (st', esc')) : esc' = false := by
  cases esc with
  | true => rw [argChar_esc] at h; cases h; rfl
  | false =>
    have hq : (10 : Byte) ≠ ch '"' := by decide
    have hb : (10 : Byte) ≠ ch '\\' := by decide
    cases hi : st.inQ with
    | true => rw [argChar_inQ hi hq hb] at h; cases h; rfl
    | false =>
      rw [argChar_chr hi (by simp [ATok.WF]; decide)] at h
      cases h
      rfl

/-- One line: the flat scanner and the line scanner agree. -/
theorem argLine_flat (b : List Byte) : ∀ (st : AScan) (esc : Bool) (i : Nat) (t : List Byte),
    (∃ k src, k < b.length ∧ argLine st esc i b = .inl (i + k, src)
        ∧ argFlat st esc (b ++ t) = some (src, b.drop k ++ t))
    ∨ ∃ st' esc', argLine st esc i b = .inr st' ∧ argFlat st esc (b ++ t) = argFlat st' esc' t
        ∧ (b.getLast? = some 10 → esc' = false) ∧ (b = [] → esc' = esc) := by
  induction b with
  | nil =>
    intro st esc i t
    exact .inr ⟨st, esc, rfl, rfl, (fun h => by simp at h), fun _ => rfl⟩
  | cons c b ih =>
    intro st esc i t
    rw [argLine, List.cons_append, argFlat]
    cases hc : argChar st esc c with
    | none => exact .inl ⟨0, st.src, by simp, rfl, rfl⟩
    | some p =>
      obtain ⟨st', esc'⟩ := p
      dsimp only
      rcases ih st' esc' (i + 1) t with ⟨k, src, h1, h2, h3⟩ | ⟨st2, esc2, h1, h2, h3, h4⟩
      · refine .inl ⟨k + 1, src, by simpa using h1, ?_, h3⟩
        rw [h2]; congr 2; omega
      · refine .inr ⟨st2, esc2, h1, h2, ?_, fun h => by cases h⟩
        intro hl
        cases b with
        | nil =>
          rw [h4 rfl]
          simp only [List.getLast?_singleton, Option.some.injEq] at hl
          subst hl
          exact argChar_newline hc
        | cons d b =>
          exact h3 (by rwa [List.getLast?_cons_cons] at hl)

theorem argLines_flat (ls : List (List Byte)) (hok : LinesOK ls) : ∀ (st : AScan) (ln off : Nat)
    (src r : List Byte), argFlat st false (restL off ls) = some (src, r) →
    ∃ k i, argLines st ln off ls = some (src, ⟨ln + k, i⟩) ∧ restL i (ls.drop k) = r
      ∧ (ls[k]?).bind (·[i]?) = r.head? := by
  induction ls with
  | nil => intro st ln off src r h; cases h
  | cons l ls ih =>
    intro st ln off src r h
    rw [argLines]
    rw [restL] at h
    rcases argLine_flat (l.drop off) st false off ls.flatten with
      ⟨k, src', h1, h2, h3⟩ | ⟨st', esc', h1, h2, h3, h4⟩
    · rw [h3] at h
      cases h
      rw [h2]
      refine ⟨0, off + k, rfl, ?_, ?_⟩
      · simp [restL]
      · rw [List.length_drop] at h1
        have hlt : off + k < l.length := by omega
        simp only [List.getElem?_cons_zero, Option.bind_some]
        rw [List.drop_drop, List.drop_eq_getElem_cons hlt, List.getElem?_eq_getElem hlt]
        rfl
    · rw [h1]
      dsimp only
      rw [h2] at h
      rcases hok with ⟨⟨b, hb, rfl⟩, hok⟩ | ⟨rfl, _⟩
      · have he : esc' = false := by
          by_cases hlen : off ≤ b.length
          · refine h3 ?_
            rw [List.drop_append_of_le_length hlen, List.getLast?_append]
            simp
          · refine (h4 ?_)
            rw [List.drop_of_length_le]
            simp
            omega
        subst he
        have hrest : restL 0 ls = ls.flatten := by cases ls <;> simp [restL]
        obtain ⟨k, i, e1, e2, e3⟩ := ih hok st' (ln + 1) 0 src r (by rw [hrest]; exact h)
        refine ⟨k + 1, i, by rw [e1]; congr 3; omega, e2, e3⟩
      · cases h

theorem linesOK_drop {ls : List (List Byte)} (h : LinesOK ls) (n : Nat) : LinesOK (ls.drop n) := by
  induction n generalizing ls with
  | zero => exact h
  | succ n ih =>
    cases ls with
    | nil => exact h
    | cons l ls =>
      rcases h with ⟨_, h⟩ | ⟨rfl, _⟩
      · exact ih h
      · simp [LinesOK]

theorem parseArg_spec {lines : List (List Byte)} (hok : LinesOK lines) (p : FPos) {l : List ATok}
    (hl : ArgToks l) (hw : ∀ t ∈ l, t.WF) {c : Byte} (hc : c = ch ',' ∨ c = ch ')') {r : List Byte}
    (h : restAt lines p = tokText l ++ c :: r) :
    ∃ q, parseArg lines p = some (tokText l, q) ∧ StandsAt lines q (c :: r) := by
  have hf := flat_whole hl hw hc r
  rw [← h] at hf
  obtain ⟨k, i, h1, h2, h3⟩ := argLines_flat _ (linesOK_drop hok p.line) .init p.line p.off _ _ hf
  refine ⟨⟨p.line + k, i⟩, h1, ?_, ?_⟩
  · rw [restAt, ← h2, List.drop_drop]
  · rw [charAt, ← h3, List.getElem?_drop]

theorem standsAt_next {lines : List (List Byte)} {p : FPos} {c : Byte} {r : List Byte}
    (h : StandsAt lines p (c :: r)) : restAt lines ⟨p.line, p.off + 1⟩ = r := by
  obtain ⟨h1, h2⟩ := h
  unfold restAt at h1 ⊢
  unfold charAt at h2
  cases hd : lines.drop p.line with
  | nil => rw [hd] at h1; cases h1
  | cons l ls =>
    rw [hd, restL] at h1
    have hl : lines[p.line]? = some l := by
      have : (lines.drop p.line)[0]? = some l := by rw [hd]; rfl
      simpa using this
    rw [hl] at h2
    obtain ⟨hlt, hx⟩ := List.getElem?_eq_some_iff.1 (by simpa using h2 : l[p.off]? = some c)
    rw [List.drop_eq_getElem_cons hlt] at h1
    simpa [restL] using (List.cons.inj h1).2

theorem argsLoop_spec {lines : List (List Byte)} (hok : LinesOK lines) (as : List (List ATok)) :
    (∀ a ∈ as, ArgToks a ∧ ∀ t ∈ a, t.WF) → as ≠ [] → ∀ (p : FPos) (c : Byte) (r : List Byte)
    (acc : List (List Byte)) (fuel : Nat), c ≠ ch ')' → StandsAt lines p (c :: (argsText as ++ r)) →
    as.length < fuel →
    ∃ q, argsLoop lines fuel p acc = some (acc ++ as.map tokText, q)
      ∧ StandsAt lines q (ch ')' :: r) := by
  induction as with
  | nil => intro _ h; exact absurd rfl h
  | cons a as ih =>
    intro hw _ p c r acc fuel hc hp hf
    obtain ⟨ha, hwa⟩ := hw a List.mem_cons_self
    obtain ⟨fuel, rfl⟩ : ∃ f, fuel = f + 1 := ⟨fuel - 1, by omega⟩
    have hca : charAt lines p = some c := hp.2
    rw [argsLoop, hca]
    dsimp only
    rw [if_neg hc]
    have hrest := standsAt_next hp
    cases as with
    | nil =>
      have e : argsText [a] ++ r = tokText a ++ ch ')' :: r := by simp [argsText]
      rw [e] at hrest
      obtain ⟨q, h1, h2⟩ := parseArg_spec hok ⟨p.line, p.off + 1⟩ ha hwa (.inr rfl) hrest
      obtain ⟨fuel, rfl⟩ : ∃ f, fuel = f + 1 := ⟨fuel - 1, by simp at hf; omega⟩
      refine ⟨q, ?_, h2⟩
      rw [h1]
      dsimp only
      rw [argsLoop, (h2.2 : charAt lines q = some (ch ')'))]
      simp
    | cons b as =>
      have e : argsText (a :: b :: as) ++ r = tokText a ++ ch ',' :: (argsText (b :: as) ++ r) := by
        simp [argsText]
      rw [e] at hrest
      obtain ⟨q, h1, h2⟩ := parseArg_spec hok ⟨p.line, p.off + 1⟩ ha hwa (.inl rfl) hrest
      rw [h1]
      dsimp only
      obtain ⟨q', h3, h4⟩ := ih (fun a ha => hw a (List.mem_cons_of_mem _ ha)) (by simp) q (ch ',') r
        (acc ++ [tokText a]) fuel (by decide) h2 (by simp at hf ⊢; omega)
      refine ⟨q', ?_, h4⟩
      rw [h3]
      simp

theorem peekLine_spec (b : List Byte) : ∀ (i : Nat),
    (∃ k c, k < b.length ∧ peekLine i b = some (c, i + k) ∧ b[k]? = some c ∧ pySpace c = false
        ∧ ∀ d ∈ b.take k, pySpace d = true)
    ∨ peekLine i b = none ∧ ∀ d ∈ b, pySpace d = true := by
  induction b with
  | nil => intro i; exact .inr ⟨rfl, by simp⟩
  | cons d b ih =>
    intro i
    rw [peekLine]
    cases hd : pySpace d with
    | false => exact .inl ⟨0, d, by simp, by simp, rfl, hd, by simp⟩
    | true =>
      rw [if_pos rfl]
      rcases ih (i + 1) with ⟨k, c, h1, h2, h3, h4, h5⟩ | ⟨h1, h2⟩
      · refine .inl ⟨k + 1, c, by simpa using h1, by rw [h2]; congr 2; omega, by simpa using h3, h4, ?_⟩
        intro x hx
        rw [List.take_succ_cons] at hx
        rcases List.mem_cons.1 hx with rfl | hx
        · exact hd
        · exact h5 x hx
      · refine .inr ⟨h1, ?_⟩
        intro x hx
        rcases List.mem_cons.1 hx with rfl | hx
        · exact hd
        · exact h2 x hx

theorem space_split {a b : List Byte} {c d : Byte} {r s : List Byte} (ha : ∀ x ∈ a, pySpace x = true)
    (hb : ∀ x ∈ b, pySpace x = true) (hc : pySpace c = false) (hd : pySpace d = false)
    (h : a ++ c :: r = b ++ d :: s) : a = b ∧ c = d ∧ r = s := by
  induction a generalizing b with
  | nil =>
    cases b with
    | nil => obtain ⟨h1, h2⟩ := List.cons.inj h; exact ⟨rfl, h1, h2⟩
    | cons x b =>
      have : c = x := (List.cons.inj h).1
      rw [this, hb x List.mem_cons_self] at hc
      cases hc
  | cons y a ih =>
    cases b with
    | nil =>
      have : y = d := (List.cons.inj h).1
      rw [← this, ha y List.mem_cons_self] at hd
      cases hd
    | cons x b =>
      obtain ⟨h1, h2⟩ := List.cons.inj h
      obtain ⟨h3, h4, h5⟩ := ih (fun x hx => ha x (List.mem_cons_of_mem _ hx))
        (fun x hx => hb x (List.mem_cons_of_mem _ hx)) h2
      exact ⟨by rw [h1, h3], h4, h5⟩

theorem peekLines_spec (ls : List (List Byte)) : ∀ (ln off : Nat) (gap : List Byte) (c : Byte)
    (r : List Byte), (∀ x ∈ gap, pySpace x = true) → pySpace c = false →
    restL off ls = gap ++ c :: r →
    ∃ k i, peekLines ln off ls = some (c, ⟨ln + k, i⟩) ∧ restL i (ls.drop k) = c :: r
      ∧ (ls[k]?).bind (·[i]?) = some c := by
  induction ls with
  | nil => intro ln off gap c r _ _ h; simp [restL] at h
  | cons l ls ih =>
    intro ln off gap c r hg hc h
    rw [peekLines]
    rw [restL] at h
    rcases peekLine_spec (l.drop off) off with ⟨k, d, h1, h2, h3, h4, h5⟩ | ⟨h1, h2⟩
    · have hsplit : l.drop off = (l.drop off).take k ++ d :: (l.drop off).drop (k + 1) := by
        have hlt : k < (l.drop off).length := h1
        have : (l.drop off)[k] = d := by
          rw [List.getElem?_eq_getElem hlt] at h3; exact Option.some.inj h3
        rw [← this, ← List.drop_eq_getElem_cons hlt, List.take_append_drop]
      rw [hsplit, List.append_assoc] at h
      obtain ⟨e1, e2, e3⟩ := space_split h5 hg h4 hc h
      rw [h2]
      refine ⟨0, off + k, by rw [e2]; rfl, ?_, ?_⟩
      · have hlt : k < (l.drop off).length := h1
        have hk : (l.drop off).drop k = d :: (l.drop off).drop (k + 1) := by
          rw [List.drop_eq_getElem_cons hlt]
          congr 1
          rw [List.getElem?_eq_getElem hlt] at h3
          exact Option.some.inj h3
        rw [List.drop_zero, restL, ← List.drop_drop, hk, ← e2, ← e3]
        rfl
      · simp only [List.getElem?_cons_zero, Option.bind_some]
        rw [List.getElem?_drop] at h3
        rw [h3, e2]
    · rw [h1]
      dsimp only
      have hgap : ∃ gap', gap = l.drop off ++ gap' ∧ ls.flatten = gap' ++ c :: r := by
        generalize l.drop off = b at h h2
        clear h1 ih
        induction b generalizing gap with
        | nil => exact ⟨gap, rfl, h⟩
        | cons x b ihb =>
          cases gap with
          | nil =>
            have : x = c := (List.cons.inj h).1
            rw [← this, h2 x List.mem_cons_self] at hc
            cases hc
          | cons y gap =>
            obtain ⟨k1, k2⟩ := List.cons.inj h
            obtain ⟨g', k3, k4⟩ := ihb gap (fun x hx => hg x (List.mem_cons_of_mem _ hx)) k2
              (fun d hd => h2 d (List.mem_cons_of_mem _ hd))
            exact ⟨g', by rw [k3, k1]; rfl, k4⟩
      obtain ⟨gap', g1, g2⟩ := hgap
      have hrest : restL 0 ls = ls.flatten := by cases ls <;> simp [restL]
      obtain ⟨k, i, e1, e2, e3⟩ := ih (ln + 1) 0 gap' c r
        (fun x hx => hg x (by rw [g1]; exact List.mem_append_right _ hx)) hc (by rw [hrest, g2])
      exact ⟨k + 1, i, by rw [e1]; congr 3; omega, e2, e3⟩

theorem peekChar_spec {lines : List (List Byte)} {p : FPos} {gap : List Byte} {c : Byte} {r : List Byte}
    (hg : ∀ x ∈ gap, pySpace x = true) (hc : pySpace c = false)
    (h : restAt lines p = gap ++ c :: r) :
    ∃ q, peekChar lines p = some (c, q) ∧ StandsAt lines q (c :: r) := by
  obtain ⟨k, i, h1, h2, h3⟩ := peekLines_spec _ p.line p.off gap c r hg hc h
  refine ⟨⟨p.line + k, i⟩, h1, ?_, ?_⟩
  · rw [restAt, ← h2, List.drop_drop]
  · rw [charAt, List.head?_cons, ← h3, List.getElem?_drop]

theorem restAt_length (lines : List (List Byte)) (p : FPos) :
    (restAt lines p).length ≤ lines.flatten.length := by
  unfold restAt
  have h1 : ((lines.drop p.line).flatten).length ≤ lines.flatten.length := by
    conv => rhs; rw [← List.take_append_drop p.line lines, List.flatten_append, List.length_append]
    omega
  refine Nat.le_trans ?_ h1
  cases lines.drop p.line with
  | nil => simp [restL]
  | cons l ls => simp [restL]

theorem argsText_length (as : List (List ATok)) : as.length ≤ (argsText as).length := by
  induction as with
  | nil => simp
  | cons a as ih =>
    cases as with
    | nil => simp [argsText]
    | cons b as =>
      simp only [argsText, List.length_append, List.length_cons] at ih ⊢
      omega

/-! ## The properties -/

/-- **C41.**  An argument ends at the first comma or closing parenthesis outside nested brackets
and string literals: if the text from the given position on is an argument with balanced brackets
followed by a comma or parenthesis, exactly the argument is returned together with the position of
that character.  The argument may extend over any number of lines. -/
theorem C41_argument (lines : List (List Byte)) (hok : LinesOK lines) (p : FPos) (l : List ATok)
    (hl : ArgToks l) (hw : ∀ t ∈ l, t.WF) (c : Byte) (hc : c = ch ',' ∨ c = ch ')') (r : List Byte)
    (h : restAt lines p = tokText l ++ c :: r) :
    ∃ q, parseArg lines p = some (tokText l, q) ∧ StandsAt lines q (c :: r) :=
  parseArg_spec hok p hl hw hc h

/-- **C41.**  A whole log statement, from the character after the name of the log function on:
all arguments are found, and the positions of both parentheses and of the semicolon. -/
theorem C41_statement (lines : List (List Byte)) (hok : LinesOK lines) (p : FPos)
    (as : List (List ATok)) (hne : as ≠ []) (hw : ∀ a ∈ as, ArgToks a ∧ ∀ t ∈ a, t.WF)
    (g1 g2 : List Byte) (hg1 : ∀ x ∈ g1, pySpace x = true) (hg2 : ∀ x ∈ g2, pySpace x = true)
    (r : List Byte)
    (h : restAt lines p = g1 ++ ch '(' :: (argsText as ++ (g2 ++ ch ';' :: r))) :
    ∃ s, parseStmt lines p = some s ∧ s.args = as.map tokText
      ∧ StandsAt lines s.openParen (ch '(' :: (argsText as ++ (g2 ++ ch ';' :: r)))
      ∧ StandsAt lines s.closeParen (ch ')' :: (g2 ++ ch ';' :: r))
      ∧ StandsAt lines s.semicolon (ch ';' :: r) := by
  obtain ⟨q, h1, h2⟩ := peekChar_spec hg1 (by decide) h
  have hlen : as.length < lines.flatten.length + 1 := by
    have k1 := restAt_length lines q
    rw [h2.1] at k1
    have k2 := argsText_length as
    simp only [List.length_cons, List.length_append] at k1
    omega
  obtain ⟨q2, h3, h4⟩ := argsLoop_spec hok as hw hne q (ch '(') _ [] _ (by decide) h2 hlen
  obtain ⟨q3, h5, h6⟩ := peekChar_spec hg2 (by decide) (standsAt_next h4)
  refine ⟨⟨q, q2, q3, as.map tokText⟩, ?_, rfl, h2, h4, h6⟩
  unfold parseStmt
  rw [h1]
  dsimp only
  rw [if_neg (by decide), h3]
  dsimp only
  rw [h5]
  dsimp only
  rw [if_neg (by decide)]
  rfl

/-! ### A statement over several lines -/

/-- `(NOTICE,\n "a, (%s\"", f(x, {1, 2})[3])\n ;` after the name of the log function. -/
def exArgLines : List (List Byte) :=
  [asc "  NANO_LOG(NOTICE,\n", asc " \"a, (%s\\\"\", f(x, {1, 2})[3])\n", asc " ; next();"]

def exArgs : List (List ATok) :=
  [(asc "NOTICE").map .chr,
   .chr 10 :: .chr 32 :: [.str ((asc "a, (%s").map .plain ++ [.esc (ch '"')])],
   [.chr 32, .chr (ch 'f'), .op .paren, .chr (ch 'x'), .comma, .chr 32, .op .curly, .chr (ch '1'), .comma,
    .chr 32, .chr (ch '2'), .cl .curly, .cl .paren, .op .bracket, .chr (ch '3'), .cl .bracket]]

theorem exArgs_ok : ∀ a ∈ exArgs, ArgToks a ∧ ∀ t ∈ a, t.WF := by
  have hs : ∀ l : List Byte, (∀ b ∈ l, (ATok.chr b).WF) →
      ArgToks (l.map .chr) ∧ ∀ t ∈ l.map ATok.chr, t.WF := by
    intro l hl
    refine ⟨?_, by simpa using hl⟩
    induction l with
    | nil => exact .nil
    | cons b l ih => exact .cons trivial (by simp) (ih (fun b hb => hl b (List.mem_cons_of_mem _ hb)))
  intro a ha
  simp only [exArgs, List.mem_cons, List.not_mem_nil, or_false] at ha
  rcases ha with rfl | rfl | rfl
  · refine hs _ ?_
    simp only [ATok.WF]
    decide
  · refine ⟨.cons trivial (by simp) (.cons trivial (by simp) (.cons trivial (by simp) .nil)), ?_⟩
    intro t ht
    simp only [List.mem_cons, List.not_mem_nil, or_false] at ht
    rcases ht with rfl | rfl | rfl
    · simp only [ATok.WF]; decide
    · simp only [ATok.WF]; decide
    · intro i hi
      have : i = .esc (ch '"') ∨ ∃ b ∈ asc "a, (%s", i = .plain b := by
        simp only [List.mem_append, List.mem_map, List.mem_singleton] at hi
        rcases hi with ⟨b, hb, rfl⟩ | rfl
        · exact .inr ⟨b, hb, rfl⟩
        · exact .inl rfl
      rcases this with rfl | ⟨b, hb, rfl⟩
      · trivial
      · have : ∀ b ∈ asc "a, (%s", b ≠ ch '"' ∧ b ≠ ch '\\' := by decide
        exact this b hb
  · have b2 : Bal [.chr (ch '1'), .comma, .chr 32, .chr (ch '2')] :=
      .cons trivial (.cons trivial (.cons trivial (.cons trivial .nil)))
    have b1 : Bal [.chr (ch 'x'), .comma, .chr 32, .op .curly, .chr (ch '1'), .comma, .chr 32,
        .chr (ch '2'), .cl .curly] :=
      .cons trivial (.cons trivial (.cons trivial (.grp (k := .curly) (b := []) b2 .nil)))
    have b3 : Bal [.chr (ch '3')] := .cons trivial .nil
    refine ⟨.cons trivial (by simp) (.cons trivial (by simp)
      (.grp (k := .paren) b1 (.grp (k := .bracket) (b := []) b3 .nil))), ?_⟩
    intro t ht
    simp only [List.mem_cons, List.not_mem_nil, or_false] at ht
    rcases ht with rfl | rfl | rfl | rfl | rfl | rfl | rfl | rfl | rfl | rfl | rfl | rfl | rfl | rfl |
      rfl | rfl <;> simp only [ATok.WF] <;> decide

example : ∃ s, parseStmt exArgLines ⟨0, 10⟩ = some s ∧ s.args = exArgs.map tokText
    ∧ StandsAt exArgLines s.semicolon (asc "; next();") := by
  have hok : LinesOK exArgLines :=
    .inl ⟨⟨asc "  NANO_LOG(NOTICE,", by decide, by decide⟩,
      .inl ⟨⟨asc " \"a, (%s\\\"\", f(x, {1, 2})[3])", by decide, by decide⟩,
        .inr ⟨rfl, by decide⟩⟩⟩
  obtain ⟨s, h1, h2, _, _, h5⟩ := C41_statement exArgLines hok ⟨0, 10⟩ exArgs (by decide) exArgs_ok []
    (asc "\n ") (by simp) (by decide) (asc " next();") (by decide)
  exact ⟨s, h1, h2, h5⟩

/-- Character constants are outside the theorems above, and the claim does not extend to them:
for the valid statement `NANO_LOG(NOTICE, "%c", ')');` an error is raised (the argument is taken to
end inside the constant, and no semicolon follows). -/
theorem C41_char_paren_false : parseStmt [asc "NANO_LOG(NOTICE, \"%c\", ')');\n"] ⟨0, 8⟩ = none := by
  decide

/-- With the constant `'"'` the scanner takes the following text for a string literal, and the
next literal for code: the text up to the end of a later statement becomes part of the argument. -/
theorem C41_char_quote_false :
    (parseStmt [asc "NANO_LOG(NOTICE, \"%c\", '\"');\n", asc "puts(\"\\n\", 1);\n"] ⟨0, 8⟩) = none
    ∧ (parseStmt [asc "NANO_LOG(NOTICE, \"%c\", '\"'); NANO_LOG(NOTICE, \"%c\", '\"');\n"] ⟨0, 8⟩).map (·.args)
      = some [asc "NOTICE", asc " \"%c\"", asc " '\"'); NANO_LOG(NOTICE, \"%c\", '\"'"] := by
  constructor
  · decide +kernel
  · decide +kernel

end NanoLog
