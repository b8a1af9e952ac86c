import Verif.PreFileStep

/-!
# Which log statements are found in a line
-/

namespace NanoLog

/-! ## Specification -/

/-- Tokens of a line of code: a character, a backslash with the character after it (as in the character
constant `'\''`), a string literal. -/
inductive CTok where
  | chr (b : Byte)
  | esc (b : Byte)
  | str (l : List SItem)
  deriving DecidableEq, Repr

def CTok.WF : CTok → Prop
  | .chr b => b ≠ ch '"' ∧ b ≠ ch '\\'
  | .esc _ => True
  | .str l => ∀ i ∈ l, i.WF

def CTok.bytes : CTok → List Byte
  | .chr b => [b]
  | .esc b => [ch '\\', b]
  | .str l => ch '"' :: (l.flatMap SItem.bytes ++ [ch '"'])

/-- Text of tokens. -/
def ctext (l : List CTok) : List Byte := l.flatMap CTok.bytes

/-- Characters of identifiers. -/
def isIdChar (b : Byte) : Bool := pyAlnum b || b == ch '_'

/-- Among the tokens, at offset `i` plus the length of those before, the identifier `NANO_LOG` begins, and
an opening parenthesis follows; `prev` is the character before the tokens, and `lines` is the text. -/
def CallAt (lines : List (List Byte)) (prev : Byte) (toks : List CTok) (i j : Nat) : Prop :=
  ∃ p q r, toks = p ++ q ∧ j = i + (ctext p).length ∧ ctext q = asc "NANO_LOG" ++ r ∧
    isIdChar ((ctext p).getLast?.getD prev) = false ∧
    ∃ gap rest, (∀ x ∈ gap, pySpace x = true) ∧ restAt lines ⟨0, j + 8⟩ = gap ++ ch '(' :: rest

/-! ## Lemmas -/

theorem ctext_cons (t : CTok) (l : List CTok) : ctext (t :: l) = t.bytes ++ ctext l := rfl

theorem ctext_append (a b : List CTok) : ctext (a ++ b) = ctext a ++ ctext b := by simp [ctext]

theorem bytes_ne_nil (t : CTok) : t.bytes ≠ [] := by cases t <;> simp [CTok.bytes]

theorem scanLine_quoted (lines : List (List Byte)) (s : List Byte) (l : List SItem) (hl : ∀ i ∈ l, i.WF) :
    ∀ (i : Nat) (last : Byte), ∃ last', scanLine lines (l.flatMap SItem.bytes ++ s) i false true last =
      scanLine lines s (i + (l.flatMap SItem.bytes).length) false true last' := by
  induction l with
  | nil => intro i last; exact ⟨last, rfl⟩
  | cons t l ih =>
    intro i last
    have hl' : ∀ i ∈ l, i.WF := fun i hi => hl i (by simp [hi])
    cases t with
    | plain b =>
      obtain ⟨h1, h2⟩ : b ≠ ch '"' ∧ b ≠ ch '\\' := hl (.plain b) (by simp)
      obtain ⟨last', e⟩ := ih hl' (i + 1) b
      refine ⟨last', ?_⟩
      have : (SItem.plain b :: l).flatMap SItem.bytes ++ s = b :: (l.flatMap SItem.bytes ++ s) := rfl
      rw [this, scanLine, if_neg (by simp [h2])]
      simp only [if_neg h1]
      rw [if_neg (by simp), e]
      congr 1
      simp [SItem.bytes]; omega
    | esc b =>
      obtain ⟨last', e⟩ := ih hl' (i + 2) b
      refine ⟨last', ?_⟩
      have : (SItem.esc b :: l).flatMap SItem.bytes ++ s = ch '\\' :: b :: (l.flatMap SItem.bytes ++ s) := rfl
      rw [this, scanLine, if_pos (.inl rfl), scanLine, if_pos (.inr rfl)]
      simp only [Bool.not_false, Bool.not_true]
      rw [show i + 1 + 1 = i + 2 from rfl, e]
      congr 1
      simp [SItem.bytes]; omega

theorem matchName_none {p : List Byte} : ∀ {s : List Byte}, matchName s p = none → ∃ r, p = s ++ r := by
  induction p with
  | nil => intro s h; simp [matchName] at h
  | cons c p ih =>
    intro s h
    cases s with
    | nil => exact ⟨c :: p, rfl⟩
    | cons b s =>
      rw [matchName] at h
      by_cases hb : b = c
      · simp only [hb, ne_eq, not_true_eq_false, if_false] at h
        obtain ⟨r, rfl⟩ := ih h
        exact ⟨r, by rw [hb]; rfl⟩
      · simp [hb] at h

theorem matchName_append (p r : List Byte) : matchName (p ++ r) p = some true := by
  induction p with
  | nil => simp [matchName]
  | cons c p ih => simp [matchName, ih]

theorem callAt_cons {lines : List (List Byte)} {prev : Byte} {t : CTok} {toks : List CTok} {i j : Nat}
    (h0 : (∀ r, ctext (t :: toks) ≠ asc "NANO_LOG" ++ r) ∨ isIdChar prev = true ∨
      ¬ ∃ gap rest, (∀ x ∈ gap, pySpace x = true) ∧ restAt lines ⟨0, i + 8⟩ = gap ++ ch '(' :: rest)
    {c : Byte} (hc : t.bytes.getLast? = some c) :
    CallAt lines prev (t :: toks) i j ↔ CallAt lines c toks (i + t.bytes.length) j := by
  have key : ∀ p : List CTok, (ctext (t :: p)).getLast?.getD prev = (ctext p).getLast?.getD c := by
    intro p
    rw [ctext_cons, List.getLast?_append, hc]
    cases (ctext p).getLast? <;> rfl
  constructor
  · rintro ⟨p, q, r, e1, rfl, e3, e4, e5⟩
    cases p with
    | nil =>
      rw [List.nil_append] at e1
      subst e1
      exfalso
      rcases h0 with h0 | h0 | h0
      · exact h0 r e3
      · simp only [ctext, List.flatMap_nil, List.getLast?_nil, Option.getD_none] at e4
        rw [h0] at e4
        simp at e4
      · exact h0 (by simpa [ctext] using e5)
    | cons u p =>
      obtain ⟨rfl, rfl⟩ : t = u ∧ toks = p ++ q := by simpa using e1
      refine ⟨p, q, r, rfl, ?_, e3, by rw [← key]; exact e4, e5⟩
      rw [ctext_cons]
      simp; omega
  · rintro ⟨p, q, r, rfl, rfl, e3, e4, e5⟩
    refine ⟨t :: p, q, r, rfl, ?_, e3, by rw [key]; exact e4, e5⟩
    rw [ctext_cons]
    simp; omega

theorem peekChar_paren {lines : List (List Byte)} {p : FPos} {c : Byte} {q : FPos}
    (h : peekChar lines p = some (c, q)) :
    (∃ gap rest, (∀ x ∈ gap, pySpace x = true) ∧ restAt lines p = gap ++ ch '(' :: rest) ↔ c = ch '(' := by
  obtain ⟨g, hg, ht⟩ := peekChar_inv h
  have e : restAt lines p = g ++ c :: restAt lines ⟨q.line, q.off + 1⟩ := by
    rw [ht.text, restAt_here ht.here]
  constructor
  · rintro ⟨gap, rest, h1, h2⟩
    have hc : pySpace c = false := by
      cases hs : pySpace c with
      | false => rfl
      | true =>
        exfalso
        have : peekChar lines p = some (ch '(', ⟨q.line, q.off⟩) → False := by
          intro h'
          rw [h] at h'
          obtain ⟨rfl, -⟩ : c = ch '(' ∧ q = ⟨q.line, q.off⟩ := by simpa using h'
          exact absurd hs (by decide)
        -- the character found is not white space
        have hn : ∀ (ls : List (List Byte)) (k off : Nat) (c : Byte) (q : FPos),
            peekLines k off ls = some (c, q) → pySpace c = false := by
          intro ls
          induction ls with
          | nil => intro k off c q h; simp [peekLines] at h
          | cons l ls ih =>
            intro k off c q h
            rw [peekLines] at h
            split at h
            next c' i hp =>
              have hpl : ∀ (s : List Byte) (i : Nat) (c : Byte) (j : Nat), peekLine i s = some (c, j) →
                  pySpace c = false := by
                intro s
                induction s with
                | nil => intro i c j h; simp [peekLine] at h
                | cons b s ih2 =>
                  intro i c j h
                  rw [peekLine] at h
                  by_cases hb : pySpace b = true
                  · rw [if_pos hb] at h
                    exact ih2 _ _ _ h
                  · rw [if_neg hb] at h
                    obtain ⟨rfl, -⟩ : b = c ∧ i = j := by simpa using h
                    simpa using hb
              obtain ⟨rfl, -⟩ : c' = c ∧ (⟨k, i⟩ : FPos) = q := by simpa using h
              exact hpl _ _ _ _ hp
            · exact ih _ _ _ _ h
        rw [hn _ _ _ _ _ h] at hs
        simp at hs
    obtain ⟨-, h3, -⟩ := space_split hg h1 hc (by decide : pySpace (ch '(') = false) (e.symm.trans h2)
    exact h3
  · rintro rfl
    exact ⟨g, _, hg, e⟩

theorem peekLines_some {ls : List (List Byte)} (h : ∃ c ∈ ls.flatten, pySpace c = false) : ∀ k,
    peekLines k 0 ls ≠ none := by
  induction ls with
  | nil => simp at h
  | cons l ls ih =>
    intro k
    rw [peekLines]
    split
    · simp
    next hp =>
      have hp' := peekLine_none _ _ hp
      obtain ⟨c, hc, hs⟩ := h
      rw [List.flatten_cons, List.mem_append] at hc
      rcases hc with hc | hc
      · rw [hp' c (by simpa using hc)] at hs
        simp at hs
      · exact ih ⟨c, hc, hs⟩ _

/-- The scan of a line finds the first statement. -/
theorem scanLine_first (line : List Byte) (ls : List (List Byte)) (hmore : ∃ c ∈ ls.flatten, pySpace c = false)
    (toks : List CTok) : (∀ t ∈ toks, t.WF) → ∀ (i : Nat) (prev last : Byte),
    (prev ≠ ch 'N' → isIdChar last = isIdChar prev) →
    (∀ a b, prev :: ctext toks ≠ a ++ (asc "NNANO_LOG" ++ b)) →
    (ctext toks = [] ∨ (ctext toks).getLast? = some 10) →
    (∃ j, scanLine (line :: ls) (ctext toks) i false false last = .found j ∧ CallAt (line :: ls) prev toks i j ∧
      ∀ k < j, ¬ CallAt (line :: ls) prev toks i k) ∨
    (∃ last', scanLine (line :: ls) (ctext toks) i false false last = .done last' ∧
      ∀ k, ¬ CallAt (line :: ls) prev toks i k) := by
  induction toks with
  | nil =>
    intro _ i prev last _ _ _
    right
    refine ⟨last, rfl, ?_⟩
    rintro k ⟨p, q, r, e1, -, e3, -⟩
    obtain ⟨rfl, rfl⟩ : p = [] ∧ q = [] := by simpa using e1.symm
    simp [ctext, asc] at e3
  | cons t toks ih =>
    intro hw i prev last hinv hNN hend
    have hw' : ∀ t ∈ toks, t.WF := fun u hu => hw u (by simp [hu])
    obtain ⟨c, hc⟩ : ∃ c, t.bytes.getLast? = some c := by
      cases h : t.bytes.getLast? with
      | none => exact absurd (List.getLast?_eq_none_iff.1 h) (bytes_ne_nil t)
      | some c => exact ⟨c, rfl⟩
    have hNN' : ∀ a b, c :: ctext toks ≠ a ++ (asc "NNANO_LOG" ++ b) := by
      intro a b e
      obtain ⟨u, hu⟩ : ∃ u, t.bytes = u ++ [c] := by
        rw [List.getLast?_eq_some_iff] at hc
        exact hc
      apply hNN (prev :: u ++ a) b
      rw [ctext_cons, hu]
      have : prev :: (u ++ [c] ++ ctext toks) = prev :: u ++ (c :: ctext toks) := by simp
      rw [this, e]
      simp
    have hend' : ctext toks = [] ∨ (ctext toks).getLast? = some 10 := by
      rcases hend with hend | hend
      · rw [ctext_cons, List.append_eq_nil_iff] at hend
        exact .inl hend.2
      · rw [ctext_cons, List.getLast?_append] at hend
        cases h : (ctext toks).getLast? with
        | none => exact .inl (List.getLast?_eq_none_iff.1 h)
        | some d => rw [h] at hend; exact .inr hend
    -- the loop goes on behind the token
    have go : ∀ last1, scanLine (line :: ls) (ctext (t :: toks)) i false false last =
        scanLine (line :: ls) (ctext toks) (i + t.bytes.length) false false last1 →
        (c ≠ ch 'N' → isIdChar last1 = isIdChar c) →
        ((∀ r, ctext (t :: toks) ≠ asc "NANO_LOG" ++ r) ∨ isIdChar prev = true ∨
          ¬ ∃ gap rest, (∀ x ∈ gap, pySpace x = true) ∧
            restAt (line :: ls) ⟨0, i + 8⟩ = gap ++ ch '(' :: rest) →
        (∃ j, scanLine (line :: ls) (ctext (t :: toks)) i false false last = .found j ∧
          CallAt (line :: ls) prev (t :: toks) i j ∧ ∀ k < j, ¬ CallAt (line :: ls) prev (t :: toks) i k) ∨
        (∃ last', scanLine (line :: ls) (ctext (t :: toks)) i false false last = .done last' ∧
          ∀ k, ¬ CallAt (line :: ls) prev (t :: toks) i k) := by
      intro last1 hs hl1 h0
      rw [hs]
      rcases ih hw' (i + t.bytes.length) c last1 hl1 hNN' hend' with ⟨j, h1, h2, h3⟩ | ⟨l', h1, h2⟩
      · exact .inl ⟨j, h1, (callAt_cons h0 hc).2 h2, fun k hk hca => h3 k hk ((callAt_cons h0 hc).1 hca)⟩
      · exact .inr ⟨l', h1, fun k hca => h2 k ((callAt_cons h0 hc).1 hca)⟩
    cases t with
    | esc b =>
      obtain rfl : b = c := by simpa [CTok.bytes] using hc
      refine go b ?_ (fun _ => rfl) (.inl fun r => ?_)
      · have : ctext (CTok.esc b :: toks) = ch '\\' :: b :: ctext toks := rfl
        rw [this, scanLine, if_pos (.inl rfl), scanLine, if_pos (.inr rfl)]
        rfl
      · intro e
        exact absurd (List.cons.inj e).1 (by decide)
    | str l =>
      have hl : ∀ i ∈ l, i.WF := hw (.str l) (by simp)
      obtain rfl : ch '"' = c := by
        have e : (CTok.str l).bytes = (ch '"' :: l.flatMap SItem.bytes) ++ [ch '"'] := by simp [CTok.bytes]
        rw [e, List.getLast?_append] at hc
        simpa using hc
      refine go (ch '"') ?_ (fun _ => rfl) (.inl fun r => ?_)
      · have : ctext (CTok.str l :: toks) = ch '"' :: (l.flatMap SItem.bytes ++ (ch '"' :: ctext toks)) := by
          rw [ctext_cons]
          simp [CTok.bytes]
        rw [this, scanLine, if_neg (by decide)]
        simp only [if_true, Bool.not_false]
        rw [if_neg (by simp)]
        obtain ⟨last', e⟩ := scanLine_quoted (line :: ls) (ch '"' :: ctext toks) l hl (i + 1) (ch '"')
        rw [e, scanLine, if_neg (by decide)]
        simp only [if_true, Bool.not_true]
        rw [if_neg (by decide)]
        congr 1
        simp [CTok.bytes]; omega
      · intro e
        exact absurd (List.cons.inj e).1 (by decide)
    | chr b =>
      obtain ⟨hb1, hb2⟩ : b ≠ ch '"' ∧ b ≠ ch '\\' := hw (.chr b) (by simp)
      obtain rfl : b = c := by simpa [CTok.bytes] using hc
      have et : ctext (CTok.chr b :: toks) = b :: ctext toks := rfl
      have es : scanLine (line :: ls) (b :: ctext toks) i false false last =
          if b = ch 'N' then
            match matchName (b :: ctext toks) nanoLog with
            | none => .error
            | some false => scanLine (line :: ls) (ctext toks) (i + 1) false false last
            | some true =>
              if pyAlnum last = true ∨ last = ch '_' then
                scanLine (line :: ls) (ctext toks) (i + 1) false false last
              else
                match peekChar (line :: ls) ⟨0, i + nanoLog.length⟩ with
                | none => .error
                | some (m, _) =>
                  if m ≠ ch '(' then scanLine (line :: ls) (ctext toks) (i + 1) false false last else .found i
          else scanLine (line :: ls) (ctext toks) (i + 1) false false b := by
        rw [scanLine, if_neg (by simp [hb2])]
        simp only [if_neg hb1, and_true]
        rfl
      by_cases hbN : b = ch 'N'
      · cases hm : matchName (b :: ctext toks) nanoLog with
        | none =>
          exfalso
          obtain ⟨r, hr⟩ := matchName_none hm
          have h10 : (10 : Byte) ∈ b :: ctext toks := by
            rcases hend with hend | hend
            · rw [et] at hend
              simp at hend
            · rw [et] at hend
              exact List.mem_of_getLast? hend
          have : (10 : Byte) ∈ nanoLog := by rw [hr]; exact List.mem_append_left _ h10
          exact absurd this (by decide)
        | some v =>
          cases v with
          | false =>
            refine go last ?_ (fun h => absurd hbN h) (.inl fun r e => ?_)
            · rw [et, es, if_pos hbN, hm]
              rfl
            · rw [← et, e] at hm
              have := matchName_append (asc "NANO_LOG") r
              rw [show nanoLog = asc "NANO_LOG" from rfl, this] at hm
              simp at hm
          | true =>
            obtain ⟨r, hr⟩ := matchName_true _ _ hm
            have hprev : prev ≠ ch 'N' := by
              rintro rfl
              apply hNN [] r
              rw [et, hr]
              rfl
            have hid := hinv hprev
            by_cases hlast : isIdChar last = true
            · have hl2 : pyAlnum last = true ∨ last = ch '_' := by simpa [isIdChar] using hlast
              refine go last ?_ (fun h => absurd hbN h) (.inr (.inl (hid ▸ hlast)))
              rw [et, es, if_pos hbN, hm]
              simp only
              rw [if_pos hl2]
              rfl
            · have hl2 : ¬ (pyAlnum last = true ∨ last = ch '_') := by simpa [isIdChar] using hlast
              cases hp : peekChar (line :: ls) ⟨0, i + nanoLog.length⟩ with
              | none =>
                exfalso
                unfold peekChar at hp
                rw [List.drop_zero, peekLines] at hp
                split at hp
                · simp at hp
                · exact peekLines_some hmore _ hp
              | some m =>
                obtain ⟨m, pos⟩ := m
                by_cases hmp : m = ch '('
                · left
                  refine ⟨i, ?_, ⟨[], CTok.chr b :: toks, r, rfl, rfl, hr, ?_, ?_⟩, ?_⟩
                  · rw [et, es, if_pos hbN, hm]
                    simp only
                    rw [if_neg hl2, hp]
                    simp [hmp]
                  · show isIdChar prev = false
                    rw [← hid]
                    simpa using hlast
                  · exact (peekChar_paren hp).2 hmp
                  · rintro k hk ⟨p, q, r', -, e2, -⟩
                    omega
                · refine go last ?_ (fun h => absurd hbN h) (.inr (.inr fun hc => hmp ((peekChar_paren hp).1 hc)))
                  rw [et, es, if_pos hbN, hm]
                  simp only
                  rw [if_neg hl2, hp]
                  simp [hmp, CTok.bytes]
      · refine go b ?_ (fun _ => rfl) (.inl fun r e => ?_)
        · rw [et, es, if_neg hbN]
          rfl
        · exact hbN (List.cons.inj e).1

/-! ## The last character of a line -/

theorem scanLine_last (lines : List (List Byte)) (s : List Byte) : ∀ (i : Nat) (esc inQ : Bool) (last l : Byte),
    s.getLast? = some 10 → scanLine lines s i esc inQ last = .done l → l = 10 := by
  induction s with
  | nil => intro i esc inQ last l h; simp at h
  | cons c s ih =>
    intro i esc inQ last l h hs
    cases s with
    | nil =>
      obtain rfl : c = 10 := by simpa using h
      rw [scanLine] at hs
      split at hs
      · simpa [scanLine] using hs.symm
      · simp only at hs
        rw [if_neg (by simp [ch])] at hs
        simpa [scanLine] using hs.symm
    | cons d s =>
      have h' : (d :: s).getLast? = some 10 := by simpa [List.getLast?_cons_cons] using h
      rw [scanLine] at hs
      split at hs
      · exact ih _ _ _ _ _ h' hs
      · simp only at hs
        generalize (if c = ch '"' then !inQ else inQ) = inQ' at hs
        split at hs
        · split at hs
          · simp at hs
          · exact ih _ _ _ _ _ h' hs
          · split at hs
            · exact ih _ _ _ _ _ h' hs
            · split at hs
              · simp at hs
              · split at hs
                · exact ih _ _ _ _ _ h' hs
                · simp at hs
        · exact ih _ _ _ _ _ h' hs

/-- The states between the rounds of the loop over the lines, with the entries not yet visited. -/
inductive PPReach (name input : List Byte) : PPState → List (List Byte) → Prop where
  | start : PPReach name input (.init name) (readLines input)
  | step {st st' l ls ls'} : PPReach name input st (l :: ls) → ppStep st l ls = some (st', ls') →
      PPReach name input st' ls'

theorem PPReach.inv {name input : List Byte} (hn : (10 : Byte) ∉ name) {st : PPState} {todo : List (List Byte)}
    (h : PPReach name input st todo) : PPInv name (placed name input) st todo := by
  induction h with
  | start => exact ppInv_init name input hn
  | step _ hs ih => exact ppStep_inv ih hs

theorem linesOK_head {l : List Byte} {ls : List (List Byte)} (h : LinesOK (l :: ls)) (hl : ls ≠ []) :
    l.getLast? = some 10 := by
  rcases h with ⟨⟨b, -, rfl⟩, -⟩ | ⟨h, -⟩
  · simp
  · exact absurd h hl

theorem ppStep_last {name : List Byte} {x : List PChar} {st st' : PPState} {line : List Byte}
    {ls ls' : List (List Byte)} (hinv : PPInv name x st (line :: ls)) (hs : ppStep st line ls = some (st', ls'))
    (h : isIdChar st.last = false) : ls' = [] ∨ isIdChar st'.last = false := by
  have h10 : isIdChar 10 = false := by decide
  unfold ppStep at hs
  split at hs
  · obtain ⟨rfl, rfl⟩ : _ = st' ∧ _ = ls' := by simpa using hs
    exact .inr h
  · split at hs
    · obtain ⟨rfl, rfl⟩ : _ = st' ∧ _ = ls' := by simpa using hs
      exact .inr h
    · split at hs
      · obtain ⟨rfl, rfl⟩ : _ = st' ∧ _ = ls' := by simpa using hs
        exact .inr h
      · split at hs
        · simp at hs
        next last hscan =>
          obtain ⟨rfl, rfl⟩ : _ = st' ∧ _ = ls' := by simpa using hs
          by_cases hl : ls = []
          · exact .inl hl
          · right
            show isIdChar last = false
            rw [scanLine_last _ _ _ _ _ _ _ (linesOK_head hinv.ok hl) hscan]
            exact h10
        next i hscan =>
          obtain ⟨g, r, e1, e2⟩ := scanLine_found _ _ _ _ _ _ _ hscan
          rw [Nat.zero_add] at e2
          subst e2
          right
          unfold ppStmt at hs
          split at hs
          · simp at hs
          next s hp =>
          obtain ⟨g1, g2, -, -, -, hr⟩ := parseStmt_inv hp
          split at hs
          · split at hs
            · simp at hs
            split at hs
            · simp at hs
            split at hs
            · simp at hs
            split at hs
            next line' ls1 hsplit =>
              split at hs
              next last hscan2 =>
                obtain ⟨rfl, rfl⟩ : _ = st' ∧ _ = ls' := by simpa using hs
                show isIdChar last = false
                have hlong : (line'.drop (g.length + 1)).getLast? = some 10 := by
                  have hl' : line'.getLast? = some 10 ∧ g.length + 1 < line'.length := by
                    obtain ⟨a, l, m, t, b, f1, f2, f3, f4⟩ := charAt_split hr.here
                    have hget : (line :: ls)[s.semicolon.line]? = some l := by
                      rw [f1, ← f3]
                      simp
                    have htake : (line :: ls).take s.semicolon.line = a := by rw [f1, ← f3]; simp
                    unfold splitSemi at hsplit
                    rw [hget] at hsplit
                    simp only [htake] at hsplit
                    have hn8 : nanoLog.length = 8 := by decide
                    cases a with
                    | nil =>
                      obtain ⟨rfl, -⟩ : line = l ∧ ls = b := by simpa using f1
                      have hle := hr.le
                      simp only [← f3, List.length_nil, ← f4, hn8] at hle
                      have hsp := (List.cons.inj (Option.some.inj hsplit)).1
                      rw [← hsp]
                      constructor
                      · simp [crlf]
                      · rw [f2, ← f4]
                        simp only [List.length_append, List.length_take, List.length_cons, crlf]
                        omega
                    | cons a0 mids =>
                      obtain ⟨rfl, rfl⟩ : line = a0 ∧ ls = mids ++ l :: b := by simpa using f1
                      have hsp := (List.cons.inj (Option.some.inj hsplit)).1
                      rw [← hsp]
                      refine ⟨linesOK_head hinv.ok (by simp), ?_⟩
                      rw [e1]
                      simp only [List.length_append, hn8]
                      omega
                  rw [List.getLast?_drop, if_neg (by omega)]
                  exact hl'.1
                rw [scanLine_last _ _ _ _ _ _ _ hlong hscan2]
                exact h10
              · simp at hs
            · simp at hs
          · simp at hs

theorem PPReach.last {name input : List Byte} (hn : (10 : Byte) ∉ name) {st : PPState} {todo : List (List Byte)}
    (h : PPReach name input st todo) : todo = [] ∨ isIdChar st.last = false := by
  induction h with
  | start => exact .inr (show isIdChar 0 = false by decide)
  | step hr hs ih => exact ppStep_last (hr.inv hn) hs (ih.resolve_left (by simp))

end NanoLog
