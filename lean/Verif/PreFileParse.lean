import Verif.PreFileLemmas

/-!
# What `parseLogStatement` has read, for all inputs
-/

namespace NanoLog

/-- `t` is the text from position `p` up to position `q`, where `c` stands. -/
structure TextTo (lines : List (List Byte)) (p q : FPos) (t : List Byte) (c : Byte) : Prop where
  text : restAt lines p = t ++ restAt lines q
  here : charAt lines q = some c
  le : p.line < q.line ∨ p.line = q.line ∧ p.off ≤ q.off

theorem restAt_here {lines : List (List Byte)} {q : FPos} {c : Byte} (h : charAt lines q = some c) :
    restAt lines q = c :: restAt lines ⟨q.line, q.off + 1⟩ := by
  unfold charAt at h
  cases hl : lines[q.line]? with
  | none => simp [hl] at h
  | some l =>
    simp only [hl, Option.bind_some] at h
    obtain ⟨h1, e1⟩ := List.getElem?_eq_some_iff.1 hl
    obtain ⟨h2, e2⟩ := List.getElem?_eq_some_iff.1 h
    have e : lines.drop q.line = l :: lines.drop (q.line + 1) := by
      rw [List.drop_eq_getElem_cons h1, e1]
    show restL q.off (lines.drop q.line) = c :: restL (q.off + 1) (lines.drop q.line)
    rw [e, restL, restL, List.drop_eq_getElem_cons h2, e2]
    rfl

/-- One after the other. -/
theorem TextTo.trans {lines : List (List Byte)} {p q r : FPos} {t u : List Byte} {c d : Byte}
    (h1 : TextTo lines p q t c) (h2 : TextTo lines ⟨q.line, q.off + 1⟩ r u d) :
    TextTo lines p r (t ++ c :: u) d := by
  refine ⟨?_, h2.here, ?_⟩
  · rw [h1.text, restAt_here h1.here, h2.text]
    simp
  · have a := h1.le
    have b := h2.le
    simp only at b
    omega

theorem peekLine_inv (s : List Byte) : ∀ (i : Nat) (c : Byte) (j : Nat), peekLine i s = some (c, j) →
    ∃ gap r, (∀ x ∈ gap, pySpace x = true) ∧ s = gap ++ c :: r ∧ j = i + gap.length := by
  induction s with
  | nil => intro i c j h; simp [peekLine] at h
  | cons b s ih =>
    intro i c j h
    rw [peekLine] at h
    by_cases hb : pySpace b = true
    · rw [if_pos hb] at h
      obtain ⟨g, r, h1, rfl, rfl⟩ := ih _ _ _ h
      exact ⟨b :: g, r, by simpa [hb] using h1, rfl, by simp; omega⟩
    · rw [if_neg hb] at h
      obtain ⟨rfl, rfl⟩ : b = c ∧ i = j := by simpa using h
      exact ⟨[], s, by simp, rfl, rfl⟩

theorem peekLine_none (s : List Byte) : ∀ (i : Nat), peekLine i s = none → ∀ x ∈ s, pySpace x = true := by
  induction s with
  | nil => intro i h; simp
  | cons b s ih =>
    intro i h
    rw [peekLine] at h
    by_cases hb : pySpace b = true
    · rw [if_pos hb] at h
      simpa [hb] using ih _ h
    · rw [if_neg hb] at h
      simp at h

theorem charAt_drop {lines : List (List Byte)} {k : Nat} {l : List Byte} {ls : List (List Byte)}
    (h : lines.drop k = l :: ls) (i : Nat) : charAt lines ⟨k, i⟩ = l[i]? := by
  have : lines[k]? = some l := by
    have := congrArg (·[0]?) h
    simpa using this
  simp [charAt, this]

theorem reads_same {lines : List (List Byte)} {k off : Nat} {l : List Byte} {ls : List (List Byte)}
    (h : lines.drop k = l :: ls) {g r : List Byte} {c : Byte} (e : l.drop off = g ++ c :: r) :
    TextTo lines ⟨k, off⟩ ⟨k, off + g.length⟩ g c := by
  have e2 : l.drop (off + g.length) = c :: r := by
    rw [← List.drop_drop, e, List.drop_left]
  refine ⟨?_, ?_, .inr ⟨rfl, by simp⟩⟩
  · simp only [restAt, h, restL, e, e2]
    simp
  · rw [charAt_drop h]
    have := congrArg (·[0]?) e2
    simpa using this

theorem reads_next {lines : List (List Byte)} {k off : Nat} {l : List Byte} {ls : List (List Byte)}
    (h : lines.drop k = l :: ls) {q : FPos} {t : List Byte} {c : Byte}
    (hr : TextTo lines ⟨k + 1, 0⟩ q t c) : TextTo lines ⟨k, off⟩ q (l.drop off ++ t) c := by
  have h2 : lines.drop (k + 1) = ls := by
    rw [← List.drop_drop, h]
    rfl
  refine ⟨?_, hr.here, .inl ?_⟩
  · have := hr.text
    simp only [restAt, h2] at this
    have e : restL 0 ls = ls.flatten := by cases ls <;> simp [restL]
    rw [e] at this
    simp only [restAt, h, restL, this]
    simp
  · have := hr.le
    simp only at this
    show k < q.line
    omega

theorem peekLines_inv (lines : List (List Byte)) (ls : List (List Byte)) : ∀ (k off : Nat) (c : Byte) (q : FPos),
    lines.drop k = ls → peekLines k off ls = some (c, q) →
    ∃ gap, (∀ x ∈ gap, pySpace x = true) ∧ TextTo lines ⟨k, off⟩ q gap c := by
  induction ls with
  | nil => intro k off c q _ h; simp [peekLines] at h
  | cons l ls ih =>
    intro k off c q hk h
    rw [peekLines] at h
    split at h
    next c' i hp =>
      obtain ⟨rfl, rfl⟩ : c' = c ∧ (⟨k, i⟩ : FPos) = q := by simpa using h
      obtain ⟨g, r, h1, h2, rfl⟩ := peekLine_inv _ _ _ _ hp
      exact ⟨g, h1, reads_same hk h2⟩
    next hp =>
      have hk' : lines.drop (k + 1) = ls := by
        rw [← List.drop_drop, hk]
        rfl
      obtain ⟨g, h1, h2⟩ := ih (k + 1) 0 c q hk' h
      refine ⟨l.drop off ++ g, ?_, reads_next hk h2⟩
      intro x hx
      rcases List.mem_append.1 hx with hx | hx
      · exact peekLine_none _ _ hp x hx
      · exact h1 x hx

theorem peekChar_inv {lines : List (List Byte)} {p q : FPos} {c : Byte} (h : peekChar lines p = some (c, q)) :
    ∃ gap, (∀ x ∈ gap, pySpace x = true) ∧ TextTo lines p q gap c :=
  peekLines_inv lines _ p.line p.off c q rfl h

/-- The part of `argChar` after the quotes. -/
def argRest (g : AScan) (esc : Bool) (c : Byte) : Option (AScan × Bool) :=
  if g.inQ then some (g, esc)
  else if c = ch '{' then some ({ g with curly := g.curly + 1 }, esc)
  else if c = ch '}' then some ({ g with curly := g.curly - 1 }, esc)
  else if c = ch '(' then some ({ g with paren := g.paren + 1 }, esc)
  else if c = ch ')' ∧ g.paren > 0 then some ({ g with paren := g.paren - 1 }, esc)
  else if c = ch '[' then some ({ g with bracket := g.bracket + 1 }, esc)
  else if c = ch ']' then some ({ g with bracket := g.bracket - 1 }, esc)
  else if (c = ch ',' ∨ c = ch ')') ∧ g.curly = 0 ∧ g.paren = 0 ∧ g.bracket = 0 then none
  else some (g, esc)

theorem argChar_eq (st : AScan) (esc : Bool) (c : Byte) :
    argChar st esc c = if c = ch '\\' ∨ esc = true then some (st.more [c], !esc)
      else argRest (if c = ch '"' then { st.more [c] with inQ := !st.inQ } else st.more [c]) esc c := rfl

theorem argRest_src {g st' : AScan} {esc esc' : Bool} {c : Byte} (h : argRest g esc c = some (st', esc')) :
    st'.src = g.src := by
  unfold argRest at h
  repeat' split at h
  all_goals first
    | (rw [Option.some.injEq, Prod.mk.injEq] at h
       rw [← h.1])
    | exact absurd h (by simp)

theorem argRest_stop {g : AScan} {esc : Bool} {c : Byte} (h : argRest g esc c = none) :
    c = ch ',' ∨ c = ch ')' := by
  unfold argRest at h
  repeat' split at h
  all_goals first
    | (exfalso; simp at h; done)
    | (rename_i hc; exact hc.1)

theorem argChar_src {st st' : AScan} {esc esc' : Bool} {c : Byte} (h : argChar st esc c = some (st', esc')) :
    st'.src = st.src ++ [c] := by
  rw [argChar_eq] at h
  split at h
  · rw [Option.some.injEq, Prod.mk.injEq] at h
    rw [← h.1]
    rfl
  · rw [argRest_src h]
    split <;> rfl

theorem argChar_stop {st : AScan} {esc : Bool} {c : Byte} (h : argChar st esc c = none) :
    c = ch ',' ∨ c = ch ')' := by
  rw [argChar_eq] at h
  split at h
  · simp at h
  · exact argRest_stop h

theorem argLine_inv (s : List Byte) : ∀ (st : AScan) (esc : Bool) (i : Nat),
    match argLine st esc i s with
    | .inl (j, src) => ∃ g c r, s = g ++ c :: r ∧ j = i + g.length ∧ src = st.src ++ g ∧ (c = ch ',' ∨ c = ch ')')
    | .inr st' => st'.src = st.src ++ s := by
  induction s with
  | nil => intro st esc i; simp [argLine]
  | cons b s ih =>
    intro st esc i
    rw [argLine]
    cases h : argChar st esc b with
    | none => exact ⟨[], b, s, rfl, rfl, by simp, argChar_stop h⟩
    | some p =>
      obtain ⟨st', esc'⟩ := p
      have := ih st' esc' (i + 1)
      have hs := argChar_src h
      simp only
      split at this
      next j src e =>
        obtain ⟨g, c, r, h1, h2, h3, h4⟩ := this
        exact ⟨b :: g, c, r, by rw [h1]; rfl, by rw [h2]; simp; omega, by rw [h3, hs]; simp, h4⟩
      next st'' e =>
        rw [this, hs]
        simp

theorem argLines_inv (lines : List (List Byte)) (ls : List (List Byte)) : ∀ (st : AScan) (k off : Nat)
    (src : List Byte) (q : FPos), lines.drop k = ls → argLines st k off ls = some (src, q) →
    ∃ g c, src = st.src ++ g ∧ (c = ch ',' ∨ c = ch ')') ∧ TextTo lines ⟨k, off⟩ q g c := by
  induction ls with
  | nil => intro st k off src q _ h; simp [argLines] at h
  | cons l ls ih =>
    intro st k off src q hk h
    rw [argLines] at h
    have hl := argLine_inv (l.drop off) st false off
    split at h
    next i s e =>
      rw [e] at hl
      obtain ⟨rfl, rfl⟩ : s = src ∧ (⟨k, i⟩ : FPos) = q := by simpa using h
      obtain ⟨g, c, r, h1, rfl, h3, h4⟩ := hl
      exact ⟨g, c, h3, h4, reads_same hk h1⟩
    next st' e =>
      rw [e] at hl
      have hk' : lines.drop (k + 1) = ls := by
        rw [← List.drop_drop, hk]
        rfl
      obtain ⟨g, c, h1, h2, h3⟩ := ih st' (k + 1) 0 src q hk' h
      refine ⟨l.drop off ++ g, c, ?_, h2, reads_next hk h3⟩
      rw [h1]
      simp only at hl
      rw [hl]
      simp

theorem parseArg_inv {lines : List (List Byte)} {p q : FPos} {src : List Byte}
    (h : parseArg lines p = some (src, q)) :
    ∃ c, (c = ch ',' ∨ c = ch ')') ∧ TextTo lines p q src c := by
  obtain ⟨g, c, h1, h2, h3⟩ := argLines_inv lines _ _ _ _ _ _ rfl h
  have : src = g := by simpa [AScan.init] using h1
  exact ⟨c, h2, this ▸ h3⟩

/-- Arguments, each preceded by a comma (the first one by whatever stood before). -/
def commaPre : List (List Byte) → List Byte
  | [] => []
  | a :: l => ch ',' :: (a ++ commaPre l)

theorem commaSep_cons (a : List Byte) (l : List (List Byte)) : commaSep (a :: l) = a ++ commaPre l := by
  induction l generalizing a with
  | nil => simp [commaSep, commaPre]
  | cons b l ih => rw [commaSep, ih, commaPre]

/-- The loop from a comma or from the closing parenthesis on. -/
theorem argsLoop_inv (lines : List (List Byte)) : ∀ (fuel : Nat) (p : FPos) (args res : List (List Byte)) (q : FPos)
    (c : Byte), charAt lines p = some c → argsLoop lines fuel p args = some (res, q) →
    (c = ch ')' ∧ res = args ∧ q = p) ∨
    (c ≠ ch ')' ∧ ∃ a l, res = args ++ a :: l ∧
      TextTo lines ⟨p.line, p.off + 1⟩ q (a ++ commaPre l) (ch ')')) := by
  intro fuel
  induction fuel with
  | zero => intro p args res q c _ h; simp [argsLoop] at h
  | succ fuel ih =>
    intro p args res q c hc h
    rw [argsLoop, hc] at h
    simp only at h
    split at h
    next hcp =>
      obtain ⟨rfl, rfl⟩ : args = res ∧ p = q := by simpa using h
      exact .inl ⟨hcp, rfl, rfl⟩
    next hcp =>
      right
      refine ⟨hcp, ?_⟩
      split at h
      · simp at h
      next src r hp =>
        obtain ⟨d, hd, hr⟩ := parseArg_inv hp
        rcases ih r (args ++ [src]) res q d hr.here h with ⟨rfl, rfl, rfl⟩ | ⟨hdp, a, l, rfl, hl⟩
        · exact ⟨src, [], by simp, by simpa [commaPre] using hr⟩
        · obtain rfl : d = ch ',' := hd.resolve_right hdp
          refine ⟨src, a :: l, by simp, ?_⟩
          exact hr.trans hl

/-- `parseLogStatement`, for all inputs: what stands between the name and the semicolon are the opening
parenthesis, the arguments separated by commas, and the closing parenthesis. -/
theorem parseStmt_inv {lines : List (List Byte)} {p : FPos} {s : LogStmt} (h : parseStmt lines p = some s) :
    ∃ g1 g2, (∀ x ∈ g1, pySpace x = true) ∧ (∀ x ∈ g2, pySpace x = true) ∧ s.args ≠ [] ∧
      TextTo lines p s.semicolon (g1 ++ ch '(' :: (commaSep s.args ++ ch ')' :: g2)) (ch ';') := by
  unfold parseStmt at h
  split at h
  · simp at h
  next c openP hp =>
    split at h
    · simp at h
    next hc =>
      obtain rfl : c = ch '(' := by simpa using hc
      split at h
      · simp at h
      next args closeP ha =>
        split at h
        · simp at h
        next d q hq =>
          split at h
          · simp at h
          next hd =>
            obtain rfl : d = ch ';' := by simpa using hd
            obtain rfl : (⟨openP, closeP, q, args⟩ : LogStmt) = s := by simpa using h
            obtain ⟨g1, hg1, r1⟩ := peekChar_inv hp
            obtain ⟨g2, hg2, r2⟩ := peekChar_inv hq
            rcases argsLoop_inv lines _ _ _ _ _ _ r1.here ha with ⟨h0, -⟩ | ⟨-, a, l, rfl, r3⟩
            · exact absurd h0 (by decide)
            · refine ⟨g1, g2, hg1, hg2, by simp, ?_⟩
              have := (r1.trans r3).trans r2
              rw [List.nil_append, commaSep_cons]
              simpa using this

end NanoLog
