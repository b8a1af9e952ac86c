import Verif.PreFileParse

/-!
# One replacement by `processFile`
-/

namespace NanoLog

/-! ## Where a statement is found -/

theorem matchName_true (p : List Byte) : ∀ s, matchName s p = some true → ∃ r, s = p ++ r := by
  induction p with
  | nil => intro s _; exact ⟨s, rfl⟩
  | cons c p ih =>
    intro s h
    cases s with
    | nil => simp [matchName] at h
    | cons b s =>
      rw [matchName] at h
      by_cases hb : b = c
      · simp only [hb, ne_eq, not_true_eq_false, if_false] at h
        obtain ⟨r, rfl⟩ := ih s h
        exact ⟨r, by rw [hb]; rfl⟩
      · simp [hb] at h

theorem scanLine_found (lines : List (List Byte)) (s : List Byte) : ∀ (i : Nat) (esc inQ : Bool) (last : Byte)
    (j : Nat), scanLine lines s i esc inQ last = .found j → ∃ g r, s = g ++ (nanoLog ++ r) ∧ j = i + g.length := by
  induction s with
  | nil => intro i esc inQ last j h; simp [scanLine] at h
  | cons c s ih =>
    intro i esc inQ last j h
    have next : ∀ {esc inQ last}, scanLine lines s (i + 1) esc inQ last = .found j →
        ∃ g r, c :: s = g ++ (nanoLog ++ r) ∧ j = i + g.length := by
      intro esc inQ last h
      obtain ⟨g, r, rfl, rfl⟩ := ih _ _ _ _ _ h
      exact ⟨c :: g, r, rfl, by simp; omega⟩
    rw [scanLine] at h
    split at h
    · exact next h
    · simp only at h
      generalize (if c = ch '"' then !inQ else inQ) = inQ' at h
      split at h
      · split at h
        · simp at h
        · exact next h
        next hm =>
          split at h
          · exact next h
          · split at h
            · simp at h
            · split at h
              · exact next h
              · obtain ⟨r, hr⟩ := matchName_true _ _ hm
                refine ⟨[], r, hr, ?_⟩
                simpa using h.symm
      · exact next h

/-! ## Text without line markers inside -/

/-- No line of the text, except for the first one, starts with `#`. -/
def NoHash (t : List Byte) : Prop := ∀ a b, t ≠ a ++ 10 :: ch '#' :: b

theorem noHash_append {a b : List Byte} (ha : NoHash a) (hb : NoHash b) (h : b.head? ≠ some (ch '#')) :
    NoHash (a ++ b) := by
  intro x y e
  rcases List.append_eq_append_iff.1 e with ⟨u, h1, h2⟩ | ⟨u, h1, h2⟩
  · exact hb u y h2
  · cases u with
    | nil => exact hb [] y (by simpa using h2.symm)
    | cons c u =>
      obtain ⟨rfl, h3⟩ : (10 : Byte) = c ∧ ch '#' :: y = u ++ b := by simpa using h2
      cases u with
      | nil =>
        apply h
        rw [← List.nil_append b, ← h3]
        rfl
      | cons d u =>
        obtain ⟨rfl, h4⟩ : ch '#' = d ∧ y = u ++ b := by simpa using h3
        exact ha x u h1

theorem noHash_of_not_mem {a : List Byte} (h : ch '#' ∉ a) : NoHash a := by
  intro x y e
  exact h (by rw [e]; simp)

theorem noHash_gap {a : List Byte} (h : ∀ x ∈ a, pySpace x = true) : NoHash a :=
  noHash_of_not_mem fun hc => by simpa [pySpace, ch] using h _ hc

theorem noHash_cons {c : Byte} {a : List Byte} (hc : c ≠ 10) (ha : NoHash a) : NoHash (c :: a) := by
  intro x y e
  cases x with
  | nil => exact hc (by simpa using (List.cons.inj e).1)
  | cons d x => exact ha x y (List.cons.inj e).2

theorem noHash_commaPre {l : List (List Byte)} (h : ∀ a ∈ l, NoHash a) : NoHash (commaPre l) := by
  induction l with
  | nil => exact noHash_of_not_mem (by simp [commaPre])
  | cons a l ih =>
    rw [commaPre]
    refine noHash_cons (by decide) (noHash_append (h a (by simp)) (ih fun b hb => h b (by simp [hb])) ?_)
    cases l with
    | nil => simp [commaPre]
    | cons b l => exact fun h => absurd (Option.some.inj h) (by decide)

theorem noHash_stmt {args : List (List Byte)} {g1 g2 : List Byte} (h1 : ∀ x ∈ g1, pySpace x = true)
    (h2 : ∀ x ∈ g2, pySpace x = true) (h : ∀ a ∈ args, NoHash a) :
    NoHash (g1 ++ ch '(' :: (commaSep args ++ ch ')' :: g2)) := by
  refine noHash_append (noHash_gap h1) (noHash_cons (by decide) (noHash_append ?_
    (noHash_cons (by decide) (noHash_gap h2)) (fun h => absurd (Option.some.inj h) (by decide))))
    (fun h => absurd (Option.some.inj h) (by decide))
  cases args with
  | nil => exact noHash_of_not_mem (by simp [commaSep])
  | cons a l =>
    rw [commaSep_cons]
    refine noHash_append (h a (by simp)) (noHash_commaPre fun b hb => h b (by simp [hb])) ?_
    cases l with
    | nil => simp [commaPre]
    | cons b l => exact fun h => absurd (Option.some.inj h) (by decide)

theorem dirOf_of_head {l : List Byte} (h : l.head? ≠ some (ch '#')) : dirOf l = none := by
  cases l with
  | nil => rfl
  | cons c s => exact dirOf_not_hash fun e => h (by rw [e]; rfl)

theorem noHash_lines (mids : List (List Byte)) : ∀ (y m1 : List Byte), (∀ l ∈ mids, ∃ b, l = b ++ [10]) →
    NoHash ((y ++ [10]) ++ (mids.flatten ++ m1)) →
    (∀ l ∈ mids, dirOf l = none) ∧ m1.head? ≠ some (ch '#') := by
  induction mids with
  | nil =>
    intro y m1 _ h
    refine ⟨by simp, fun hc => ?_⟩
    cases m1 with
    | nil => simp at hc
    | cons c m =>
      obtain rfl : c = ch '#' := by simpa using hc
      exact h y m (by simp)
  | cons l mids ih =>
    intro y m1 hm h
    obtain ⟨b, hb⟩ := hm l (by simp)
    have h' : NoHash (((y ++ [10] ++ b) ++ [10]) ++ (mids.flatten ++ m1)) := by
      have : y ++ [10] ++ b ++ [10] ++ (mids.flatten ++ m1) = y ++ [10] ++ ((l :: mids).flatten ++ m1) := by
        rw [hb]; simp
      rwa [this]
    obtain ⟨h1, h2⟩ := ih _ _ (fun x hx => hm x (by simp [hx])) h'
    refine ⟨?_, h2⟩
    intro x hx
    rcases List.mem_cons.1 hx with rfl | hx
    · refine dirOf_of_head fun hc => ?_
      cases x with
      | nil => simp at hc
      | cons c m =>
        obtain rfl : c = ch '#' := by simpa using hc
        exact h y (m ++ (mids.flatten ++ m1)) (by simp)
    · exact h1 x hx

/-! ## Locations of lines without markers -/

theorem loc_plain {ls : List (List Byte)} (h : ∀ l ∈ ls, dirOf l = none) : ∀ f n,
    locL f n ls = (f, n + ls.length) := by
  induction ls with
  | nil => intro f n; rfl
  | cons l ls ih =>
    intro f n
    rw [locL, h l (by simp)]
    simp only
    rw [ih (fun x hx => h x (by simp [hx]))]
    simp; omega

theorem bytes_plain {ls : List (List Byte)} (h : ∀ l ∈ ls, dirOf l = none) : ∀ f n,
    (placeL f n ls).map PChar.b = noSpace ls.flatten := by
  induction ls with
  | nil => intro f n; rfl
  | cons l ls ih =>
    intro f n
    rw [placeL, h l (by simp)]
    simp only
    rw [List.map_append, placeLine_bytes, ih (fun x hx => h x (by simp [hx])), List.flatten_cons, noSpace_append]

theorem placeL_plain {l : List Byte} (h : dirOf l = none) (f : List Byte) (n : Nat) (ls : List (List Byte)) :
    placeL f n (l :: ls) = placeLine f n 0 l ++ placeL f (n + 1) ls := by
  rw [placeL, h]

theorem placeL_marker {l g : List Byte} {m : Nat} (h : dirOf l = some (m, g)) (f : List Byte) (n : Nat)
    (ls : List (List Byte)) : placeL f n (l :: ls) = placeL g m ls := by
  rw [placeL, h]

theorem locL_plain {l : List Byte} (h : dirOf l = none) (f : List Byte) (n : Nat) (ls : List (List Byte)) :
    locL f n (l :: ls) = locL f (n + 1) ls := by
  rw [locL, h]

theorem locL_marker {l g : List Byte} {m : Nat} (h : dirOf l = some (m, g)) (f : List Byte) (n : Nat)
    (ls : List (List Byte)) : locL f n (l :: ls) = locL g m ls := by
  rw [locL, h]

theorem placeLine_crlf (f : List Byte) (n c : Nat) (a : List Byte) :
    placeLine f n c (a ++ crlf) = placeLine f n c a := by
  rw [placeLine_append, placeLine_space f n crlf (by decide)]
  simp

theorem placeLine_nl (f : List Byte) (n c : Nat) (a : List Byte) :
    placeLine f n c (a ++ [10]) = placeLine f n c a := by
  rw [placeLine_append, placeLine_space f n [10] (by decide)]
  simp

/-- The injected lines. -/
theorem inject_lines {h x f fn : List Byte} {n : Nat} (hh : (10 : Byte) ∉ h) (hx : (10 : Byte) ∉ x)
    (hf : (10 : Byte) ∉ f) (hfn : (10 : Byte) ∉ fn) :
    readLines (injectLine (h ++ (nanoLog ++ (x ++ [10]))) h.length n f fn) =
      [h ++ crlf, markerLine n (pyLit "injectedCode.fake"), pyLit "{ " ++ fn ++ crlf, markerLine n f,
        spaces (h.length + 8) ++ x ++ [10]] := by
  have hm : ∀ (g : List Byte), (10 : Byte) ∉ g → ∃ y, (10 : Byte) ∉ y ∧ markerLine n g = y ++ [10] := by
    intro g hg
    refine ⟨pyLit "# " ++ pyDec n ++ pyLit " \"" ++ g ++ pyLit "\"" ++ [13], ?_, by simp [markerLine, crlf]⟩
    simp only [List.mem_append, not_or]
    refine ⟨⟨⟨⟨⟨by decide, ?_⟩, by decide⟩, hg⟩, by decide⟩, by decide⟩
    intro hc
    exact absurd (pyDec_digits n 10 hc).1 (by decide)
  obtain ⟨y1, hy1, e1⟩ := hm (pyLit "injectedCode.fake") (by decide)
  obtain ⟨y2, hy2, e2⟩ := hm f hf
  have ht : (h ++ (nanoLog ++ (x ++ [10]))).take h.length = h := by simp
  have hd : (h ++ (nanoLog ++ (x ++ [10]))).drop (h.length + nanoLog.length) = x ++ [10] := by
    rw [← List.drop_drop, List.drop_left, List.drop_left]
  have hr : rjust (x ++ [10]) (h ++ (nanoLog ++ (x ++ [10]))).length = spaces (h.length + 8) ++ (x ++ [10]) := by
    rw [rjust]
    congr 2
    have : nanoLog.length = 8 := by decide
    simp [this]
    omega
  have hs : (10 : Byte) ∉ spaces (h.length + 8) := by
    intro hc
    exact absurd (List.eq_of_mem_replicate hc) (by decide)
  unfold injectLine
  rw [ht, hd, hr, e1, e2]
  have a1 : (10 : Byte) ∉ h ++ [13] := by simp only [List.mem_append, not_or]; exact ⟨hh, by decide⟩
  have a2 : (10 : Byte) ∉ pyLit "{ " ++ fn ++ [13] := by
    simp only [List.mem_append, not_or]; exact ⟨⟨by decide, hfn⟩, by decide⟩
  have a3 : (10 : Byte) ∉ spaces (h.length + 8) ++ x := by
    simp only [List.mem_append, not_or]; exact ⟨hs, hx⟩
  have E : h ++ (crlf ++ (y1 ++ [10] ++ (pyLit "{ " ++ fn ++ (crlf ++ (y2 ++ [10] ++
      (spaces (h.length + 8) ++ (x ++ [10]))))))) =
      (h ++ [13]) ++ 10 :: (y1 ++ 10 :: ((pyLit "{ " ++ fn ++ [13]) ++ 10 :: (y2 ++ 10 ::
        ((spaces (h.length + 8) ++ x) ++ 10 :: [])))) := by
    simp [crlf]
  rw [E, readLines_cons a1, readLines_cons hy1, readLines_cons a2, readLines_cons hy2, readLines_cons a3]
  simp [crlf, readLines]

theorem inject_place {h x f fn : List Byte} {n : Nat} (hh : (10 : Byte) ∉ h) (hx : (10 : Byte) ∉ x)
    (hf : (10 : Byte) ∉ f) (hfn : (10 : Byte) ∉ fn) (hd : dirOf (h ++ crlf) = none) (g : List Byte) (k : Nat)
    (hg : g = f ∧ k = n) :
    placeL g k (readLines (injectLine (h ++ (nanoLog ++ (x ++ [10]))) h.length n f fn)) =
      placeLine f n 0 h ++ (placeLine (pyLit "injectedCode.fake") n 0 (pyLit "{ " ++ fn) ++
        placeLine f n (h.length + 8) x) ∧
    locL g k (readLines (injectLine (h ++ (nanoLog ++ (x ++ [10]))) h.length n f fn)) = (f, n + 1) := by
  obtain ⟨rfl, rfl⟩ := hg
  have d1 := dirOf_markerLine k (f := pyLit "injectedCode.fake") (by decide)
  have d2 := dirOf_markerLine k hf
  have d3 : dirOf (pyLit "{ " ++ fn ++ crlf) = none := dirOf_not_hash (by decide)
  have d4 : dirOf (spaces (h.length + 8) ++ x ++ [10]) = none := dirOf_not_hash (c := ch ' ') (by decide)
  rw [inject_lines hh hx hf hfn]
  constructor
  · rw [placeL_plain hd, placeL_marker d1, placeL_plain d3, placeL_marker d2, placeL_plain d4, placeLine_crlf,
      placeLine_crlf, placeLine_nl, placeLine_append _ _ (spaces _), placeLine_spaces]
    simp [placeL, spaces]
  · rw [locL_plain hd, locL_marker d1, locL_plain d3, locL_marker d2, locL_plain d4]
    rfl

/-! ## The replacement -/

theorem linesOK_split {a b : List (List Byte)} {l : List Byte} (h : LinesOK (a ++ l :: b)) :
    (∀ x ∈ a, ∃ y, (10 : Byte) ∉ y ∧ x = y ++ [10]) ∧ LinesOK (l :: b) := by
  induction a with
  | nil => exact ⟨by simp, h⟩
  | cons x a ih =>
    rcases h with ⟨hx, h⟩ | ⟨h, -⟩
    · obtain ⟨h1, h2⟩ := ih h
      refine ⟨?_, h2⟩
      intro z hz
      rcases List.mem_cons.1 hz with rfl | hz
      · exact hx
      · exact h1 z hz
    · simp at h

theorem linesOK_join {a b : List (List Byte)} (h1 : ∀ x ∈ a, ∃ y, (10 : Byte) ∉ y ∧ x = y ++ [10])
    (h2 : LinesOK b) : LinesOK (a ++ b) := by
  induction a with
  | nil => exact h2
  | cons x a ih => exact .inl ⟨h1 x (by simp), ih fun y hy => h1 y (by simp [hy])⟩

/-- The tail of a line after an offset. -/
theorem linesOK_tail {m t : List Byte} {b : List (List Byte)} (h : LinesOK ((m ++ ch ';' :: t) :: b)) (k : Nat) :
    LinesOK ((spaces k ++ t) :: b) ∧ (10 : Byte) ∉ m := by
  have hs : (10 : Byte) ∉ spaces k := by
    intro hc
    exact absurd (List.eq_of_mem_replicate hc) (by decide)
  rcases h with ⟨⟨y, hy, e⟩, h⟩ | ⟨rfl, h⟩
  · rcases List.eq_nil_or_concat t with rfl | ⟨t', c, rfl⟩
    · have e' : m ++ [ch ';'] = y ++ [10] := e
      exact absurd (List.append_inj' e' rfl).2 (by decide)
    · have e' : (m ++ ch ';' :: t') ++ [c] = y ++ [10] := by rw [← e]; simp
      obtain ⟨rfl, e2⟩ := List.append_inj' e' rfl
      obtain rfl : c = 10 := by simpa using e2
      simp only [List.mem_append, List.mem_cons, not_or] at hy
      refine ⟨.inl ⟨⟨spaces k ++ t', ?_, by simp⟩, h⟩, hy.1⟩
      simp only [List.mem_append, not_or]
      exact ⟨hs, hy.2.2⟩
  · simp only [List.mem_append, List.mem_cons, not_or] at h
    refine ⟨.inr ⟨rfl, ?_⟩, h.1⟩
    simp only [List.mem_append, not_or]
    exact ⟨hs, h.2.2⟩

/-- The entries behind the statement: closing brace, marker, rest of the line. -/
theorem semi_place {f m t : List Byte} {a : Nat} {rest : List (List Byte)} (hf : (10 : Byte) ∉ f)
    (hm : dirOf (m ++ ch ';' :: t) = none) (hm' : dirOf (m ++ ch ';' :: crlf) = none) :
    placeL f a ((m ++ ch ';' :: t) :: rest) =
      placeLine f a 0 m ++ (⟨f, a, m.length, ch ';'⟩ :: (placeLine f a (m.length + 1) t ++ placeL f (a + 1) rest)) ∧
    placeL f a ((m ++ ch ';' :: crlf) :: (pyLit "}" ++ crlf) :: markerLine a f ::
        (spaces (m.length + 1) ++ t) :: rest) =
      placeLine f a 0 m ++ (⟨f, a, m.length, ch ';'⟩ :: ⟨f, a + 1, 0, ch '}'⟩ ::
        (placeLine f a (m.length + 1) t ++ placeL f (a + 1) rest)) := by
  have hsc : pySpace (ch ';') = false := by decide
  have d1 : dirOf (pyLit "}" ++ crlf) = none := dirOf_not_hash (c := ch '}') (by decide)
  have d2 := dirOf_markerLine a hf
  have d3 : dirOf (spaces (m.length + 1) ++ t) = none := dirOf_not_hash (c := ch ' ') (by decide)
  constructor
  · rw [placeL_plain hm, placeLine_append, placeLine, hsc]
    simp
  · rw [placeL_plain hm', placeL_plain d1, placeL_marker d2, placeL_plain d3, placeLine_append, placeLine, hsc,
      placeLine_crlf, placeLine_append (a := spaces (m.length + 1)), placeLine_spaces,
      placeLine_space f a crlf (by decide)]
    have : placeLine f (a + 1) 0 (pyLit "}") = [⟨f, a + 1, 0, ch '}'⟩] := by
      rw [show pyLit "}" = [ch '}'] from rfl, placeLine, show pySpace (ch '}') = false by decide]
      rfl
    simp [this, spaces]

theorem charAt_split {lines : List (List Byte)} {q : FPos} {c : Byte} (h : charAt lines q = some c) :
    ∃ a l m t b, lines = a ++ l :: b ∧ l = m ++ c :: t ∧ a.length = q.line ∧ m.length = q.off := by
  unfold charAt at h
  cases hl : lines[q.line]? with
  | none => simp [hl] at h
  | some l =>
    simp only [hl, Option.bind_some] at h
    obtain ⟨h1, e1⟩ := List.getElem?_eq_some_iff.1 hl
    obtain ⟨h2, e2⟩ := List.getElem?_eq_some_iff.1 h
    refine ⟨lines.take q.line, l, l.take q.off, l.drop (q.off + 1), lines.drop (q.line + 1), ?_, ?_, ?_, ?_⟩
    · rw [← e1, ← List.drop_eq_getElem_cons h1, List.take_append_drop]
    · rw [← e2, ← List.drop_eq_getElem_cons h2, List.take_append_drop]
    · simp; omega
    · simp; omega

theorem noSpace_stmt {args : List (List Byte)} {g1 g2 : List Byte} (h1 : ∀ x ∈ g1, pySpace x = true)
    (h2 : ∀ x ∈ g2, pySpace x = true) :
    noSpace (g1 ++ ch '(' :: (commaSep args ++ ch ')' :: g2)) ++ [ch ';'] =
      noSpace (ch '(' :: (commaSep args ++ asc ");")) := by
  have e1 : ∀ x : List Byte, noSpace (ch '(' :: x) = ch '(' :: noSpace x := fun x => rfl
  have e2 : ∀ x : List Byte, noSpace (ch ')' :: x) = ch ')' :: noSpace x := fun x => rfl
  rw [noSpace_append, noSpace_gap h1, e1, noSpace_append, e2, noSpace_gap h2, e1, noSpace_append]
  have : noSpace (asc ");") = [ch ')', ch ';'] := by decide
  rw [this]
  simp

/-- Names of record functions contain no newline. -/
theorem recordFn_inv {prev : List Stmt} {t : Stmt} {fn : List Byte} (h : recordFn prev t = some fn) :
    fn = pyLit "__syang0__fl" ++ t.id ∧ (10 : Byte) ∉ fn := by
  unfold recordFn at h
  split at h
  · obtain rfl : _ = fn := by simpa using h
    refine ⟨rfl, ?_⟩
    have ha : ∀ l : List Byte, (∀ b ∈ l, pyAlnum b = true) → (10 : Byte) ∉ l := fun l hl hc =>
      absurd (hl 10 hc) (by decide)
    simp only [Stmt.id, logIdStr, List.mem_append, not_or]
    exact ⟨by decide, ⟨⟨⟨⟨⟨by decide, ha _ (encStr_alnum _)⟩, by decide⟩, ha _ (encStr_alnum _)⟩, by decide⟩,
      ha _ (pyDec_alnum _)⟩, by decide⟩
  · simp at h

theorem inject_end (h x f fn : List Byte) (n : Nat) :
    ∃ y, injectLine (h ++ (nanoLog ++ (x ++ [10]))) h.length n f fn = y ++ [10] := by
  have hd : (h ++ (nanoLog ++ (x ++ [10]))).drop (h.length + nanoLog.length) = x ++ [10] := by
    rw [← List.drop_drop, List.drop_left, List.drop_left]
  unfold injectLine
  rw [hd, rjust]
  exact ⟨(h ++ (nanoLog ++ (x ++ [10]))).take h.length ++ (crlf ++ (markerLine n (pyLit "injectedCode.fake") ++
    (pyLit "{ " ++ fn ++ (crlf ++ (markerLine n f ++
      (spaces ((h ++ (nanoLog ++ (x ++ [10]))).length - (x ++ [10]).length) ++ x)))))), by simp⟩

theorem markerLine_line (n : Nat) {f : List Byte} (hf : (10 : Byte) ∉ f) :
    ∃ y, (10 : Byte) ∉ y ∧ markerLine n f = y ++ [10] := by
  refine ⟨pyLit "# " ++ pyDec n ++ pyLit " \"" ++ f ++ pyLit "\"" ++ [13], ?_, by simp [markerLine, crlf]⟩
  simp only [List.mem_append, not_or]
  refine ⟨⟨⟨⟨⟨by decide, ?_⟩, by decide⟩, hf⟩, by decide⟩, by decide⟩
  intro hc
  exact absurd (pyDec_digits n 10 hc).1 (by decide)

theorem noSpace_semi (x : List Byte) : noSpace (x ++ [ch ';']) = noSpace x ++ [ch ';'] := by
  rw [noSpace_append]
  rfl

/-- A statement within one line. -/
theorem edit_same {h x t fn : List Byte} {ls args : List (List Byte)} {T : Stmt}
    (hh : (10 : Byte) ∉ h) (hx : (10 : Byte) ∉ x) (hf : (10 : Byte) ∉ T.file) (hfn : (10 : Byte) ∉ fn)
    (efn : fn = pyLit "__syang0__fl" ++ T.id)
    (hdir : dirOf (h ++ (nanoLog ++ (x ++ ch ';' :: t))) = none)
    (hB : noSpace x ++ [ch ';'] = noSpace (ch '(' :: (commaSep args ++ asc ");")))
    (hargs : ∃ fmtArg rest, args = T.level :: fmtArg :: rest ∧ fmtOfArg fmtArg = some T.fmt) :
    Edit T args (placeL T.file T.line ((h ++ (nanoLog ++ (x ++ ch ';' :: t))) :: ls))
      (placeL T.file T.line (readLines (injectLine (h ++ (nanoLog ++ ((x ++ [ch ';', 13]) ++ [10]))) h.length
        T.line T.file fn) ++ ((pyLit "}" ++ crlf) :: markerLine T.line T.file ::
          (spaces (h.length + (8 + x.length) + 1) ++ t) :: ls))) ∧
    locL T.file T.line (readLines (injectLine (h ++ (nanoLog ++ ((x ++ [ch ';', 13]) ++ [10]))) h.length
        T.line T.file fn)) = (T.file, T.line + 1) := by
  have hx10 : (10 : Byte) ∉ x ++ [ch ';', 13] := by
    simp only [List.mem_append, not_or]
    exact ⟨hx, by decide⟩
  have hdh : dirOf (h ++ crlf) = none := dirOf_head hh hdir
  obtain ⟨hpl, hlo⟩ := inject_place (n := T.line) (f := T.file) hh hx10 hf hfn hdh _ _ ⟨rfl, rfl⟩
  refine ⟨?_, hlo⟩
  have hn8 : nanoLog.length = 8 := by decide
  have hsc : pySpace (ch ';') = false := by decide
  have d1 : dirOf (pyLit "}" ++ crlf) = none := dirOf_not_hash (c := ch '}') (by decide)
  have d2 := dirOf_markerLine T.line hf
  have d3 : dirOf (spaces (h.length + (8 + x.length) + 1) ++ t) = none := by
    rw [spaces, List.replicate_succ]
    exact dirOf_not_hash (c := ch ' ') (by decide)
  have hbr : placeLine T.file (T.line + 1) 0 (pyLit "}") = [⟨T.file, T.line + 1, 0, ch '}'⟩] := by
    rw [show pyLit "}" = [ch '}'] from rfl, placeLine, show pySpace (ch '}') = false by decide]
    rfl
  refine ⟨placeLine T.file T.line 0 h, placeLine T.file T.line (h.length + 8) x,
    placeLine T.file T.line (h.length + (8 + x.length) + 1) t ++ placeL T.file (T.line + 1) ls,
    ⟨T.file, T.line, h.length + (8 + x.length), ch ';'⟩, h.length, ?_, ?_, ?_, hargs⟩
  · rw [placeL_plain hdir, placeLine_append, placeLine_append, placeLine_append, placeLine, hsc, hn8]
    have e1 : 0 + h.length + 8 + x.length = h.length + (8 + x.length) := by omega
    have e2 : 0 + h.length = h.length := by omega
    rw [e1, e2]
    simp [pyLit, asc, nanoLog]
  · rw [placeL_append, hpl, hlo, placeL_plain d1, placeL_marker d2, placeL_plain d3, placeLine_crlf, hbr,
      placeLine_append _ _ x, placeLine_append _ _ (spaces _), placeLine_spaces, efn]
    have e1 : h.length + 8 + x.length = h.length + (8 + x.length) := by omega
    have e2 : placeLine T.file T.line (h.length + (8 + x.length)) [ch ';', 13] =
        [⟨T.file, T.line, h.length + (8 + x.length), ch ';'⟩] := by
      rw [placeLine, hsc, placeLine, show pySpace 13 = true by decide]
      rfl
    rw [e1, e2]
    simp [pyLit, asc, spaces]
  · rw [placeLine_bytes]
    exact hB

/-- A statement that ends in a later line. -/
theorem edit_later {h x m t fn : List Byte} {mids rest args : List (List Byte)} {T : Stmt}
    (hh : (10 : Byte) ∉ h) (hx : (10 : Byte) ∉ x) (hf : (10 : Byte) ∉ T.file) (hfn : (10 : Byte) ∉ fn)
    (efn : fn = pyLit "__syang0__fl" ++ T.id)
    (hdir : dirOf (h ++ (nanoLog ++ (x ++ [10]))) = none)
    (hmids : ∀ l ∈ mids, dirOf l = none) (hm : dirOf (m ++ ch ';' :: t) = none)
    (hm' : dirOf (m ++ ch ';' :: crlf) = none)
    (hB : noSpace ((x ++ [10]) ++ (mids.flatten ++ m)) ++ [ch ';'] =
      noSpace (ch '(' :: (commaSep args ++ asc ");")))
    (hargs : ∃ fmtArg rest, args = T.level :: fmtArg :: rest ∧ fmtOfArg fmtArg = some T.fmt) :
    Edit T args (placeL T.file T.line ((h ++ (nanoLog ++ (x ++ [10]))) :: (mids ++ (m ++ ch ';' :: t) :: rest)))
      (placeL T.file T.line (readLines (injectLine (h ++ (nanoLog ++ (x ++ [10]))) h.length
        T.line T.file fn) ++ (mids ++ (m ++ ch ';' :: crlf) :: (pyLit "}" ++ crlf) ::
          markerLine (T.line + (mids.length + 1)) T.file :: (spaces (m.length + 1) ++ t) :: rest))) := by
  have hdh : dirOf (h ++ crlf) = none := dirOf_head hh hdir
  obtain ⟨hpl, hlo⟩ := inject_place (n := T.line) (f := T.file) hh hx hf hfn hdh _ _ ⟨rfl, rfl⟩
  have hn8 : nanoLog.length = 8 := by decide
  have hloc := loc_plain hmids T.file (T.line + 1)
  have en : T.line + 1 + mids.length = T.line + (mids.length + 1) := by omega
  obtain ⟨s1, s2⟩ := semi_place (a := T.line + (mids.length + 1)) (rest := rest) hf hm hm'
  refine ⟨placeLine T.file T.line 0 h, placeLine T.file T.line (h.length + 8) x ++
      (placeL T.file (T.line + 1) mids ++ placeLine T.file (T.line + (mids.length + 1)) 0 m),
    placeLine T.file (T.line + (mids.length + 1)) (m.length + 1) t ++
      placeL T.file (T.line + (mids.length + 1) + 1) rest,
    ⟨T.file, T.line + (mids.length + 1), m.length, ch ';'⟩, h.length, ?_, ?_, ?_, hargs⟩
  · rw [placeL_plain hdir, placeLine_append, placeLine_append, placeLine_nl, hn8, placeL_append, hloc, en, s1]
    have e2 : 0 + h.length = h.length := by omega
    rw [e2]
    simp [pyLit, asc, nanoLog]
  · rw [placeL_append, hpl, hlo, placeL_append, hloc, en, s2, efn]
    simp [pyLit, asc]
  · rw [List.map_append, List.map_append, placeLine_bytes, placeLine_bytes, bytes_plain hmids, ← hB,
      noSpace_append, noSpace_append, noSpace_append]
    simp [noSpace, show pySpace 10 = true by decide]

/-- What one replacement does. -/
structure StmtDone (st st' : PPState) (line : List Byte) (ls ls' : List (List Byte)) : Prop where
  ok : LinesOK ls'
  ne : [] ∉ ls'
  file : st'.file = st.file
  next : st'.next = st.next + 1
  inj : st'.inj = st.inj
  main : ∃ cur t args, st'.done = st.done ++ [cur] ∧ (∃ x, cur = x ++ [10]) ∧
    st'.stmts = st.stmts ++ [(t, args)] ∧ locL st.file st.next (readLines cur) = (st.file, st.next + 1) ∧
    ((∀ a ∈ args, NoHash a) →
      Edit t args (placeL st.file st.next (line :: ls)) (placeL st.file st.next (readLines cur ++ ls')))

theorem ppStmt_done {st st' : PPState} {line h r : List Byte} {ls ls' : List (List Byte)}
    (hok : LinesOK (line :: ls)) (hne : [] ∉ ls) (hf : (10 : Byte) ∉ st.file) (hdir : dirOf line = none)
    (hl : line = h ++ (nanoLog ++ r)) (hstep : ppStmt st line ls h.length = some (st', ls')) :
    StmtDone st st' line ls ls' := by
  unfold ppStmt at hstep
  split at hstep
  · simp at hstep
  next s hp =>
  obtain ⟨g1, g2, hg1, hg2, -, hr⟩ := parseStmt_inv hp
  split at hstep
  next level fmtArg more hargs =>
    split at hstep
    · simp at hstep
    split at hstep
    · simp at hstep
    next fmt hfmt =>
    split at hstep
    · simp at hstep
    next fn hfn =>
    obtain ⟨efn, hfn10⟩ := recordFn_inv hfn
    split at hstep
    next line' ls1 hsplit =>
      split at hstep
      next last hscan =>
        obtain ⟨rfl, rfl⟩ : _ = st' ∧ _ = ls' := by simpa using hstep
        obtain ⟨a, l, m, t, b, e1, e2, e3, e4⟩ := charAt_split hr.here
        have hget : (line :: ls)[s.semicolon.line]? = some l := by
          rw [e1, ← e3]
          simp
        have htake : (line :: ls).take s.semicolon.line = a := by rw [e1, ← e3]; simp
        have hdrop : (line :: ls).drop (s.semicolon.line + 1) = b := by
          rw [e1, ← e3]
          simp
        have hltake : l.take (s.semicolon.off + 1) = m ++ [ch ';'] := by
          rw [e2, ← e4, List.take_append, List.take_of_length_le (by omega)]
          simp
        have hldrop : l.drop (s.semicolon.off + 1) = t := by
          rw [e2, ← e4]
          simp
        unfold splitSemi at hsplit
        rw [hget] at hsplit
        simp only [htake, hdrop, hltake, hldrop] at hsplit
        rw [← e3, ← e4] at hsplit
        have hn8 : nanoLog.length = 8 := by decide
        have htext := hr.text
        have harg' : ∃ fa rest, s.args = (⟨level, fmt, st.first, st.file, st.next⟩ : Stmt).level :: fa :: rest ∧
            fmtOfArg fa = some (⟨level, fmt, st.first, st.file, st.next⟩ : Stmt).fmt :=
          ⟨fmtArg, more, hargs, hfmt⟩
        cases a with
        | nil =>
          -- the semicolon is in the same line
          obtain ⟨rfl, rfl⟩ : line = l ∧ ls = b := by simpa using e1
          have hoff : h.length + 8 ≤ m.length := by
            have := hr.le
            simp only [← e3, List.length_nil, ← e4, hn8] at this
            omega
          -- the text of the statement
          obtain ⟨x, rfl⟩ : ∃ x, m = h ++ (nanoLog ++ x) := by
            have e5 : h ++ (nanoLog ++ r) = m ++ ch ';' :: t := by rw [← hl, e2]
            have e6 : (h ++ nanoLog) ++ r = m ++ ch ';' :: t := by rw [← e5]; simp
            rcases List.append_eq_append_iff.1 e6 with ⟨u, h1, h2⟩ | ⟨u, h1, h2⟩
            · exact ⟨u, by rw [h1]; simp⟩
            · have : u = [] := by
                have := congrArg List.length h1
                simp only [List.length_append, hn8] at this
                exact List.eq_nil_of_length_eq_zero (by omega)
              exact ⟨[], by rw [this] at h1; simp at h1; rw [← h1]; simp⟩
          have hx : x = g1 ++ ch '(' :: (commaSep s.args ++ ch ')' :: g2) := by
            simp only [restAt, ← e3, ← e4, hn8, List.length_nil, List.drop_zero, restL] at htext
            rw [e2] at htext
            have d1 : ((h ++ (nanoLog ++ x)) ++ ch ';' :: t).drop (h.length + 8) = x ++ ch ';' :: t := by
              rw [← hn8, List.append_assoc, List.append_assoc, ← List.drop_drop, List.drop_left, List.drop_left]
            have d2 : ((h ++ (nanoLog ++ x)) ++ ch ';' :: t).drop (h ++ (nanoLog ++ x)).length = ch ';' :: t := by
              rw [List.drop_left]
            rw [d1, d2, ← List.append_assoc] at htext
            exact List.append_cancel_right (List.append_cancel_right htext)
          obtain ⟨hok1, hm10⟩ := linesOK_tail (k := (h ++ (nanoLog ++ x)).length + 1) (e2 ▸ hok)
          simp only [List.mem_append, not_or] at hm10
          have eline : (h ++ (nanoLog ++ x)) ++ [ch ';'] ++ crlf =
              h ++ (nanoLog ++ ((x ++ [ch ';', 13]) ++ [10])) := by simp [crlf]
          obtain ⟨rfl, rfl⟩ : (h ++ (nanoLog ++ x)) ++ [ch ';'] ++ crlf = line' ∧
              (pyLit "}" ++ crlf) :: markerLine st.next st.file ::
                (spaces ((h ++ (nanoLog ++ x)).length + 1) ++ t) :: ls = ls1 := by
            have := Option.some.inj hsplit
            rw [List.nil_append] at this
            exact List.cons.inj this
          have hlen : (h ++ (nanoLog ++ x)).length + 1 = h.length + (8 + x.length) + 1 := by
            simp [hn8]
          have eassoc : line = h ++ (nanoLog ++ (x ++ ch ';' :: t)) := by rw [e2]; simp
          obtain ⟨E, hlo⟩ := edit_same (ls := ls) (t := t) (args := s.args)
            (T := ⟨level, fmt, st.first, st.file, st.next⟩) hm10.1 hm10.2.2 hf hfn10 efn (eassoc ▸ hdir)
            (by rw [hx]; exact noSpace_stmt hg1 hg2) harg'
          rw [← eline] at E hlo
          refine ⟨?_, ?_, rfl, rfl, rfl, _, _, _, rfl, ?_, rfl, hlo, ?_⟩
          · exact .inl ⟨⟨[ch '}', 13], by decide, rfl⟩, .inl ⟨markerLine_line _ hf, hok1⟩⟩
          · simp only [List.mem_cons, not_or]
            exact ⟨by decide, by simp [markerLine, pyLit], by simp [spaces, List.replicate_succ], hne⟩
          · rw [eline]
            exact inject_end _ _ _ _ _
          · intro _
            rw [hlen, eassoc]
            exact E
        | cons a0 mids =>
          -- the semicolon is in a later line
          obtain ⟨rfl, rfl⟩ : line = a0 ∧ ls = mids ++ l :: b := by simpa using e1
          have hok' : LinesOK ((line :: mids) ++ l :: b) := hok
          obtain ⟨hm1, hm2⟩ := linesOK_split hok'
          obtain ⟨y, hy, ey⟩ := hm1 line (by simp)
          obtain ⟨x, rfl⟩ : ∃ x, r = x ++ [10] := by
            rcases List.eq_nil_or_concat r with rfl | ⟨x, c, rfl⟩
            · have e5 : (h ++ pyLit "NANO_LO") ++ [ch 'G'] = y ++ [10] := by
                rw [← ey, hl]
                simp [nanoLog, pyLit]
              exact absurd (List.append_inj' e5 rfl).2 (by decide)
            · have e5 : (h ++ (nanoLog ++ x)) ++ [c] = y ++ [10] := by
                rw [← ey, hl]
                simp
              refine ⟨x, ?_⟩
              rw [List.concat_eq_append, (List.append_inj' e5 rfl).2]
          have hy' : y = h ++ (nanoLog ++ x) := by
            have : y ++ [10] = (h ++ (nanoLog ++ x)) ++ [10] := by rw [← ey, hl]; simp
            exact (List.append_inj' this rfl).1
          rw [hy'] at hy
          simp only [List.mem_append, not_or] at hy
          have hx : (x ++ [10]) ++ (mids.flatten ++ m) = g1 ++ ch '(' :: (commaSep s.args ++ ch ')' :: g2) := by
            have d0 : (line :: (mids ++ l :: b)).drop ((line :: mids).length) = l :: b := by
              show (mids ++ l :: b).drop mids.length = l :: b
              simp
            simp only [restAt, ← e3, ← e4, hn8, d0, List.drop_zero, restL] at htext
            rw [hl, e2] at htext
            have d1 : (h ++ (nanoLog ++ (x ++ [10]))).drop (h.length + 8) = x ++ [10] := by
              rw [← hn8, ← List.drop_drop, List.drop_left, List.drop_left]
            have d2 : (m ++ ch ';' :: t).drop m.length = ch ';' :: t := by
              rw [List.drop_left]
            rw [d1, d2] at htext
            have : ((x ++ [10]) ++ (mids.flatten ++ m)) ++ (ch ';' :: t ++ b.flatten) =
                (g1 ++ ch '(' :: (commaSep s.args ++ ch ')' :: g2)) ++ (ch ';' :: t ++ b.flatten) := by
              rw [← htext]
              simp
            exact List.append_cancel_right this
          obtain ⟨hok1, hm10⟩ := linesOK_tail (k := m.length + 1) (e2 ▸ hm2)
          obtain ⟨rfl, rfl⟩ : line = line' ∧
              mids ++ (m ++ [ch ';'] ++ crlf) :: (pyLit "}" ++ crlf) ::
                markerLine (st.next + (mids.length + 1)) st.file :: (spaces (m.length + 1) ++ t) :: b = ls1 := by
            have := Option.some.inj hsplit
            exact List.cons.inj this
          have esc : m ++ [ch ';'] ++ crlf = m ++ ch ';' :: crlf := by simp
          have hmids : ∀ z ∈ mids, ∃ y, (10 : Byte) ∉ y ∧ z = y ++ [10] := fun z hz => hm1 z (by simp [hz])
          have hdh : dirOf (h ++ crlf) = none := dirOf_head hy.1 (hl ▸ hdir)
          obtain ⟨-, hlo⟩ := inject_place (n := st.next) (f := st.file) hy.1 hy.2.2 hf hfn10 hdh _ _ ⟨rfl, rfl⟩
          refine ⟨?_, ?_, rfl, rfl, rfl, _, _, _, rfl, ?_, rfl, ?_, ?_⟩
          · refine linesOK_join hmids (.inl ⟨⟨m ++ [ch ';', 13], ?_, by simp [crlf]⟩,
              .inl ⟨⟨[ch '}', 13], by decide, rfl⟩, .inl ⟨markerLine_line _ hf, hok1⟩⟩⟩)
            simp only [List.mem_append, not_or]
            exact ⟨hm10, by decide⟩
          · simp only [List.mem_append, List.mem_cons, not_or] at hne ⊢
            exact ⟨hne.1, by simp, by decide, by simp [markerLine, pyLit], by simp [spaces, List.replicate_succ],
              hne.2.2⟩
          · rw [hl]
            exact inject_end _ _ _ _ _
          · rw [hl]
            exact hlo
          · intro hnh
            have hN := noHash_stmt hg1 hg2 hnh
            rw [← hx] at hN
            obtain ⟨n1, n2⟩ := noHash_lines mids x m (fun z hz => (hmids z hz).imp fun _ h => h.2) hN
            have hhead : ∀ u : List Byte, dirOf (m ++ ch ';' :: u) = none := by
              intro u
              refine dirOf_of_head ?_
              cases m with
              | nil => exact fun h => absurd (Option.some.inj h) (by decide)
              | cons c m => exact n2
            have E := edit_later (rest := b) (args := s.args) (T := ⟨level, fmt, st.first, st.file, st.next⟩)
              hy.1 hy.2.2 hf hfn10 efn (hl ▸ hdir) n1 (hhead t) (hhead crlf)
              (by rw [hx]; exact noSpace_stmt hg1 hg2) harg'
            rw [e2, hl, esc]
            exact E
      · simp at hstep
    · simp at hstep
  · simp at hstep

/-! ## The loop -/

/-- What holds between the rounds of the loop; `x` is the text at the beginning. -/
structure PPInv (name : List Byte) (x : List PChar) (st : PPState) (todo : List (List Byte)) : Prop where
  ok : LinesOK todo
  ne : [] ∉ todo
  file : (10 : Byte) ∉ st.file
  nl : todo = [] ∨ st.done.flatten = [] ∨ ∃ y, st.done.flatten = y ++ [10]
  loc : locL name 1 (readLines st.done.flatten) = (st.file, st.next)
  inj : ∀ m, st.inj = some m → ∃ a l b, st.done = a ++ l :: b ∧ a.length = m ∧ hasSub injMarker l = true
  edits : (∀ p ∈ st.stmts, ∀ a ∈ p.2, NoHash a) →
    Edits x (placed name (st.done.flatten ++ todo.flatten)) st.stmts

/-- A line is passed without change. -/
theorem PPInv.pass {name : List Byte} {x : List PChar} {st st' : PPState} {line : List Byte}
    {ls : List (List Byte)} (h : PPInv name x st (line :: ls)) (hd : st'.done = st.done ++ [line])
    (hs : st'.stmts = st.stmts) (hf : (10 : Byte) ∉ st'.file)
    (hl : locL st.file st.next [line] = (st'.file, st'.next))
    (hi : st'.inj = st.inj ∨ st'.inj = some st.done.length ∧ hasSub injMarker line = true) :
    PPInv name x st' ls := by
  have hnl : st.done.flatten = [] ∨ ∃ y, st.done.flatten = y ++ [10] := h.nl.resolve_left (by simp)
  have hne : line ≠ [] := fun e => h.ne (by simp [e])
  have hrl : readLines line = [line] := by
    rcases h.ok with ⟨⟨y, hy, e⟩, -⟩ | ⟨-, hy⟩
    · rw [e, show y ++ [10] = y ++ 10 :: [] from rfl, readLines_cons hy]
      rfl
    · exact readLines_last hy hne
  refine ⟨?_, fun hc => h.ne (by simp [hc]), hf, ?_, ?_, ?_, ?_⟩
  · rcases h.ok with ⟨-, h2⟩ | ⟨rfl, -⟩
    · exact h2
    · trivial
  · rcases h.ok with ⟨⟨y, hy, e⟩, -⟩ | ⟨h2, -⟩
    · refine .inr (.inr ⟨st.done.flatten ++ y, ?_⟩)
      rw [hd, e]
      simp
    · exact .inl h2
  · rw [hd, List.flatten_append, readLines_append hnl, locL_append, h.loc]
    simp only [List.flatten_cons, List.flatten_nil, List.append_nil, hrl]
    exact hl
  · intro m hm
    rcases hi with hi | ⟨hi, hsub⟩
    · obtain ⟨a, l, b, e1, e2, e3⟩ := h.inj m (hi ▸ hm)
      exact ⟨a, l, b ++ [line], by rw [hd, e1]; simp, e2, e3⟩
    · rw [hi] at hm
      exact ⟨st.done, line, [], hd, by simpa using hm, hsub⟩
  · rw [hs, hd]
    simpa using h.edits

theorem ppStep_inv {name : List Byte} {x : List PChar} {st st' : PPState} {line : List Byte}
    {ls ls' : List (List Byte)} (h : PPInv name x st (line :: ls)) (hs : ppStep st line ls = some (st', ls')) :
    PPInv name x st' ls' := by
  unfold ppStep at hs
  split at hs
  next n f hd =>
    obtain ⟨rfl, rfl⟩ : _ = st' ∧ _ = ls' := by simpa using hs
    exact h.pass rfl rfl (dirOf_file hd) (by rw [locL_marker hd]; rfl) (.inl rfl)
  next hd =>
    have hl : locL st.file st.next [line] = (st.file, st.next + 1) := by rw [locL_plain hd]; rfl
    split at hs
    next hi =>
      obtain ⟨rfl, rfl⟩ : _ = st' ∧ _ = ls' := by simpa using hs
      exact h.pass rfl rfl h.file hl (.inr ⟨rfl, hi⟩)
    · split at hs
      · obtain ⟨rfl, rfl⟩ : _ = st' ∧ _ = ls' := by simpa using hs
        exact h.pass rfl rfl h.file hl (.inl rfl)
      · split at hs
        · simp at hs
        · obtain ⟨rfl, rfl⟩ : _ = st' ∧ _ = ls' := by simpa using hs
          exact h.pass rfl rfl h.file hl (.inl rfl)
        next i hscan =>
          obtain ⟨g, r, e1, e2⟩ := scanLine_found _ _ _ _ _ _ _ hscan
          rw [Nat.zero_add] at e2
          subst e2
          have D := ppStmt_done h.ok (fun hc => h.ne (by simp [hc])) h.file hd e1 hs
          obtain ⟨cur, t, args, d1, ⟨y, d2⟩, d3, d4, d5⟩ := D.main
          have hnl : st.done.flatten = [] ∨ ∃ y, st.done.flatten = y ++ [10] := h.nl.resolve_left (by simp)
          have hfl : st'.done.flatten = st.done.flatten ++ cur := by rw [d1]; simp
          have hnl2 : st'.done.flatten = [] ∨ ∃ y, st'.done.flatten = y ++ [10] :=
            .inr ⟨st.done.flatten ++ y, by rw [hfl, d2]; simp⟩
          refine ⟨D.ok, D.ne, D.file ▸ h.file, .inr hnl2, ?_, ?_, ?_⟩
          · rw [hfl, readLines_append hnl, locL_append, h.loc, d4, D.file, D.next]
          · intro m hm
            obtain ⟨a, l, b, e1, e2, e3⟩ := h.inj m (D.inj ▸ hm)
            exact ⟨a, l, b ++ [cur], by rw [d1, e1]; simp, e2, e3⟩
          · intro hN
            rw [d3] at hN ⊢
            have E0 := h.edits fun p hp => hN p (by simp [hp])
            have E1 := d5 (hN (t, args) (by simp))
            refine E0.snoc ?_
            have p1 : placed name (st.done.flatten ++ (line :: ls).flatten) =
                placeL name 1 (readLines st.done.flatten) ++ placeL st.file st.next (line :: ls) := by
              rw [placed, readLines_append hnl, readLines_flatten h.ok h.ne, placeL_append, h.loc]
            have p2 : placed name (st'.done.flatten ++ ls'.flatten) =
                placeL name 1 (readLines st.done.flatten) ++
                  placeL st.file st.next (readLines cur ++ ls') := by
              rw [placed, readLines_append hnl2, readLines_flatten D.ok D.ne, hfl, readLines_append hnl,
                List.append_assoc, placeL_append, h.loc]
            rw [p1, p2]
            obtain ⟨A, B, C, q, col, a1, a2, a3, a4⟩ := E1
            exact ⟨placeL name 1 (readLines st.done.flatten) ++ A, B, C, q, col, by rw [a1]; simp,
              by rw [a2]; simp, a3, a4⟩

theorem ppLoop_inv {name : List Byte} {x : List PChar} (bound : Nat) : ∀ {st st' : PPState}
    {todo : List (List Byte)}, PPInv name x st todo → ppLoop bound st todo = some st' → PPInv name x st' [] := by
  induction bound with
  | zero => intro st st' todo _ h; simp [ppLoop] at h
  | succ k ih =>
    intro st st' todo hi h
    cases todo with
    | nil =>
      obtain rfl : st = st' := by simpa [ppLoop] using h
      exact hi
    | cons l ls =>
      rw [ppLoop] at h
      split at h
      · simp at h
      next st1 ls1 hs => exact ih (ppStep_inv hi hs) h

theorem ppInv_init (name input : List Byte) (hn : (10 : Byte) ∉ name) :
    PPInv name (placed name input) (.init name) (readLines input) := by
  obtain ⟨h1, h2, h3⟩ := readLines_ok input
  refine ⟨h1, h2, hn, .inr (.inl rfl), rfl, fun m hm => by simp [PPState.init] at hm, fun _ => ?_⟩
  have : ([] : List (List Byte)).flatten ++ (readLines input).flatten = input := by rw [h3]; rfl
  show Edits _ (placed name (([] : List (List Byte)).flatten ++ (readLines input).flatten)) []
  rw [this]
  exact .nil

/-! ## Nothing is replaced before the injection marker -/

/-- Before the first line with the injection marker nothing is changed and no statement is accepted. -/
structure PPFirst (input : List Byte) (st : PPState) (todo : List (List Byte)) : Prop where
  before : st.inj = none → st.stmts = [] ∧ st.done.flatten ++ todo.flatten = input
  after : ∀ m, st.inj = some m → ∃ a l b, st.done = a ++ l :: b ∧ a.length ≤ m ∧ m < st.done.length ∧
    hasSub injMarker l = true ∧ (a ++ [l]).flatten <+: input

theorem PPFirst.pass {input : List Byte} {st st' : PPState} {line : List Byte} {ls : List (List Byte)}
    (h : PPFirst input st (line :: ls)) (hd : st'.done = st.done ++ [line]) (hs : st'.stmts = st.stmts)
    (hi : st'.inj = st.inj ∨ st'.inj = some st.done.length ∧ hasSub injMarker line = true) :
    PPFirst input st' ls := by
  refine ⟨fun hn => ?_, fun m hm => ?_⟩
  · rcases hi with hi | ⟨hi, -⟩
    · obtain ⟨h1, h2⟩ := h.before (hi ▸ hn)
      refine ⟨hs.trans h1, ?_⟩
      rw [hd, ← h2]
      simp
    · rw [hi] at hn; cases hn
  · rcases hi with hi | ⟨hi, hl⟩
    · obtain ⟨a, l, b, e1, e2, e3, e4, e5⟩ := h.after m (hi ▸ hm)
      exact ⟨a, l, b ++ [line], by rw [hd, e1]; simp, e2, by rw [hd]; simp; omega, e4, e5⟩
    · rw [hi] at hm
      obtain rfl := Option.some.inj hm
      cases hc : st.inj with
      | none =>
        obtain ⟨-, h2⟩ := h.before hc
        refine ⟨st.done, line, [], by rw [hd], Nat.le_refl _, by rw [hd]; simp, hl, ls.flatten, ?_⟩
        rw [← h2]
        simp
      | some m =>
        obtain ⟨a, l, b, e1, e2, e3, e4, e5⟩ := h.after m hc
        exact ⟨a, l, b ++ [line], by rw [hd, e1]; simp, by omega, by rw [hd]; simp, e4, e5⟩

theorem ppStmt_keeps {st st' : PPState} {line : List Byte} {ls ls' : List (List Byte)} {i : Nat}
    (h : ppStmt st line ls i = some (st', ls')) :
    st.inj ≠ none ∧ st'.inj = st.inj ∧ ∃ cur, st'.done = st.done ++ [cur] := by
  unfold ppStmt at h
  split at h
  · cases h
  · split at h
    · split at h
      · cases h
      rename_i hinj
      repeat' split at h
      all_goals first
        | (obtain ⟨rfl, -⟩ := Prod.mk.inj (Option.some.inj h)
           exact ⟨fun hn => hinj (.inl hn), rfl, _, rfl⟩)
        | cases h
    · cases h

theorem ppStep_first {input : List Byte} {st st' : PPState} {line : List Byte} {ls ls' : List (List Byte)}
    (h : PPFirst input st (line :: ls)) (hs : ppStep st line ls = some (st', ls')) : PPFirst input st' ls' := by
  unfold ppStep at hs
  split at hs
  · obtain ⟨rfl, rfl⟩ : _ = st' ∧ _ = ls' := by simpa using hs
    exact h.pass rfl rfl (.inl rfl)
  · split at hs
    next hi =>
      obtain ⟨rfl, rfl⟩ : _ = st' ∧ _ = ls' := by simpa using hs
      exact h.pass rfl rfl (.inr ⟨rfl, hi⟩)
    · split at hs
      · obtain ⟨rfl, rfl⟩ : _ = st' ∧ _ = ls' := by simpa using hs
        exact h.pass rfl rfl (.inl rfl)
      · split at hs
        · simp at hs
        · obtain ⟨rfl, rfl⟩ : _ = st' ∧ _ = ls' := by simpa using hs
          exact h.pass rfl rfl (.inl rfl)
        · obtain ⟨h1, h2, cur, h3⟩ := ppStmt_keeps hs
          refine ⟨fun hn => absurd (h2 ▸ hn) h1, fun m hm => ?_⟩
          obtain ⟨a, l, b, e1, e2, e3, e4, e5⟩ := h.after m (h2 ▸ hm)
          exact ⟨a, l, b ++ [cur], by rw [h3, e1]; simp, e2, by rw [h3]; simp; omega, e4, e5⟩

theorem ppLoop_first {input : List Byte} (bound : Nat) : ∀ {st st' : PPState} {todo : List (List Byte)},
    PPFirst input st todo → ppLoop bound st todo = some st' → PPFirst input st' [] := by
  induction bound with
  | zero => intro st st' todo _ h; simp [ppLoop] at h
  | succ k ih =>
    intro st st' todo hi h
    cases todo with
    | nil =>
      obtain rfl : st = st' := by simpa [ppLoop] using h
      exact hi
    | cons l ls =>
      rw [ppLoop] at h
      split at h
      · simp at h
      next st1 ls1 hs => exact ih (ppStep_first hi hs) h

end NanoLog
