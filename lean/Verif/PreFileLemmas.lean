import Verif.PreFileSpec
import Verif.Props.PreId

/-!
# Lemmas about `processFile`: line markers, lines, locations
-/

namespace NanoLog

/-! ## Line markers -/

theorem beforeLastQuote_iff (s f : List Byte) :
    beforeLastQuote s = some f ↔ ∃ flags, ch '"' ∉ flags ∧ s = f ++ ch '"' :: flags := by
  have hnone : ∀ s : List Byte, beforeLastQuote s = none ↔ ch '"' ∉ s := by
    intro s
    induction s with
    | nil => simp [beforeLastQuote]
    | cons b s ih =>
      rw [beforeLastQuote]
      cases h : beforeLastQuote s with
      | some t =>
        have : ¬ (ch '"' ∉ s) := fun hc => by rw [ih.2 hc] at h; simp at h
        simp only [reduceCtorEq, List.mem_cons, not_or, false_iff, not_and]
        exact fun _ => this
      | none =>
        have := ih.1 h
        by_cases hb : b = ch '"'
        · simp [hb]
        · simp only [hb, if_false, List.mem_cons, not_or, true_iff]
          exact ⟨fun e => hb e.symm, this⟩
  induction s generalizing f with
  | nil => simp [beforeLastQuote]
  | cons b s ih =>
    rw [beforeLastQuote]
    cases h : beforeLastQuote s with
    | some t =>
      obtain ⟨fl, hfl, hs⟩ := (ih t).1 h
      constructor
      · intro e
        obtain rfl : b :: t = f := by simpa using e
        exact ⟨fl, hfl, by rw [hs]; rfl⟩
      · rintro ⟨fl', hfl', e⟩
        cases f with
        | nil =>
          obtain ⟨rfl, rfl⟩ : b = ch '"' ∧ s = fl' := by simpa using e
          rw [(hnone s).2 hfl'] at h
          simp at h
        | cons c f =>
          obtain ⟨rfl, e'⟩ : b = c ∧ s = f ++ ch '"' :: fl' := by simpa using e
          rw [(ih f).2 ⟨fl', hfl', e'⟩] at h
          obtain rfl : f = t := by simpa using h
          rfl
    | none =>
      have hq := (hnone s).1 h
      constructor
      · intro e
        by_cases hb : b = ch '"'
        · simp only [hb, if_true] at e
          obtain rfl : [] = f := by simpa using e
          exact ⟨s, hq, by rw [hb]; rfl⟩
        · simp [hb] at e
      · rintro ⟨fl', hfl', e⟩
        cases f with
        | nil =>
          obtain ⟨rfl, rfl⟩ : b = ch '"' ∧ s = fl' := by simpa using e
          simp
        | cons c f =>
          obtain ⟨rfl, e'⟩ : b = c ∧ s = f ++ ch '"' :: fl' := by simpa using e
          exact absurd (by rw [e']; simp) hq

/-- Digits are what `\d` matches. -/
theorem pyDigit_iff (b : Byte) : pyDigit b = true ↔ 48 ≤ b.toNat ∧ b.toNat ≤ 57 := by
  simp [pyDigit]

theorem takeWhile_append_stop {p : Byte → Bool} {a b : List Byte} {c : Byte} (ha : ∀ x ∈ a, p x = true)
    (hc : p c = false) : (a ++ c :: b).takeWhile p = a ∧ (a ++ c :: b).dropWhile p = c :: b := by
  induction a with
  | nil => simp [hc]
  | cons x a ih =>
    have hx := ha x (by simp)
    have := ih fun y hy => ha y (by simp [hy])
    constructor
    · rw [List.cons_append, List.takeWhile_cons_of_pos hx, this.1]
    · rw [List.cons_append, List.dropWhile_cons_of_pos hx, this.2]

/-- The regular expression on text that has the form of a marker up to the first quote. -/
theorem dirOf_form {ds t : List Byte} (hds : ds ≠ []) (hd : ∀ b ∈ ds, 48 ≤ b.toNat ∧ b.toNat ≤ 57) :
    dirOf (asc "# " ++ (ds ++ (asc " \"" ++ t))) =
      (beforeLastQuote (t.takeWhile fun x => x ≠ 10)).map fun f => (digitsVal ds, f) := by
  have h := takeWhile_append_stop (p := pyDigit) (a := ds) (b := ch '"' :: t) (c := ch ' ')
    (fun x hx => (pyDigit_iff x).2 (hd x hx)) (by decide)
  have e : asc "# " ++ (ds ++ (asc " \"" ++ t)) = ch '#' :: ch ' ' :: (ds ++ ch ' ' :: ch '"' :: t) := rfl
  rw [e, dirOf, if_pos ⟨rfl, rfl⟩]
  simp only [h.1, h.2]
  rw [if_pos ⟨hds, by decide⟩]

theorem dirOf_inv {l : List Byte} {r : Nat × List Byte} (h : dirOf l = some r) :
    ∃ ds t, ds ≠ [] ∧ (∀ b ∈ ds, 48 ≤ b.toNat ∧ b.toNat ≤ 57) ∧
      l = asc "# " ++ (ds ++ (asc " \"" ++ t)) := by
  unfold dirOf at h
  split at h
  next a b s =>
    split at h
    next hab =>
      obtain ⟨rfl, rfl⟩ := hab
      simp only at h
      split at h
      next c d t ht =>
        split at h
        next hc =>
          obtain ⟨h1, rfl, rfl⟩ := hc
          refine ⟨s.takeWhile pyDigit, t, h1, fun b hb => (pyDigit_iff b).1
            (List.all_eq_true.1 (List.all_takeWhile (p := pyDigit) (l := s)) b hb), ?_⟩
          have := List.takeWhile_append_dropWhile (p := pyDigit) (l := s)
          rw [ht] at this
          show ch '#' :: ch ' ' :: s = ch '#' :: ch ' ' :: (s.takeWhile pyDigit ++ ch ' ' :: ch '"' :: t)
          rw [this]
        next => simp at h
      next => simp at h
    next => simp at h
  next => simp at h

theorem takeWhile_line {t : List Byte} {e : List Byte} (ht : (10 : Byte) ∉ t) (he : e = [] ∨ e = [10]) :
    (t ++ e).takeWhile (fun x => x ≠ 10) = t := by
  have ht' : ∀ x ∈ t, (decide (x ≠ 10)) = true := by
    intro x hx
    simp only [decide_eq_true_eq]
    exact fun e => ht (e ▸ hx)
  rcases he with rfl | rfl
  · have := List.takeWhile_append_of_pos (l₂ := []) ht'
    simpa using this
  · exact (takeWhile_append_stop (p := fun x => decide (x ≠ 10)) (b := []) (c := 10) ht' (by decide)).1

/-- The regular expression recognises the line markers, and yields their line number and file
name. -/
theorem marker_iff (x e : List Byte) (hx : (10 : Byte) ∉ x) (he : e = [] ∨ e = [10]) (n : Nat)
    (f : List Byte) : dirOf (x ++ e) = some (n, f) ↔ IsMarker (x ++ e) n f := by
  have hsplit : ∀ ds t : List Byte, x ++ e = asc "# " ++ (ds ++ (asc " \"" ++ t)) →
      (∀ b ∈ ds, 48 ≤ b.toNat ∧ b.toNat ≤ 57) →
      ∃ t', (10 : Byte) ∉ t' ∧ t = t' ++ e := by
    intro ds t h hd
    rcases he with rfl | rfl
    · refine ⟨t, fun hc => hx ?_, by simp⟩
      rw [List.append_nil] at h
      rw [h]
      simp [hc]
    · rcases List.eq_nil_or_concat t with rfl | ⟨t', b, rfl⟩
      · have h' : x ++ [10] = (asc "# " ++ (ds ++ [ch ' '])) ++ [ch '"'] := by
          rw [h]
          simp [asc]
        have := (List.append_inj' h' rfl).2
        exact absurd this (by decide)
      · have h' : x ++ [10] = (asc "# " ++ (ds ++ (asc " \"" ++ t'))) ++ [b] := by
          rw [h]
          simp
        obtain ⟨h1, h2⟩ := List.append_inj' h' rfl
        refine ⟨t', fun hc => hx ?_, by simpa using h2.symm⟩
        rw [h1]
        simp [hc]
  constructor
  · intro h
    obtain ⟨ds, t, hds, hd, hl⟩ := dirOf_inv h
    obtain ⟨t', ht', rfl⟩ := hsplit ds t hl hd
    rw [hl, dirOf_form hds hd, takeWhile_line ht' he] at h
    obtain ⟨g, hg, e2⟩ := Option.map_eq_some_iff.1 h
    obtain ⟨e3, rfl⟩ := Prod.mk.inj e2
    obtain ⟨fl, hfl, rfl⟩ := (beforeLastQuote_iff _ _).1 hg
    refine ⟨ds, fl ++ e, hds, hd, e3, ?_, ?_⟩
    · rw [List.mem_append, not_or]
      refine ⟨hfl, ?_⟩
      rcases he with rfl | rfl <;> decide
    · rw [hl]
      simp [asc]
  · rintro ⟨ds, fl, hds, hd, rfl, hfl, hl⟩
    have hl' : x ++ e = asc "# " ++ (ds ++ (asc " \"" ++ (f ++ ch '"' :: fl))) := by
      rw [hl]
      simp [asc]
    obtain ⟨t', ht', e1⟩ := hsplit ds _ hl' hd
    rw [hl', dirOf_form hds hd, e1, takeWhile_line ht' he]
    have : ∃ fl', ch '"' ∉ fl' ∧ t' = f ++ ch '"' :: fl' := by
      rcases he with rfl | rfl
      · exact ⟨fl, hfl, by rw [e1]; simp⟩
      · rcases List.eq_nil_or_concat fl with rfl | ⟨fl', b, rfl⟩
        · have h' : f ++ [ch '"'] = t' ++ [10] := e1
          have := (List.append_inj' h' rfl).2
          exact absurd this (by decide)
        · have h' : (f ++ ch '"' :: fl') ++ [b] = t' ++ [10] := by rw [← e1]; simp
          refine ⟨fl', fun hc => hfl (by simp [hc]), (List.append_inj' h' rfl).1.symm⟩
    rw [(beforeLastQuote_iff _ _).2 this]
    rfl

/-- Text that has a second quote is a marker. -/
theorem dirOf_isSome {ds f y : List Byte} (hds : ds ≠ []) (hd : ∀ b ∈ ds, 48 ≤ b.toNat ∧ b.toNat ≤ 57)
    (hf : (10 : Byte) ∉ f) : dirOf (asc "# " ++ (ds ++ (asc " \"" ++ (f ++ ch '"' :: y)))) ≠ none := by
  rw [dirOf_form hds hd]
  intro h
  rw [Option.map_eq_none_iff] at h
  have : (f ++ ch '"' :: y).takeWhile (fun x => decide (x ≠ 10)) =
      f ++ ch '"' :: y.takeWhile (fun x => decide (x ≠ 10)) := by
    rw [List.takeWhile_append_of_pos, List.takeWhile_cons_of_pos (by decide)]
    intro x hx
    simp only [decide_eq_true_eq]
    exact fun e => hf (e ▸ hx)
  rw [this] at h
  have hmem : ∀ s : List Byte, ch '"' ∈ s → beforeLastQuote s ≠ none := by
    intro s
    induction s with
    | nil => simp
    | cons b s ih =>
      intro hb
      rw [beforeLastQuote]
      cases h2 : beforeLastQuote s with
      | some t => simp
      | none =>
        simp only
        by_cases hc : b = ch '"'
        · simp [hc]
        · rw [List.mem_cons] at hb
          exact absurd h2 (ih (hb.resolve_left fun e => hc e.symm))
  exact hmem _ (by simp) h

/-- The beginning of a line that is not a marker is not a marker. -/
theorem dirOf_head {h r : List Byte} (hn : (10 : Byte) ∉ h) (hd : dirOf (h ++ r) = none) :
    dirOf (h ++ crlf) = none := by
  cases hc : dirOf (h ++ crlf) with
  | none => rfl
  | some p =>
    obtain ⟨n, f⟩ := p
    have e : h ++ crlf = (h ++ [13]) ++ [10] := by simp [crlf]
    rw [e] at hc
    obtain ⟨ds, fl, hds, hdd, -, hfl, hl⟩ := (marker_iff (h ++ [13]) [10]
      (by simp only [List.mem_append, not_or]; exact ⟨hn, by decide⟩) (.inr rfl) n f).1 hc
    have hlen : 2 ≤ fl.length := by
      rcases List.eq_nil_or_concat fl with rfl | ⟨fl', b, rfl⟩
      · rw [List.append_nil] at hl
        have := (List.append_inj' hl rfl).2
        exact absurd this (by decide)
      · rcases List.eq_nil_or_concat fl' with rfl | ⟨fl'', b', rfl⟩
        · have h' : (h ++ [13]) ++ [10] = ((asc "# " ++ ds ++ asc " \"" ++ f) ++ asc "\"") ++ [b] := by
            rw [hl]; simp
          have := (List.append_inj' (List.append_inj' h' rfl).1 rfl).2
          exact absurd this (by decide)
        · simp
    obtain ⟨fl', e2, rfl, hl2⟩ : ∃ a b, fl = a ++ b ∧ b.length = 2 :=
      ⟨fl.take (fl.length - 2), fl.drop (fl.length - 2), by simp, by simp; omega⟩
    have h' : h ++ [13, 10] = (asc "# " ++ (ds ++ (asc " \"" ++ (f ++ ch '"' :: fl')))) ++ e2 := by
      have : h ++ [13, 10] = h ++ [13] ++ [10] := by simp
      rw [this, hl]
      simp [asc]
    obtain ⟨h1, -⟩ := List.append_inj' h' (by simp [hl2])
    refine absurd hd ?_
    rw [h1]
    have := dirOf_isSome (y := fl' ++ r) hds hdd (f := f) (by
      intro hc; apply hn; rw [h1]; simp [hc])
    simpa using this

theorem dirOf_not_hash {c : Byte} {s : List Byte} (hc : c ≠ ch '#') : dirOf (c :: s) = none := by
  cases h : dirOf (c :: s) with
  | none => rfl
  | some p =>
    obtain ⟨ds, t, -, -, e⟩ := dirOf_inv h
    have : c = ch '#' := by
      have := congrArg List.head? e
      simpa [asc] using this
    exact absurd this hc

theorem dirOf_nil : dirOf [] = none := rfl

theorem dirOf_markerLine (n : Nat) {f : List Byte} (hf : (10 : Byte) ∉ f) :
    dirOf (markerLine n f) = some (n, f) := by
  have e : markerLine n f =
      (asc "# " ++ pyDec n ++ asc " \"" ++ f ++ asc "\"" ++ [13]) ++ [10] := by
    simp [markerLine, crlf, pyLit, asc]
  rw [e]
  refine (marker_iff _ [10] ?_ (.inr rfl) n f).2 ?_
  · simp only [List.mem_append, not_or]
    refine ⟨⟨⟨⟨⟨by decide, ?_⟩, by decide⟩, hf⟩, by decide⟩, by decide⟩
    intro hc
    have := (pyDec_digits n 10 hc).1
    revert this
    decide
  · exact ⟨pyDec n, [13, 10], pyDec_ne_nil n, pyDec_digits n, digitsVal_pyDec n, by decide, by simp⟩

theorem dirOf_file {l : List Byte} {n : Nat} {f : List Byte} (h : dirOf l = some (n, f)) :
    (10 : Byte) ∉ f := by
  obtain ⟨ds, t, hds, hd, rfl⟩ := dirOf_inv h
  rw [dirOf_form hds hd] at h
  obtain ⟨g, hg, e2⟩ := Option.map_eq_some_iff.1 h
  obtain ⟨-, rfl⟩ := Prod.mk.inj e2
  obtain ⟨fl, -, e⟩ := (beforeLastQuote_iff _ _).1 hg
  intro hc
  have : (10 : Byte) ∈ t.takeWhile (fun x => decide (x ≠ 10)) := by rw [e]; simp [hc]
  have := List.all_eq_true.1 List.all_takeWhile _ this
  revert this
  decide

/-! ## Lines -/

theorem readLines_cons {b s : List Byte} (hb : (10 : Byte) ∉ b) :
    readLines (b ++ 10 :: s) = (b ++ [10]) :: readLines s := by
  induction b with
  | nil => simp [readLines]
  | cons x b ih =>
    have hx : x ≠ 10 := fun e => hb (by simp [e])
    rw [List.cons_append, readLines, if_neg hx, ih fun h => hb (by simp [h])]
    rfl

theorem readLines_last {b : List Byte} (hb : (10 : Byte) ∉ b) (h0 : b ≠ []) : readLines b = [b] := by
  induction b with
  | nil => exact absurd rfl h0
  | cons x b ih =>
    have hx : x ≠ 10 := fun e => hb (by simp [e])
    rw [readLines, if_neg hx]
    cases b with
    | nil => rfl
    | cons y b => rw [ih (fun h => hb (by simp [h])) (by simp)]

/-- The lines of a text that ends in a newline, and of what follows. -/
theorem readLines_append {a s : List Byte} (ha : a = [] ∨ ∃ x, a = x ++ [10]) :
    readLines (a ++ s) = readLines a ++ readLines s := by
  rcases ha with rfl | ⟨x, rfl⟩
  · simp [readLines]
  · induction x with
    | nil => simp [readLines]
    | cons y x ih =>
      have e1 : (y :: x ++ [10]) ++ s = y :: ((x ++ [10]) ++ s) := rfl
      have e2 : y :: x ++ [10] = y :: (x ++ [10]) := rfl
      rw [e1, e2, readLines, readLines]
      by_cases hy : y = 10
      · rw [if_pos hy, if_pos hy, ih]
        rfl
      · rw [if_neg hy, if_neg hy, ih]
        cases h : readLines (x ++ [10]) with
        | nil =>
          exfalso
          cases x with
          | nil => simp [readLines] at h
          | cons z x =>
            rw [List.cons_append, readLines] at h
            split at h
            · simp at h
            · split at h <;> simp at h
        | cons l ls => rfl

theorem readLines_ok (s : List Byte) : LinesOK (readLines s) ∧ [] ∉ readLines s ∧ (readLines s).flatten = s := by
  induction s with
  | nil => simp [readLines, LinesOK]
  | cons b s ih =>
    rw [readLines]
    by_cases hb : b = 10
    · rw [if_pos hb]
      refine ⟨.inl ⟨⟨[], by simp, rfl⟩, ih.1⟩, by simp [ih.2.1], by simp [ih.2.2, hb]⟩
    · rw [if_neg hb]
      cases h : readLines s with
      | nil =>
        rw [h] at ih
        refine ⟨.inr ⟨rfl, by simpa using fun e => hb e.symm⟩, by simp, ?_⟩
        have := ih.2.2
        simp at this
        simp [this]
      | cons l ls =>
        rw [h] at ih
        refine ⟨?_, by simpa using fun h => ih.2.1 (by simp [h]), by simpa using ih.2.2⟩
        rcases ih.1 with ⟨⟨x, hx, rfl⟩, h2⟩ | ⟨rfl, h2⟩
        · exact .inl ⟨⟨b :: x, by simpa using ⟨fun e => hb e.symm, hx⟩, rfl⟩, h2⟩
        · exact .inr ⟨rfl, by simpa using ⟨fun e => hb e.symm, h2⟩⟩

theorem readLines_flatten {ls : List (List Byte)} (h : LinesOK ls) (h0 : [] ∉ ls) :
    readLines ls.flatten = ls := by
  induction ls with
  | nil => rfl
  | cons l ls ih =>
    rcases h with ⟨⟨x, hx, rfl⟩, h2⟩ | ⟨rfl, h2⟩
    · rw [List.flatten_cons, List.append_assoc, List.singleton_append, readLines_cons hx,
        ih h2 fun h => h0 (by simp [h])]
    · simp only [List.flatten_cons, List.flatten_nil, List.append_nil]
      exact readLines_last h2 fun e => h0 (by simp [e])

/-! ## Locations -/

theorem placeLine_append (f : List Byte) (n : Nat) (a : List Byte) : ∀ (c : Nat) (b : List Byte),
    placeLine f n c (a ++ b) = placeLine f n c a ++ placeLine f n (c + a.length) b := by
  induction a with
  | nil => intro c b; rfl
  | cons x a ih =>
    intro c b
    rw [List.cons_append, placeLine, placeLine]
    have e : c + 1 + a.length = c + (x :: a).length := by simp; omega
    split
    · rw [ih, e]
    · rw [ih, e]; rfl

theorem placeLine_space (f : List Byte) (n : Nat) (a : List Byte) (h : ∀ x ∈ a, pySpace x = true) :
    ∀ c, placeLine f n c a = [] := by
  induction a with
  | nil => intro c; rfl
  | cons x a ih =>
    intro c
    rw [placeLine, if_pos (h x (by simp)), ih fun y hy => h y (by simp [hy])]

theorem placeLine_spaces (f : List Byte) (n k : Nat) (c : Nat) : placeLine f n c (spaces k) = [] := by
  refine placeLine_space f n _ ?_ c
  intro x hx
  rw [List.eq_of_mem_replicate hx]
  rfl

theorem placeLine_bytes (f : List Byte) (n : Nat) (a : List Byte) : ∀ c,
    (placeLine f n c a).map PChar.b = noSpace a := by
  induction a with
  | nil => intro c; rfl
  | cons x a ih =>
    intro c
    rw [placeLine, noSpace, List.filter_cons]
    by_cases hx : pySpace x = true
    · rw [if_pos hx, hx]
      exact ih _
    · rw [if_neg hx, List.map_cons, ih]
      simp [hx, noSpace]

theorem placeL_append (a : List (List Byte)) : ∀ (f : List Byte) (n : Nat) (b : List (List Byte)),
    placeL f n (a ++ b) = placeL f n a ++ placeL (locL f n a).1 (locL f n a).2 b := by
  induction a with
  | nil => intro f n b; rfl
  | cons l a ih =>
    intro f n b
    rw [List.cons_append, placeL, placeL, locL]
    cases dirOf l with
    | some p => exact ih _ _ _
    | none => simp only [ih, List.append_assoc]

theorem locL_append (a : List (List Byte)) : ∀ (f : List Byte) (n : Nat) (b : List (List Byte)),
    locL f n (a ++ b) = locL (locL f n a).1 (locL f n a).2 b := by
  induction a with
  | nil => intro f n b; rfl
  | cons l a ih =>
    intro f n b
    rw [List.cons_append, locL, locL]
    cases dirOf l with
    | some p => exact ih _ _ _
    | none => exact ih _ _ _

theorem noSpace_append (a b : List Byte) : noSpace (a ++ b) = noSpace a ++ noSpace b := by
  simp [noSpace]

theorem noSpace_gap {a : List Byte} (h : ∀ x ∈ a, pySpace x = true) : noSpace a = [] := by
  rw [noSpace, List.filter_eq_nil_iff]
  intro x hx
  simp [h x hx]

end NanoLog
