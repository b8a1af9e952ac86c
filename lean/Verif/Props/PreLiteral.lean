import Verif.PreParse
import Verif.Props.Format

/-!
# C40: extraction of string literals by the preprocessor
-/

namespace NanoLog

/-! ## Specification: C string literals -/

/-- Octal digits. -/
def isOct (b : Byte) : Bool := 48 ≤ b.toNat && b.toNat ≤ 55

/-- Hexadecimal digits. -/
def isHex (b : Byte) : Bool :=
  (48 ≤ b.toNat && b.toNat ≤ 57) || (65 ≤ b.toNat && b.toNat ≤ 70) || (97 ≤ b.toNat && b.toNat ≤ 102)

/-- Value of a hexadecimal digit. -/
def hexVal (b : Byte) : Nat :=
  if b.toNat ≤ 57 then b.toNat - 48 else if b.toNat ≤ 70 then b.toNat - 55 else b.toNat - 87

/-- The simple escape sequences of C and their values. -/
def simpleEscs : List (Byte × Byte) :=
  [(ch '\'', 39), (ch '"', 34), (ch '?', 63), (ch '\\', 92), (ch 'a', 7), (ch 'b', 8),
   (ch 'f', 12), (ch 'n', 10), (ch 'r', 13), (ch 't', 9), (ch 'v', 11)]

/-- An element of a string literal.  (Universal character names are left out.) -/
inductive LitItem where
  | plain (c : Byte)
  | simple (c v : Byte)
  | oct (ds : List Byte)
  | hex (ds : List Byte)
  deriving DecidableEq, Repr

/-- Elements allowed by the C grammar. -/
def LitItem.WF : LitItem → Prop
  | .plain c => c ≠ ch '"' ∧ c ≠ ch '\\' ∧ c ≠ 10
  | .simple c v => (c, v) ∈ simpleEscs
  | .oct ds => 1 ≤ ds.length ∧ ds.length ≤ 3 ∧ ∀ d ∈ ds, isOct d = true
  | .hex ds => 1 ≤ ds.length ∧ ∀ d ∈ ds, isHex d = true

instance (i : LitItem) : Decidable i.WF := by cases i <;> unfold LitItem.WF <;> infer_instance

/-- Source text of an element. -/
def LitItem.src : LitItem → List Byte
  | .plain c => [c]
  | .simple c _ => [ch '\\', c]
  | .oct ds => ch '\\' :: ds
  | .hex ds => ch '\\' :: ch 'x' :: ds

/-- The byte an element denotes (numeric escapes modulo 256). -/
def LitItem.value : LitItem → Byte
  | .plain c => c
  | .simple _ v => v
  | .oct ds => UInt8.ofNat (ds.foldl (fun a b => 8 * a + (b.toNat - 48)) 0)
  | .hex ds => UInt8.ofNat (ds.foldl (fun a b => 16 * a + hexVal b) 0)

/-- Source text of the inside of a literal. -/
def litSrc (l : List LitItem) : List Byte := l.flatMap LitItem.src

/-- Numeric escapes are as long as possible: what may follow an element. -/
def LitItem.mayFollow (i : LitItem) (r : List Byte) : Prop :=
  match i with
  | .plain _ => True
  | .simple _ _ => True
  | .oct ds => ds.length < 3 → HeadNot isOct r
  | .hex _ => HeadNot isHex r

/-- A literal of C: elements are well-formed and numeric escapes as long as possible. -/
def LitWF : List LitItem → Prop
  | [] => True
  | i :: l => i.WF ∧ i.mayFollow (litSrc l) ∧ LitWF l

/-- The inside of a literal, `t`, denotes the bytes `v`. -/
def Denotes (t v : List Byte) : Prop := ∃ l, LitWF l ∧ litSrc l = t ∧ l.map LitItem.value = v

/-- Source text of literals, each followed by white space. -/
def litsSrc : List (List LitItem × List Byte) → List Byte
  | [] => []
  | (l, gap) :: ls => ch '"' :: litSrc l ++ [ch '"'] ++ gap ++ litsSrc ls

/-- Literals as they may appear in an argument. -/
def LitsWF (ls : List (List LitItem × List Byte)) : Prop :=
  ∀ p ∈ ls, LitWF p.1 ∧ ∀ c ∈ p.2, pySpace c = true

/-- The value of adjacent literals: escapes are converted before the literals are joined. -/
def litsValue (ls : List (List LitItem × List Byte)) : List Byte :=
  ls.flatMap fun p => p.1.map LitItem.value

/-- Their texts joined. -/
def litsText (ls : List (List LitItem × List Byte)) : List Byte := ls.flatMap fun p => litSrc p.1

/-- The literal ends in an escaped backslash. -/
def endsInBackslash (l : List LitItem) : Bool :=
  match l.getLast? with
  | some (.simple c _) => c = ch '\\'
  | _ => false

/-! ## `Denotes` is a function -/

theorem litSrc_cons (i : LitItem) (l : List LitItem) : litSrc (i :: l) = i.src ++ litSrc l := rfl

theorem run_eq {p : Byte → Bool} {a b r s : List Byte} (ha : ∀ x ∈ a, p x = true)
    (hb : ∀ x ∈ b, p x = true) (hr : HeadNot p r) (hs : HeadNot p s) (h : a ++ r = b ++ s) :
    a = b ∧ r = s := by
  have h1 := takeWhile_append_of ha hr
  have h2 := takeWhile_append_of hb hs
  rw [h, h2] at h1
  subst h1
  exact ⟨rfl, List.append_cancel_left h⟩

theorem escNotOct : ∀ p ∈ simpleEscs, isOct p.1 = false ∧ p.1 ≠ ch 'x' := by decide

theorem simple_unique : ∀ p ∈ simpleEscs, ∀ q ∈ simpleEscs, p.1 = q.1 → p = q := by decide

theorem octRun_eq : ∀ {a b r s : List Byte}, a.length ≤ 3 → b.length ≤ 3 →
    (∀ x ∈ a, isOct x = true) → (∀ x ∈ b, isOct x = true) →
    (a.length < 3 → HeadNot isOct r) → (b.length < 3 → HeadNot isOct s) →
    a ++ r = b ++ s → a = b ∧ r = s := by
  intro a b r s la lb ha hb hr hs h
  have key : ∀ {a b r s : List Byte}, a.length < b.length → b.length ≤ 3 → (∀ x ∈ b, isOct x = true) →
      (a.length < 3 → HeadNot isOct r) → a ++ r = b ++ s → False := by
    intro a b r s hlt lb hb hr h
    have hx : b[a.length]? = r.head? := by
      have h1 : (a ++ r)[a.length]? = r.head? := by
        rw [List.getElem?_append_right (Nat.le_refl _), Nat.sub_self, List.head?_eq_getElem?]
      rw [h, List.getElem?_append_left hlt] at h1
      exact h1
    have hmem := List.getElem?_eq_getElem hlt
    have := hr (by omega) b[a.length] (by rw [← hx, hmem])
    rw [hb _ (List.getElem_mem hlt)] at this
    cases this
  rcases Nat.lt_trichotomy a.length b.length with hl | hl | hl
  · exact (key hl lb hb hr h).elim
  · exact List.append_inj h hl
  · exact (key hl la ha hs h.symm).elim

theorem litSrc_inj : ∀ {l m : List LitItem}, LitWF l → LitWF m → litSrc l = litSrc m → l = m := by
  intro l
  induction l with
  | nil =>
    intro m _ hm h
    cases m with
    | nil => rfl
    | cons j m => cases j <;> simp [litSrc, LitItem.src] at h
  | cons i l ih =>
    intro m hl hm h
    obtain ⟨wi, fi, wl⟩ := hl
    cases m with
    | nil => cases i <;> simp [litSrc, LitItem.src] at h
    | cons j m =>
      obtain ⟨wj, fj, wm⟩ := hm
      rw [litSrc_cons, litSrc_cons] at h
      have hx : isOct (ch 'x') = false := by decide
      have done : i = j → litSrc l = litSrc m → i :: l = j :: m := by
        intro h1 h2
        rw [h1, ih wl wm h2]
      cases i with
      | plain c =>
        cases j with
        | plain d =>
          obtain ⟨h1, h2⟩ := List.cons.inj h
          exact done (by rw [h1]) h2
        | simple d v => exact absurd (List.cons.inj h).1 wi.2.1
        | oct ds => exact absurd (List.cons.inj h).1 wi.2.1
        | hex ds => exact absurd (List.cons.inj h).1 wi.2.1
      | simple c v =>
        obtain ⟨n1, n2⟩ := escNotOct _ wi
        cases j with
        | plain d => exact absurd (List.cons.inj h).1.symm wj.2.1
        | simple d w =>
          obtain ⟨h1, h2⟩ := List.cons.inj (List.cons.inj h).2
          have := simple_unique _ wi _ wj h1
          cases this
          exact done rfl h2
        | oct ds =>
          obtain ⟨k1, k2, k3⟩ := wj
          cases ds with
          | nil => simp at k1
          | cons d ds =>
            have : c = d := (List.cons.inj (List.cons.inj h).2).1
            subst this
            have h3 := k3 _ List.mem_cons_self
            dsimp only at n1
            rw [n1] at h3
            cases h3
        | hex ds => exact absurd (List.cons.inj (List.cons.inj h).2).1 n2
      | oct ds =>
        obtain ⟨k1, k2, k3⟩ := wi
        cases j with
        | plain d => exact absurd (List.cons.inj h).1.symm wj.2.1
        | simple d w =>
          obtain ⟨n1, n2⟩ := escNotOct _ wj
          cases ds with
          | nil => simp at k1
          | cons e ds =>
            have : e = d := (List.cons.inj (List.cons.inj h).2).1
            subst this
            have h3 := k3 _ List.mem_cons_self
            dsimp only at n1
            rw [n1] at h3
            cases h3
        | oct es =>
          obtain ⟨m1, m2, m3⟩ := wj
          obtain ⟨h1, h2⟩ := octRun_eq k2 m2 k3 m3 fi fj (List.cons.inj h).2
          exact done (by rw [h1]) h2
        | hex es =>
          cases ds with
          | nil => simp at k1
          | cons e ds =>
            have : e = ch 'x' := (List.cons.inj (List.cons.inj h).2).1
            subst this
            have h3 := k3 _ List.mem_cons_self
            rw [hx] at h3
            cases h3
      | hex ds =>
        cases j with
        | plain d => exact absurd (List.cons.inj h).1.symm wj.2.1
        | simple d w => exact absurd (List.cons.inj (List.cons.inj h).2).1.symm (escNotOct _ wj).2
        | oct es =>
          obtain ⟨m1, m2, m3⟩ := wj
          cases es with
          | nil => simp at m1
          | cons e es =>
            have : ch 'x' = e := (List.cons.inj (List.cons.inj h).2).1
            subst this
            have h3 := m3 _ List.mem_cons_self
            rw [hx] at h3
            cases h3
        | hex es =>
          obtain ⟨h1, h2⟩ := run_eq wi.2 wj.2 fi fj (List.cons.inj (List.cons.inj h).2).2
          exact done (by rw [h1]) h2

/-- A text denotes at most one value. -/
theorem denotes_unique {t v w : List Byte} (h1 : Denotes t v) (h2 : Denotes t w) : v = w := by
  obtain ⟨l, a, b, c⟩ := h1
  obtain ⟨m, d, e, f⟩ := h2
  have := litSrc_inj a d (by rw [b, e])
  rw [← c, ← f, this]

/-! ## The scanner -/

/-- The element is an escaped backslash. -/
def LitItem.isBs : LitItem → Bool
  | .simple c _ => c = ch '\\'
  | _ => false

theorem extract_plain {c : Byte} (h : c ≠ ch '"') (s : List Byte) (esc : Bool) (ret : List Byte) :
    extractLoop (c :: s) true esc ret = extractLoop s true (c = ch '\\') (ret ++ [c]) := by
  rw [extractLoop, if_neg (fun hc => h hc.1), if_pos rfl]

theorem extract_run (ds : List Byte) (hq : ∀ d ∈ ds, d ≠ ch '"' ∧ d ≠ ch '\\') (hne : ds ≠ []) :
    ∀ (s : List Byte) (esc : Bool) (ret : List Byte),
    extractLoop (ds ++ s) true esc ret = extractLoop s true false (ret ++ ds) := by
  induction ds with
  | nil => exact absurd rfl hne
  | cons d ds ih =>
    intro s esc ret
    obtain ⟨h1, h2⟩ := hq d List.mem_cons_self
    rw [List.cons_append, extract_plain h1]
    cases ds with
    | nil => simp [h2]
    | cons e ds =>
      rw [ih (fun d hd => hq d (List.mem_cons_of_mem _ hd)) (by simp)]
      simp

theorem extract_item (i : LitItem) (h : i.WF) (s : List Byte) (esc : Bool) (ret : List Byte) :
    extractLoop (i.src ++ s) true esc ret = extractLoop s true i.isBs (ret ++ i.src) := by
  have hbq : ch '\\' ≠ ch '"' := by decide
  cases i with
  | plain c =>
    obtain ⟨h1, h2, _⟩ := h
    show extractLoop (c :: s) true esc ret = _
    rw [extract_plain h1]
    simp [h2, LitItem.isBs, LitItem.src]
  | simple c v =>
    show extractLoop (ch '\\' :: c :: s) true esc ret = _
    rw [extract_plain hbq]
    have : extractLoop (c :: s) true (decide (ch '\\' = ch '\\')) (ret ++ [ch '\\'])
        = extractLoop s true (c = ch '\\') (ret ++ [ch '\\'] ++ [c]) := by
      rw [extractLoop, if_neg (by simp), if_pos rfl]
    rw [this]
    simp [LitItem.isBs, LitItem.src]
  | oct ds =>
    obtain ⟨h1, _, h3⟩ := h
    show extractLoop (ch '\\' :: (ds ++ s)) true esc ret = _
    rw [extract_plain hbq, extract_run ds ?_ (by rintro rfl; simp at h1)]
    · simp [LitItem.isBs, LitItem.src]
    · intro d hd
      have := h3 d hd
      constructor <;> rintro rfl <;> revert this <;> decide
  | hex ds =>
    obtain ⟨h1, h3⟩ := h
    show extractLoop (ch '\\' :: ch 'x' :: (ds ++ s)) true esc ret = _
    have hx : extractLoop (ch 'x' :: (ds ++ s)) true (decide (ch '\\' = ch '\\')) (ret ++ [ch '\\'])
        = extractLoop (ds ++ s) true (decide (ch 'x' = ch '\\')) (ret ++ [ch '\\'] ++ [ch 'x']) :=
      extract_plain (by decide) _ _ _
    rw [extract_plain hbq, hx, extract_run ds ?_ (by rintro rfl; simp at h1)]
    · simp [LitItem.isBs, LitItem.src]
    · intro d hd
      have := h3 d hd
      constructor <;> rintro rfl <;> revert this <;> decide

theorem extract_items (l : List LitItem) (h : LitWF l) : ∀ (s : List Byte) (esc : Bool)
    (ret : List Byte), extractLoop (litSrc l ++ s) true esc ret
      = extractLoop s true (if l = [] then esc else endsInBackslash l) (ret ++ litSrc l) := by
  induction l with
  | nil => intro s esc ret; simp [litSrc]
  | cons i l ih =>
    intro s esc ret
    rw [litSrc_cons, List.append_assoc, extract_item i h.1, ih h.2.2, List.append_assoc]
    congr 1
    by_cases hl : l = []
    · subst hl
      simp only [if_true, endsInBackslash, List.getLast?_singleton, reduceCtorEq, if_false]
      cases i <;> rfl
    · rw [if_neg hl, if_neg (by simp)]
      unfold endsInBackslash
      obtain ⟨j, l', rfl⟩ := List.exists_cons_of_ne_nil hl
      rw [List.getLast?_cons_cons]

theorem extract_gap_out (g : List Byte) (h : ∀ c ∈ g, pySpace c = true) : ∀ (s ret : List Byte),
    extractLoop (g ++ s) false false ret = extractLoop s false false ret := by
  induction g with
  | nil => intro s ret; rfl
  | cons c g ih =>
    intro s ret
    have hc := h c List.mem_cons_self
    have hq : c ≠ ch '"' := by rintro rfl; revert hc; decide
    rw [List.cons_append, extractLoop, if_neg (fun hh => hq hh.1), if_neg (by simp), if_pos hc]
    exact ih (fun c hc => h c (List.mem_cons_of_mem _ hc)) s ret

theorem space_facts {c : Byte} (h : pySpace c = true) : c ≠ ch '"' ∧ c ≠ ch '\\' := by
  constructor <;> rintro rfl <;> revert h <;> decide

theorem extract_gap_in (g : List Byte) (h : ∀ c ∈ g, pySpace c = true) : ∀ (s ret : List Byte),
    extractLoop (g ++ s) true false ret = extractLoop s true false (ret ++ g) := by
  intro s ret
  by_cases hg : g = []
  · subst hg; simp
  · exact extract_run g (fun d hd => space_facts (h d hd)) hg s false ret

theorem quote_out (s : List Byte) (ret : List Byte) :
    extractLoop (ch '"' :: s) false false ret = extractLoop s true false ret := by
  rw [extractLoop, if_pos ⟨rfl, rfl⟩]; rfl

theorem quote_in (s : List Byte) (ret : List Byte) :
    extractLoop (ch '"' :: s) true false ret = extractLoop s false false ret := by
  rw [extractLoop, if_pos ⟨rfl, rfl⟩]; rfl

/-- The inside of a literal met outside quotes: rejected, or skipped because it is white space. -/
theorem extract_lit_out (l : List LitItem) (h : LitWF l) : ∀ (s ret : List Byte),
    extractLoop (litSrc l ++ s) false false ret = none
      ∨ extractLoop (litSrc l ++ s) false false ret = extractLoop s false false ret := by
  induction l with
  | nil => intro s ret; exact .inr rfl
  | cons i l ih =>
    intro s ret
    have hbs : ∀ t, extractLoop (ch '\\' :: t) false false ret = none := by
      intro t
      rw [extractLoop, if_neg (by decide), if_neg (by decide), if_neg (by decide)]
    cases i with
    | plain c =>
      obtain ⟨⟨h1, h2, _⟩, _, h3⟩ := h
      show extractLoop (c :: (litSrc l ++ s)) false false ret = none ∨ extractLoop (c :: (litSrc l ++ s)) false false ret = _
      rw [extractLoop, if_neg (fun hh => h1 hh.1), if_neg (by simp)]
      by_cases hs : pySpace c = true
      · rw [if_pos hs]; exact ih h3 s ret
      · rw [if_neg hs]; exact .inl rfl
    | simple c v => exact .inl (hbs _)
    | oct ds => exact .inl (hbs _)
    | hex ds => exact .inl (hbs _)

/-- After a swallowed closing quote everything is seen inside out, and rejected. -/
theorem extract_inverted (ls : List (List LitItem × List Byte)) (h : LitsWF ls) :
    ∀ (ret : List Byte), extractLoop (litsSrc ls) true false ret = none := by
  induction ls with
  | nil => intro ret; rfl
  | cons p ls ih =>
    intro ret
    obtain ⟨l, gap⟩ := p
    obtain ⟨hl, hg⟩ := h _ List.mem_cons_self
    simp only [litsSrc, List.cons_append, List.append_assoc]
    rw [quote_in]
    rcases extract_lit_out l hl (ch '"' :: (gap ++ litsSrc ls)) ret with h1 | h1
    · exact h1
    · simp only [List.nil_append]
      rw [h1, quote_out, extract_gap_in gap hg]
      exact ih (fun p hp => h p (List.mem_cons_of_mem _ hp)) _

theorem extract_lits (ls : List (List LitItem × List Byte)) (h : LitsWF ls) : ∀ (ret : List Byte),
    extractLoop (litsSrc ls) false false ret
      = if ls.any (fun p => endsInBackslash p.1) then none else some (ret ++ litsText ls) := by
  induction ls with
  | nil => intro ret; simp [litsSrc, extractLoop, litsText]
  | cons p ls ih =>
    intro ret
    obtain ⟨l, gap⟩ := p
    obtain ⟨hl, hg⟩ := h _ List.mem_cons_self
    have ht : LitsWF ls := fun p hp => h p (List.mem_cons_of_mem _ hp)
    simp only [litsSrc, List.cons_append, List.append_assoc, List.nil_append]
    rw [quote_out, extract_items l hl]
    have he : (if l = [] then false else endsInBackslash l) = endsInBackslash l := by
      split
      · next hn => subst hn; rfl
      · rfl
    rw [he, List.any_cons]
    cases hb : endsInBackslash l with
    | true =>
      have : extractLoop (ch '"' :: (gap ++ litsSrc ls)) true true (ret ++ litSrc l)
          = extractLoop (gap ++ litsSrc ls) true false (ret ++ litSrc l ++ [ch '"']) := by
        rw [extractLoop, if_neg (by decide), if_pos rfl]
        rfl
      rw [this, extract_gap_in gap hg, extract_inverted ls ht]
      rfl
    | false =>
      rw [quote_in, extract_gap_out gap hg, ih ht]
      simp only [Bool.false_or, litsText, List.flatMap_cons, List.append_assoc]

/-! ## The properties -/

/-- **C40.**  For adjacent string literals with white space around them, exactly what is
extracted: nothing if one of the literals ends in an escaped backslash, and otherwise the joined
texts. -/
theorem C40_extract_exact (gap : List Byte) (hg : ∀ c ∈ gap, pySpace c = true)
    (ls : List (List LitItem × List Byte)) (h : LitsWF ls) :
    extractCString (gap ++ litsSrc ls)
      = if ls.any (fun p => endsInBackslash p.1) then none else some (litsText ls) := by
  rw [extractCString, extract_gap_out gap hg, extract_lits ls h]
  simp

/-- The literals may be joined without a numeric escape swallowing what follows. -/
def Joinable (ls : List (List LitItem × List Byte)) : Prop := LitWF (ls.flatMap Prod.fst)

/-- **C40.**  The extracted text, read as one literal, denotes the value the literals have in C
(which converts escapes before joining).  Partial: false for a literal that ends in an escaped
backslash (`C40_backslash_false`) and for a numeric escape before a literal that starts with a
digit (`C40_joined_escape_false`). -/
theorem C40_extract_partial (gap : List Byte) (hg : ∀ c ∈ gap, pySpace c = true)
    (ls : List (List LitItem × List Byte)) (h : LitsWF ls)
    (hb : ∀ p ∈ ls, endsInBackslash p.1 = false) (hj : Joinable ls) :
    ∃ t, extractCString (gap ++ litsSrc ls) = some t ∧ Denotes t (litsValue ls)
      ∧ ∀ v, Denotes t v → v = litsValue ls := by
  have hd : Denotes (litsText ls) (litsValue ls) := by
    refine ⟨ls.flatMap Prod.fst, hj, ?_, ?_⟩
    · simp only [litSrc, litsText, List.flatMap_assoc]
    · simp only [litsValue, List.map_flatMap]
  refine ⟨litsText ls, ?_, hd, fun v hv => denotes_unique hv hd⟩
  rw [C40_extract_exact gap hg ls h, if_neg]
  simp only [Bool.not_eq_true, List.any_eq_false]
  intro p hp
  simp [hb p hp]

/-- **C40.**  One literal alone: it is extracted with its exact text unless it ends in an escaped
backslash. -/
theorem C40_single (l : List LitItem) (h : LitWF l) :
    extractCString (ch '"' :: litSrc l ++ [ch '"'])
      = if endsInBackslash l then none else some (litSrc l) := by
  have := C40_extract_exact [] (by simp) [(l, [])] (by
    intro p hp
    rw [List.mem_singleton] at hp
    subst hp
    exact ⟨h, by simp⟩)
  simpa [litsSrc, litsText] using this

/-- **C40** is false: the literal `"a\\"` (an `a` and a backslash) is rejected as not being a
literal. -/
theorem C40_backslash_false :
    Denotes (asc "a\\\\") [97, 92] ∧ extractCString (asc "\"a\\\\\"") = none := by
  refine ⟨⟨[.plain 97, .simple (ch '\\') 92], ?_, by decide, by decide⟩, by decide⟩
  simp only [LitWF, LitItem.mayFollow, and_true, true_and]
  decide

/-- **C40** is false: `"\x1" "2"` has the value `01 32`, but the extracted text `\x12` denotes the
byte `12` only. -/
theorem C40_joined_escape_false :
    let ls := [([LitItem.hex [ch '1']], [32]), ([LitItem.plain (ch '2')], [])]
    LitsWF ls ∧ litsSrc ls = asc "\"\\x1\" \"2\"" ∧ litsValue ls = [0x01, 0x32]
      ∧ extractCString (litsSrc ls) = some (asc "\\x12")
      ∧ ∀ v, Denotes (asc "\\x12") v ↔ v = [0x12] := by
  refine ⟨?_, by decide, by decide, by decide, ?_⟩
  · intro p hp
    simp only [List.mem_cons, List.not_mem_nil, or_false] at hp
    rcases hp with rfl | rfl
    · refine ⟨⟨by decide, ?_, trivial⟩, by decide⟩
      intro b hb; simp [litSrc] at hb
    · exact ⟨⟨by decide, trivial, trivial⟩, by decide⟩
  · have hd : Denotes (asc "\\x12") [0x12] := by
      refine ⟨[.hex [ch '1', ch '2']], ⟨by decide, ?_, trivial⟩, by decide, by decide⟩
      intro b hb; simp [litSrc] at hb
    intro v
    exact ⟨fun h => denotes_unique h hd, fun h => h ▸ hd⟩

/-- The empty format string is a valid literal, but refused with the same error message. -/
theorem C40_empty_false : extractCString (asc "\"\"") = some [] ∧ fmtOfArg (asc "\"\"") = none := by
  decide

/-- Two adjacent literals with escapes: `"say \"%d\"\n" "\x41G\\."`. -/
def exLits : List (List LitItem × List Byte) :=
  [([.plain (ch 's'), .simple (ch '"') 34, .plain (ch '%'), .plain (ch 'd'), .simple (ch '"') 34,
     .simple (ch 'n') 10], [32, 10, 32]),
   ([.hex [ch '4', ch '1'], .plain (ch 'G'), .simple (ch '\\') 92, .plain (ch '.')], [10])]

example : LitsWF exLits ∧ (∀ p ∈ exLits, endsInBackslash p.1 = false) ∧ Joinable exLits
    ∧ extractCString (litsSrc exLits) = some (asc "s\\\"%d\\\"\\n\\x41G\\\\.")
    ∧ litsValue exLits = asc "s\"%d\"\nAG\\." := by
  refine ⟨?_, by decide, ?_, by decide, by decide⟩
  · intro p hp
    simp only [exLits, List.mem_cons, List.not_mem_nil, or_false] at hp
    rcases hp with rfl | rfl
    · refine ⟨?_, by decide⟩
      simp only [LitWF, LitItem.mayFollow, and_true, true_and]
      decide
    · refine ⟨?_, by decide⟩
      simp only [LitWF, LitItem.mayFollow, and_true, true_and]
      refine ⟨by decide, ?_, by decide, by decide, by decide⟩
      intro b hb
      simp [litSrc, LitItem.src] at hb
      subst hb; decide
  · simp only [Joinable, exLits, List.flatMap_cons, List.flatMap_nil, List.cons_append, List.nil_append,
      List.append_nil, LitWF, LitItem.mayFollow, and_true, true_and]
    refine ⟨by decide, by decide, by decide, by decide, by decide, by decide, by decide, ?_, by decide,
      by decide, by decide⟩
    intro b hb
    simp [litSrc, LitItem.src] at hb
    subst hb; decide

end NanoLog
