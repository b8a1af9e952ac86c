import Verif.PreId
import Verif.Props.Format

/-!
# C37: identifiers of the preprocessor
-/

namespace NanoLog

/-! ## Decimal numbers and encodings -/

theorem ch_toNat_digit {c : Char} (h : c.isDigit) : (ch c).toNat = c.toNat := by
  have h2 : c.toNat ≤ 57 := by
    simp only [Char.isDigit, Bool.and_eq_true, decide_eq_true_eq] at h
    have := h.2
    exact this
  show (UInt8.ofNat c.toNat).toNat = _
  rw [UInt8.toNat_ofNat']
  omega

theorem digitsVal_pyDec (n : Nat) : digitsVal (pyDec n) = n := by
  have h : ∀ (l : List Char) (a : Nat), (∀ c ∈ l, c.isDigit) →
      (l.map ch).foldl (fun a b => 10 * a + (b.toNat - 48)) a = Nat.ofDigitChars 10 l a := by
    intro l
    induction l with
    | nil => intro a _; rfl
    | cons c l ih =>
      intro a hl
      rw [List.map_cons, List.foldl_cons, ih _ fun c hc => hl c (List.mem_cons_of_mem _ hc),
        Nat.ofDigitChars_cons, ch_toNat_digit (hl c List.mem_cons_self)]
      rfl
  rw [digitsVal, pyDec, h _ _ fun c hc => Nat.isDigit_of_mem_toDigits (by decide) (by decide) hc]
  exact Nat.ofDigitChars_ten_toDigits

theorem pyDec_inj {a b : Nat} (h : pyDec a = pyDec b) : a = b := by
  rw [← digitsVal_pyDec a, h, digitsVal_pyDec]

theorem pyDec_digits (n : Nat) : ∀ b ∈ pyDec n, 48 ≤ b.toNat ∧ b.toNat ≤ 57 := by
  intro b hb
  obtain ⟨c, hc, rfl⟩ := List.mem_map.1 hb
  have hd := Nat.isDigit_of_mem_toDigits (by decide) (by decide) hc
  rw [ch_toNat_digit hd]
  simp only [Char.isDigit, Bool.and_eq_true, decide_eq_true_eq] at hd
  exact ⟨hd.1, hd.2⟩

theorem pyDec_ne_nil (n : Nat) : pyDec n ≠ [] := by
  simp [pyDec, Nat.toDigits_ne_nil]

theorem pyDec_alnum (n : Nat) : ∀ b ∈ pyDec n, pyAlnum b = true := by
  intro b hb
  have := pyDec_digits n b hb
  simp [pyAlnum, this]

theorem encChar_alnum (c : Byte) : ∀ b ∈ encChar c, pyAlnum b = true := by
  intro b hb
  unfold encChar at hb
  split at hb
  · next h => rw [List.mem_singleton] at hb; rw [hb]; exact h
  · exact pyDec_alnum _ b hb

theorem encStr_alnum (s : List Byte) : ∀ b ∈ encStr s, pyAlnum b = true := by
  intro b hb
  obtain ⟨c, _, hc⟩ := List.mem_flatMap.1 hb
  exact encChar_alnum c b hc

/-- Alphanumeric parts between underscores can be told apart. -/
theorem cut_alnum {a b x y : List Byte} (ha : ∀ c ∈ a, pyAlnum c = true)
    (hb : ∀ c ∈ b, pyAlnum c = true) (h : a ++ (uu ++ x) = b ++ (uu ++ y)) : a = b ∧ x = y := by
  have hu : pyAlnum (ch '_') = false := by decide
  induction a generalizing b with
  | nil =>
    cases b with
    | nil => exact ⟨rfl, List.append_cancel_left h⟩
    | cons c b =>
      have : ch '_' = c := (List.cons.inj h).1
      rw [this, hb c List.mem_cons_self] at hu
      cases hu
  | cons d a ih =>
    cases b with
    | nil =>
      have : d = ch '_' := (List.cons.inj h).1
      rw [← this, ha d List.mem_cons_self] at hu
      cases hu
    | cons c b =>
      obtain ⟨h1, h2⟩ := List.cons.inj h
      obtain ⟨h3, h4⟩ := ih (fun c hc => ha c (List.mem_cons_of_mem _ hc))
        (fun c hc => hb c (List.mem_cons_of_mem _ hc)) h2
      exact ⟨by rw [h1, h3], h4⟩

theorem logIdStr_eq {f1 f2 n1 n2 : List Byte} {l1 l2 : Nat} :
    logIdStr f1 n1 l1 = logIdStr f2 n2 l2
      ↔ encStr f1 = encStr f2 ∧ encStr n1 = encStr n2 ∧ l1 = l2 := by
  constructor
  · intro h
    simp only [logIdStr, List.append_assoc] at h
    have h0 := List.append_cancel_left h
    obtain ⟨h1, h2⟩ := cut_alnum (encStr_alnum f1) (encStr_alnum f2) h0
    obtain ⟨h3, h4⟩ := cut_alnum (encStr_alnum n1) (encStr_alnum n2) h2
    exact ⟨h1, h3, pyDec_inj (List.append_cancel_right h4)⟩
  · rintro ⟨h1, h2, rfl⟩
    simp only [logIdStr, h1, h2]

/-! ## Prefix codes -/

/-- Characters for which the encoding is a prefix code: no control characters, no digits. -/
def plainChar (c : Byte) : Prop := 32 ≤ c.toNat ∧ ¬ (48 ≤ c.toNat ∧ c.toNat ≤ 57)

instance (c : Byte) : Decidable (plainChar c) := by unfold plainChar; infer_instance

/-- The first character of an encoded string, from its leading bytes. -/
def firstChar : List Byte → Option Byte
  | [] => none
  | a :: l =>
    if ¬ (48 ≤ a.toNat ∧ a.toNat ≤ 57) then some a
    else if a.toNat ≤ 50 then
      match l with
      | b :: c :: _ => some (UInt8.ofNat (digitsVal [a, b, c]))
      | _ => none
    else
      match l with
      | b :: _ => some (UInt8.ofNat (digitsVal [a, b]))
      | _ => none

theorem firstChar_encChar : ∀ c : Fin 256, plainChar (UInt8.ofNat c) →
    firstChar (encChar (UInt8.ofNat c)) = some (UInt8.ofNat c) := by
  decide +kernel

theorem firstChar_append {l : List Byte} {c : Byte} (h : firstChar l = some c) (m : List Byte) :
    firstChar (l ++ m) = some c := by
  match l, h with
  | a :: l, h =>
    rw [List.cons_append]
    unfold firstChar at h ⊢
    dsimp only at h ⊢
    split
    · next hd => rw [if_pos hd] at h; exact h
    · next hd =>
      rw [if_neg hd] at h
      split
      · next h2 =>
        rw [if_pos h2] at h
        match l, h with
        | b :: c :: l, h => exact h
      · next h2 =>
        rw [if_neg h2] at h
        match l, h with
        | b :: l, h => exact h

theorem encChar_prefix {c d : Byte} (hc : plainChar c) (hd : plainChar d)
    (h : encChar c <+: encChar d) : c = d := by
  have hf : ∀ c : Byte, plainChar c → firstChar (encChar c) = some c := by
    intro c hc
    have := firstChar_encChar ⟨c.toNat, c.toNat_lt⟩
    simp only [UInt8.ofNat_toNat] at this
    exact this hc
  obtain ⟨m, hm⟩ := h
  have h1 := firstChar_append (hf c hc) m
  rw [hm, hf d hd] at h1
  exact (Option.some.inj h1).symm

theorem encChar_ne_nil (c : Byte) : encChar c ≠ [] := by
  unfold encChar
  split
  · simp
  · exact pyDec_ne_nil _

theorem encStr_inj : ∀ {s t : List Byte}, (∀ c ∈ s, plainChar c) → (∀ c ∈ t, plainChar c) →
    encStr s = encStr t → s = t := by
  intro s
  induction s with
  | nil =>
    intro t _ ht h
    cases t with
    | nil => rfl
    | cons d t =>
      have : encChar d ++ encStr t = [] := h.symm
      exact absurd (List.append_eq_nil_iff.1 this).1 (encChar_ne_nil d)
  | cons c s ih =>
    intro t hs ht h
    cases t with
    | nil =>
      have : encChar c ++ encStr s = [] := h
      exact absurd (List.append_eq_nil_iff.1 this).1 (encChar_ne_nil c)
    | cons d t =>
      have h' : encChar c ++ encStr s = encChar d ++ encStr t := h
      have hcd : c = d := by
        have hc := hs c List.mem_cons_self
        have hd := ht d List.mem_cons_self
        rcases List.prefix_or_prefix_of_prefix (List.prefix_append (encChar c) (encStr s))
          (h' ▸ List.prefix_append (encChar d) (encStr t)) with hp | hp
        · exact encChar_prefix hc hd hp
        · exact (encChar_prefix hd hc hp).symm
      subst hcd
      rw [ih (fun c hc => hs c (List.mem_cons_of_mem _ hc))
        (fun c hc => ht c (List.mem_cons_of_mem _ hc)) (List.append_cancel_left h')]

/-! ## Dictionaries -/

/-- Keys of a dictionary are distinct. -/
def KeysNodup (d : Code) : Prop := (d.map Prod.fst).Nodup

theorem lookup_isSome {d : Code} {k : List Byte} :
    (d.lookup k).isSome = true ↔ k ∈ d.map Prod.fst := by
  induction d with
  | nil => simp
  | cons p d ih =>
    obtain ⟨k', v⟩ := p
    rw [List.lookup_cons]
    by_cases h : k = k'
    · subst h; simp
    · have hb : (k == k') = false := by simpa using h
      rw [hb]
      simp only [ih, List.map_cons, List.mem_cons, h, false_or]

/-- Keys and entries after a run of the preprocessor. -/
theorem mapFile_spec (ss : List Stmt) : ∀ (d : Code), KeysNodup d → (∀ p ∈ d, p.1 = p.2.id) →
    KeysNodup (ss.foldl genLog d) ∧ (∀ p ∈ ss.foldl genLog d, p.1 = p.2.id ∧ (p ∈ d ∨ p.2 ∈ ss))
      ∧ (∀ s ∈ ss, s.id ∈ (ss.foldl genLog d).map Prod.fst)
      ∧ (∀ p ∈ d, p ∈ ss.foldl genLog d) := by
  induction ss with
  | nil => intro d h1 h2; exact ⟨h1, fun p hp => ⟨h2 p hp, .inl hp⟩, (fun s hs => by cases hs), fun p hp => hp⟩
  | cons s ss ih =>
    intro d h1 h2
    rw [List.foldl_cons]
    by_cases h : (d.lookup s.id).isSome
    · have hg : genLog d s = d := if_pos h
      rw [hg]
      obtain ⟨i1, i2, i3, i4⟩ := ih d h1 h2
      refine ⟨i1, fun p hp => ⟨(i2 p hp).1, ?_⟩, ?_, i4⟩
      · rcases (i2 p hp).2 with h | h
        · exact .inl h
        · exact .inr (List.mem_cons_of_mem _ h)
      · intro t ht
        rcases List.mem_cons.1 ht with rfl | ht
        · obtain ⟨p, hp, he⟩ := List.mem_map.1 (lookup_isSome.1 h)
          exact List.mem_map.2 ⟨p, i4 p hp, he⟩
        · exact i3 t ht
    · have hg : genLog d s = d ++ [(s.id, s)] := if_neg h
      rw [hg]
      have hk : s.id ∉ d.map Prod.fst := fun hc => h (lookup_isSome.2 hc)
      obtain ⟨i1, i2, i3, i4⟩ := ih (d ++ [(s.id, s)])
        (by
          unfold KeysNodup
          rw [List.map_append, List.nodup_append]
          refine ⟨h1, by simp, ?_⟩
          intro a ha b hb
          simp only [List.map_cons, List.map_nil, List.mem_singleton] at hb
          subst hb
          rintro rfl
          exact hk ha)
        (by
          intro p hp
          rcases List.mem_append.1 hp with hp | hp
          · exact h2 p hp
          · rw [List.mem_singleton] at hp; subst hp; rfl)
      refine ⟨i1, fun p hp => ⟨(i2 p hp).1, ?_⟩, ?_, fun p hp => i4 p (List.mem_append_left _ hp)⟩
      · rcases (i2 p hp).2 with h | h
        · rcases List.mem_append.1 h with h | h
          · exact .inl h
          · rw [List.mem_singleton] at h; subst h; exact .inr List.mem_cons_self
        · exact .inr (List.mem_cons_of_mem _ h)
      · intro t ht
        rcases List.mem_cons.1 ht with rfl | ht
        · exact List.mem_map.2 ⟨(t.id, t), i4 _ (List.mem_append_right _ (List.mem_singleton.2 rfl)), rfl⟩
        · exact i3 t ht

theorem dictSet_keys (d : Code) (k : List Byte) (v : Stmt) :
    (dictSet d k v).map Prod.fst = if k ∈ d.map Prod.fst then d.map Prod.fst else d.map Prod.fst ++ [k] := by
  unfold dictSet
  by_cases h : (d.lookup k).isSome
  · rw [if_pos h, if_pos (lookup_isSome.1 h), List.map_map]
    refine List.map_congr_left fun p _ => ?_
    simp only [Function.comp_apply]
    split
    · next h => exact h.symm
    · rfl
  · rw [if_neg h, if_neg fun hc => h (lookup_isSome.2 hc), List.map_append]
    rfl

theorem dictSet_mem {d : Code} {k : List Byte} {v : Stmt} {p : List Byte × Stmt}
    (h : p ∈ dictSet d k v) : p ∈ d ∨ p = (k, v) := by
  unfold dictSet at h
  split at h
  · obtain ⟨q, hq, rfl⟩ := List.mem_map.1 h
    split
    · exact .inr rfl
    · exact .inl hq
  · rcases List.mem_append.1 h with h | h
    · exact .inl h
    · exact .inr (List.mem_singleton.1 h)

theorem update_spec (f : Code) : ∀ (d : Code), KeysNodup d →
    let d' := f.foldl (fun d p => dictSet d p.1 p.2) d
    KeysNodup d' ∧ (∀ p ∈ d', p ∈ d ∨ p ∈ f)
      ∧ ∀ k, k ∈ d'.map Prod.fst ↔ k ∈ d.map Prod.fst ∨ k ∈ f.map Prod.fst := by
  induction f with
  | nil => intro d h; exact ⟨h, fun p hp => .inl hp, fun k => by simp⟩
  | cons q f ih =>
    intro d h
    have hk := dictSet_keys d q.1 q.2
    have hn : KeysNodup (dictSet d q.1 q.2) := by
      unfold KeysNodup
      rw [hk]
      split
      · exact h
      · next hc =>
        rw [List.nodup_append]
        refine ⟨h, by simp, ?_⟩
        intro a ha b hb
        rw [List.mem_singleton] at hb
        subst hb
        rintro rfl
        exact hc ha
    obtain ⟨i1, i2, i3⟩ := ih _ hn
    refine ⟨i1, ?_, ?_⟩
    · intro p hp
      rcases i2 p hp with h | h
      · rcases dictSet_mem h with h | rfl
        · exact .inl h
        · exact .inr List.mem_cons_self
      · exact .inr (List.mem_cons_of_mem _ h)
    · intro k
      have : k ∈ (dictSet d q.1 q.2).map Prod.fst ↔ k ∈ d.map Prod.fst ∨ k = q.1 := by
        rw [hk]
        split
        · next hc => exact ⟨.inl, fun h => h.elim id fun h => h ▸ hc⟩
        · simp
      rw [List.foldl_cons, i3 k, this, List.map_cons, List.mem_cons, or_assoc]

theorem mergeMaps_spec (fs : List Code) : ∀ (d : Code), KeysNodup d →
    let d' := fs.foldl (fun d f => f.foldl (fun d p => dictSet d p.1 p.2) d) d
    KeysNodup d' ∧ (∀ p ∈ d', p ∈ d ∨ ∃ f ∈ fs, p ∈ f)
      ∧ ∀ k, k ∈ d'.map Prod.fst ↔ k ∈ d.map Prod.fst ∨ ∃ f ∈ fs, k ∈ f.map Prod.fst := by
  induction fs with
  | nil => intro d h; exact ⟨h, fun p hp => .inl hp, fun k => by simp⟩
  | cons f fs ih =>
    intro d h
    obtain ⟨u1, u2, u3⟩ := update_spec f d h
    obtain ⟨i1, i2, i3⟩ := ih _ u1
    refine ⟨i1, ?_, ?_⟩
    · intro p hp
      rcases i2 p hp with h | ⟨g, hg, h⟩
      · rcases u2 p h with h | h
        · exact .inl h
        · exact .inr ⟨f, List.mem_cons_self, h⟩
      · exact .inr ⟨g, List.mem_cons_of_mem _ hg, h⟩
    · intro k
      rw [List.foldl_cons, i3 k, u3 k]
      simp only [List.mem_cons, exists_eq_or_imp, or_assoc]

theorem insItem_perm (p : List Byte × Stmt) (l : Code) : (insItem p l).Perm (p :: l) := by
  induction l with
  | nil => exact .refl _
  | cons q l ih =>
    rw [insItem]
    split
    · exact .refl _
    · exact (ih.cons q).trans (.swap p q l)

theorem sortedItems_perm (d : Code) : (sortedItems d).Perm d := by
  induction d with
  | nil => exact .refl _
  | cons p d ih => exact (insItem_perm p _).trans (ih.cons p)

theorem codeTables_spec (units : List (List Stmt)) :
    KeysNodup (codeTables units)
      ∧ (∀ p ∈ codeTables units, p.1 = p.2.id ∧ ∃ u ∈ units, p.2 ∈ u)
      ∧ ∀ u ∈ units, ∀ s ∈ u, s.id ∈ (codeTables units).map Prod.fst := by
  have hperm : (codeTables units).Perm (mergeMaps (units.map mapFile)) := sortedItems_perm _
  obtain ⟨m1, m2, m3⟩ := mergeMaps_spec (units.map mapFile) [] (by unfold KeysNodup; simp)
  have hmap : ∀ u, KeysNodup (mapFile u) ∧ (∀ p ∈ mapFile u, p.1 = p.2.id ∧ p.2 ∈ u)
      ∧ ∀ s ∈ u, s.id ∈ (mapFile u).map Prod.fst := by
    intro u
    obtain ⟨a, b, c, _⟩ := mapFile_spec u [] (by unfold KeysNodup; simp) (fun p hp => by cases hp)
    refine ⟨a, fun p hp => ⟨(b p hp).1, ?_⟩, c⟩
    rcases (b p hp).2 with h | h
    · cases h
    · exact h
  refine ⟨?_, ?_, ?_⟩
  · unfold KeysNodup
    exact (hperm.map Prod.fst).nodup_iff.2 m1
  · intro p hp
    rcases m2 p (hperm.mem_iff.1 hp) with h | ⟨f, hf, h⟩
    · cases h
    · obtain ⟨u, hu, rfl⟩ := List.mem_map.1 hf
      exact ⟨((hmap u).2.1 p h).1, u, hu, ((hmap u).2.1 p h).2⟩
  · intro u hu s hs
    refine (hperm.map Prod.fst).mem_iff.2 ((m3 s.id).2 (.inr ?_))
    exact ⟨mapFile u, List.mem_map_of_mem hu, (hmap u).2.2 s hs⟩

/-! ## The properties -/

/-- **C37.**  When exactly two statements share an identifier: their line numbers agree and the
encodings of file name and of format string agree.  So statements on different lines never
share one. -/
theorem C37_ids_exact (s t : Stmt) :
    s.id = t.id ↔ encStr s.fmt = encStr t.fmt ∧ encStr s.file = encStr t.file ∧ s.line = t.line :=
  logIdStr_eq

/-- **C37.**  Statements whose format strings and file names consist of characters other than
digits and control characters have the same identifier only if they agree in format string, file
and line.  Partial: with digits it is false (`C37_digits_false`). -/
theorem C37_ids_partial (s t : Stmt) (hs : ∀ c ∈ s.fmt ++ s.file, plainChar c)
    (ht : ∀ c ∈ t.fmt ++ t.file, plainChar c) :
    s.id = t.id ↔ s.fmt = t.fmt ∧ s.file = t.file ∧ s.line = t.line := by
  rw [C37_ids_exact]
  constructor
  · rintro ⟨h1, h2, h3⟩
    exact ⟨encStr_inj (fun c hc => hs c (List.mem_append_left _ hc))
      (fun c hc => ht c (List.mem_append_left _ hc)) h1,
      encStr_inj (fun c hc => hs c (List.mem_append_right _ hc))
      (fun c hc => ht c (List.mem_append_right _ hc)) h2, h3⟩
  · rintro ⟨h1, h2, h3⟩
    exact ⟨by rw [h1], by rw [h2], h3⟩

/-- Two statements on line 7 of `a.cc`. -/
def exStmtA : Stmt := ⟨asc "NOTICE", asc "left %s!", asc "a.cc", asc "a.cc", 7⟩
def exStmtB : Stmt := ⟨asc "NOTICE", asc "left %s?", asc "a.cc", asc "a.cc", 7⟩

example : (∀ c ∈ exStmtA.fmt ++ exStmtA.file, plainChar c)
    ∧ (∀ c ∈ exStmtB.fmt ++ exStmtB.file, plainChar c) ∧ exStmtA.id ≠ exStmtB.id
    ∧ exStmtA.id = asc "__left3237s33__a46cc__7__" := by
  decide +kernel

/-- **C37**, the numbering: over any compilation units, every statement's record function stores
a number below the size of the tables, and the tables hold at that number the code generated for
a statement with the same identifier that occurs in one of the units.  Different identifiers get
different numbers. -/
theorem C37_numbering (units : List (List Stmt)) (u : List Stmt) (hu : u ∈ units) (s : Stmt)
    (hs : s ∈ u) :
    ∃ n t, fmtIdVar (codeTables units) s.id = some n ∧ (codeTables units)[n]? = some (s.id, t)
      ∧ t.id = s.id ∧ (∃ u' ∈ units, t ∈ u')
      ∧ ∀ u' ∈ units, ∀ s' ∈ u', fmtIdVar (codeTables units) s'.id = some n → s'.id = s.id := by
  obtain ⟨_, h2, h3⟩ := codeTables_spec units
  have hm := h3 u hu s hs
  have hex : ∀ k, fmtIdVar (codeTables units) k = none ∨ ∃ n p, fmtIdVar (codeTables units) k = some n
      ∧ (codeTables units)[n]? = some p ∧ p.1 = k := by
    intro k
    cases h : fmtIdVar (codeTables units) k with
    | none => exact .inl rfl
    | some n =>
      obtain ⟨hlt, hp, _⟩ := List.findIdx?_eq_some_iff_getElem.1 h
      exact .inr ⟨n, _, rfl, List.getElem?_eq_getElem hlt, by simpa using hp⟩
  rcases hex s.id with h | ⟨n, p, hn, hp, he⟩
  · exfalso
    obtain ⟨p, hp, he⟩ := List.mem_map.1 hm
    have := List.findIdx?_eq_none_iff.1 h p hp
    simp [he] at this
  · obtain ⟨hid, hocc⟩ := h2 p (List.mem_of_getElem? hp)
    refine ⟨n, p.2, hn, by rw [hp, ← he], by rw [← hid, he], hocc, ?_⟩
    intro u' _ s' _ hs'
    rcases hex s'.id with h | ⟨m, q, hm', hq, hqe⟩
    · rw [h] at hs'; cases hs'
    · rw [hm'] at hs'
      cases hs'
      rw [hp] at hq
      cases hq
      rw [← hqe, he]

/-- **C37.**  With the condition of `C37_ids_partial` on all statements: the number a record
function stores selects table entries generated from its own format string, file and line. -/
theorem C37_own_code_partial (units : List (List Stmt))
    (hp : ∀ u ∈ units, ∀ s ∈ u, ∀ c ∈ s.fmt ++ s.file, plainChar c)
    (u : List Stmt) (hu : u ∈ units) (s : Stmt) (hs : s ∈ u) :
    ∃ n t, fmtIdVar (codeTables units) s.id = some n ∧ (codeTables units)[n]? = some (s.id, t)
      ∧ t.fmt = s.fmt ∧ t.file = s.file ∧ t.line = s.line := by
  obtain ⟨n, t, h1, h2, h3, ⟨u', hu', ht⟩, _⟩ := C37_numbering units u hu s hs
  exact ⟨n, t, h1, h2, (C37_ids_partial t s (hp u' hu' t ht) (hp u hu s hs)).1 h3⟩

/-- The identifier of the placeholder entry (preprocessor/FunctionGenerator.py:79), which is
skipped in the output, belongs to no statement. -/
theorem C37_not_invalid (s : Stmt) : s.id ≠ asc "__INVALID__INVALID__INVALID__" := by
  intro h
  have h' : uu ++ (encStr s.fmt ++ (uu ++ (encStr s.file ++ (uu ++ (pyDec s.line ++ (uu ++ [])))))) =
      uu ++ (asc "INVALID" ++ (uu ++ (asc "INVALID" ++ (uu ++ (asc "INVALID" ++ (uu ++ [])))))) := by
    rw [show uu ++ (asc "INVALID" ++ (uu ++ (asc "INVALID" ++ (uu ++ (asc "INVALID" ++ (uu ++ []))))))
      = asc "__INVALID__INVALID__INVALID__" from by decide, ← h]
    simp [Stmt.id, logIdStr]
  have hinv : ∀ c ∈ asc "INVALID", pyAlnum c = true := by decide
  obtain ⟨_, h1⟩ := cut_alnum (encStr_alnum _) hinv (List.append_cancel_left h')
  obtain ⟨_, h2⟩ := cut_alnum (encStr_alnum _) hinv h1
  obtain ⟨h3, _⟩ := cut_alnum (pyDec_alnum _) hinv h2
  have := pyDec_digits s.line (ch 'I') (by rw [h3]; decide)
  revert this
  decide

/-- **C37** is false in general: two statements on one line, with the formats `x!` and `x33`,
share an identifier (33 is the code of `!`), and the second one is given the code of the first,
so its messages are printed with the wrong text.  The same happens for files `a+.cc` and
`a43.cc`. -/
theorem C37_digits_false :
    ∃ s t : Stmt, s.fmt ≠ t.fmt ∧ s.file = t.file ∧ s.line = t.line ∧ s.id = t.id
      ∧ (codeTables [[s, t]]) = [(s.id, s)] ∧ fmtIdVar (codeTables [[s, t]]) t.id = some 0 := by
  refine ⟨⟨asc "NOTICE", asc "x!", asc "a.cc", asc "a.cc", 7⟩,
    ⟨asc "NOTICE", asc "x33", asc "a.cc", asc "a.cc", 7⟩, ?_⟩
  decide +kernel

/-- The severity is not part of the identifier: of two statements on one line that differ in it
only, both are recorded in the tables with the severity of the first. -/
theorem C37_level_false :
    ∃ s t : Stmt, s.level ≠ t.level ∧ s.fmt = t.fmt ∧ s.file = t.file ∧ s.line = t.line
      ∧ codeTables [[s, t]] = [(s.id, s)] ∧ fmtIdVar (codeTables [[s, t]]) t.id = some 0 := by
  refine ⟨⟨asc "NOTICE", asc "x", asc "a.cc", asc "a.cc", 7⟩,
    ⟨asc "ERROR", asc "x", asc "a.cc", asc "a.cc", 7⟩, ?_⟩
  decide +kernel

/-- Two units that include the same header, and their tables. -/
def exUnits : List (List Stmt) :=
  [[⟨asc "DEBUG", asc "hdr %s", asc "a.cc", asc "h.h", 3⟩, exStmtA, exStmtB],
   [⟨asc "DEBUG", asc "hdr %s", asc "b.cc", asc "h.h", 3⟩,
    ⟨asc "ERROR", asc "left %s!", asc "b.cc", asc "b.cc", 7⟩]]

example : (∀ u ∈ exUnits, ∀ s ∈ u, ∀ c ∈ s.fmt ++ s.file, plainChar c)
    ∧ (codeTables exUnits).map (fun p => p.2.fmt)
      = [asc "hdr %s", asc "left %s!", asc "left %s!", asc "left %s?"]
    ∧ fmtIdVar (codeTables exUnits) exStmtB.id = some 3 := by
  decide +kernel

end NanoLog
