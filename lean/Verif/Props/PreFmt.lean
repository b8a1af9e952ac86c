import Verif.GenSpec
import Verif.PreFmt
import Verif.FmtRegex
import Verif.Props.PreLiteral

/-!
# C39: the preprocessor and the decoder split format strings alike
-/

namespace NanoLog

/-! ## Both loops on the same text -/

/-- The fragments the decoder builds for matches; `none` for an unknown type. -/
def decFrags : List (RMatch × List Byte) → Option (List Frag)
  | [] => some []
  | p :: ps =>
    match getFormatType p.1.len p.1.spec with
    | none => none
    | some ty => (decFrags ps).map
        (⟨some ty, p.1.width.head? = some (ch '*'), p.1.prec.head? = some (ch '*'), p.2⟩ :: ·)

/-- Nibbles the decoder counts. -/
def decNibbles : List (RMatch × List Byte) → Nat
  | [] => 0
  | p :: ps => (if p.1.spec ≠ ch 's' then 1 else 0) + (if p.1.width.head? = some (ch '*') then 1 else 0)
      + (if p.1.prec.head? = some (ch '*') then 1 else 0) + decNibbles ps

/-- The preprocessor passes over the text of a conversion. -/
theorem pyScan_plain (fmt : List Byte) : ∀ (t r : List Byte) (fuel i pct start : Nat)
    (ms : List (RMatch × List Byte)), t ≠ [] → (∀ b ∈ t, b ≠ ch '%' ∧ b ≠ ch '\\') →
    fmt.drop i = t ++ r →
    pyScan fmt (t.length + fuel) i pct start ms = pyScan fmt fuel (i + t.length) 0 start ms := by
  intro t
  induction t with
  | nil => intro r fuel i pct start ms h; exact absurd rfl h
  | cons b t ih =>
    intro r fuel i pct start ms _ hp hd
    have hb := hp b List.mem_cons_self
    have hlen : (b :: t).length + fuel = (t.length + fuel) + 1 := by simp only [List.length_cons]; omega
    have hd' : fmt.drop (i + 1) = t ++ r := by
      rw [← List.drop_drop, hd]; rfl
    rw [hlen, pyScan, hd]
    simp only [List.cons_append]
    rw [if_neg hb.2, if_neg hb.1]
    cases t with
    | nil => simp
    | cons b' t =>
      rw [ih r fuel (i + 1) 0 start ms (by simp) (fun x hx => hp x (List.mem_cons_of_mem _ hx)) hd']
      congr 1
      simp only [List.length_cons]
      omega

theorem microLoop_bs_nil (fuel pct : Nat) (st : MState) :
    microLoop (fuel + 1) [ch '\\'] pct st = some { st with text := st.text ++ [ch '\\'] } := by
  simp [microLoop]

theorem microLoop_bs (fuel pct : Nat) (st : MState) (d : Byte) (s : List Byte) :
    microLoop (fuel + 1) (ch '\\' :: d :: s) pct st
      = microLoop fuel s pct { st with text := st.text ++ [ch '\\', d] } := by
  simp [microLoop]

theorem microLoop_plain (fuel pct : Nat) (st : MState) {c : Byte} (s : List Byte) (h1 : c ≠ ch '\\')
    (h2 : c ≠ ch '%') :
    microLoop (fuel + 1) (c :: s) pct st = microLoop fuel s 0 { st with text := st.text ++ [c] } := by
  cases s <;> simp [microLoop, h1, h2]

theorem microLoop_skip (fuel pct : Nat) (st : MState) (s : List Byte)
    (h : (pct + 1) % 2 = 0 ∨ regexMatch (ch '%' :: s) = none) :
    microLoop (fuel + 1) (ch '%' :: s) pct st
      = microLoop fuel s (pct + 1) { st with text := st.text ++ [ch '%'] } := by
  have hb : ch '%' ≠ ch '\\' := by decide
  have hm : (if (pct + 1) % 2 = 0 then none else regexMatch (ch '%' :: s)) = none := by
    split
    · rfl
    · next hh => exact h.resolve_left hh
  cases s <;> simp [microLoop, hb, hm]

theorem microLoop_match (fuel pct : Nat) (st : MState) (s : List Byte) {m : RMatch}
    (h : (pct + 1) % 2 = 1) (hm : regexMatch (ch '%' :: s) = some m) :
    microLoop (fuel + 1) (ch '%' :: s) pct st =
      match getFormatType m.len m.spec with
      | none => none
      | some ty =>
        microLoop fuel m.rest 0
            { text := []
              frags := st.frags ++ [{ ty := some ty, dynW := m.width.head? = some (ch '*')
                                      dynP := m.prec.head? = some (ch '*')
                                      text := st.text ++ (ch '%' :: s).take ((ch '%' :: s).length - m.rest.length) }]
              nibbles := st.nibbles + (if m.spec ≠ ch 's' then 1 else 0) +
                (if m.width.head? = some (ch '*') then 1 else 0)
                + (if m.prec.head? = some (ch '*') then 1 else 0) } := by
  have hb : ch '%' ≠ ch '\\' := by decide
  have hp : ¬ (pct + 1) % 2 = 0 := by omega
  cases s with
  | nil => simp [microLoop, hb, hm, hp]; rfl
  | cons d s => simp [microLoop, hb, hm, hp]; rfl

/-- Texts in which every `%` belongs to a `%%` or to a conversion, where backslashes hide the
character that follows. -/
inductive Accepted : List Byte → Prop where
  | nil : Accepted []
  | last : Accepted [ch '\\']
  | esc {d s} : Accepted s → Accepted (ch '\\' :: d :: s)
  | plain {c s} : c ≠ ch '%' → c ≠ ch '\\' → Accepted s → Accepted (c :: s)
  | pct {s} : Accepted s → Accepted (ch '%' :: ch '%' :: s)
  | conv {c : RawConv} {s} : c.WF → Accepted s → Accepted (c.bytes ++ s)

theorem scan_sim (fmt : List Byte) : ∀ (n : Nat) (s : List Byte), s.length ≤ n →
    ∀ (i pct pct' start : Nat) (ms : List (RMatch × List Byte)) (st : MState) (fuel fuel' : Nat),
    fmt.drop i = s → (s = [] ∨ i = start + st.text.length) → fmt.drop start = st.text ++ s →
    pct % 2 = 0 → pct' % 2 = 0 → s.length ≤ fuel → s.length ≤ fuel' →
    ∀ ms' start', pyScan fmt fuel i pct start ms = some (ms', start') →
    ∃ ext, ms' = ms ++ ext ∧ (∀ p ∈ ext, ∃ c : RawConv, c.WF ∧ (∃ a b, fmt = a ++ c.bytes ++ b)
        ∧ p.1 = ⟨c.width.bytes, c.prec.bytes, c.len, c.spec, p.1.rest⟩)
      ∧ Accepted s
      ∧ microLoop fuel' s pct' st = (decFrags ext).map fun fs =>
          { text := fmt.drop start', frags := st.frags ++ fs, nibbles := st.nibbles + decNibbles ext } := by
  intro n
  induction n with
  | zero =>
    intro s hs i pct pct' start ms st fuel fuel' hd hi ht hp hp' hf hf' ms' start' h
    have hs0 : s = [] := List.length_eq_zero_iff.1 (by omega)
    subst hs0
    have e : pyScan fmt fuel i pct start ms = some (ms, start) := by
      cases fuel with
      | zero => rfl
      | succ fuel => rw [pyScan, hd]
    rw [e] at h
    cases h
    refine ⟨[], by simp, by simp, ?_, ?_⟩
    · exact .nil
    rw [ht]
    cases fuel' <;> simp [microLoop, decFrags, decNibbles]
  | succ n ih =>
    intro s hs i pct pct' start ms st fuel fuel' hd hi ht hp hp' hf hf' ms' start' h
    cases s with
    | nil =>
      have e : pyScan fmt fuel i pct start ms = some (ms, start) := by
        cases fuel with
        | zero => rfl
        | succ fuel => rw [pyScan, hd]
      rw [e] at h
      cases h
      refine ⟨[], by simp, by simp, ?_, ?_⟩
      · exact .nil
      rw [ht]
      cases fuel' <;> simp [microLoop, decFrags, decNibbles]
    | cons c s =>
      have hi : i = start + st.text.length := by
        rcases hi with hi | hi
        · cases hi
        · exact hi
      simp only [List.length_cons] at hs hf hf'
      obtain ⟨fuel, rfl⟩ : ∃ f, fuel = f + 1 := ⟨fuel - 1, by omega⟩
      obtain ⟨fuel', rfl⟩ : ∃ f, fuel' = f + 1 := ⟨fuel' - 1, by omega⟩
      rw [pyScan, hd] at h
      dsimp only at h
      have hd1 : fmt.drop (i + 1) = s := by rw [← List.drop_drop, hd]; rfl
      by_cases hbs : c = ch '\\'
      · rw [if_pos hbs] at h
        subst hbs
        cases s with
        | nil =>
          have hd2 : fmt.drop (i + 2) = [] := by
            rw [← List.drop_drop, hd]; rfl
          have e : pyScan fmt fuel (i + 2) pct start ms = some (ms, start) := by
            cases fuel with
            | zero => rfl
            | succ fuel => rw [pyScan, hd2]
          rw [e] at h
          cases h
          refine ⟨[], by simp, by simp, ?_, ?_⟩
          · exact .last
          rw [ht, microLoop_bs_nil]
          simp [decFrags, decNibbles]
        | cons d s =>
          have hd2 : fmt.drop (i + 2) = s := by
            rw [← List.drop_drop, hd]; rfl
          simp only [List.length_cons] at hs hf hf'
          obtain ⟨ext, h1, h2, h3, h4⟩ := ih s (by omega) (i + 2) pct pct' start ms
            { st with text := st.text ++ [ch '\\', d] } fuel fuel' hd2 (.inr (by simp; omega)) (by simp [ht])
            hp hp' (by omega) (by omega) ms' start' h
          exact ⟨ext, h1, h2, .esc h3, by rw [microLoop_bs]; exact h4⟩
      · rw [if_neg hbs] at h
        by_cases hpc : c = ch '%'
        · rw [if_pos hpc, if_pos (by omega)] at h
          subst hpc
          cases hm : regexMatch (ch '%' :: s) with
          | some m =>
            rw [hm] at h
            dsimp only at h
            rw [microLoop_match fuel' pct' st s (by omega) hm]
            obtain ⟨rc, hrc, hs', hmm⟩ := regexMatch_inv hm
            have htail : s = rc.tail ++ m.rest := by
              rw [RawConv.bytes, List.cons_append] at hs'
              exact (List.cons.inj hs').2
            have hmlen : (ch '%' :: s).length - m.rest.length = rc.tail.length + 1 := by
              rw [htail]; simp only [List.length_cons, List.length_append]; omega
            have hsub : (fmt.drop start).take (i + (rc.tail.length + 1) - start)
                = st.text ++ rc.bytes := by
              rw [ht, hs', ← List.append_assoc]
              have : i + (rc.tail.length + 1) - start = (st.text ++ rc.bytes).length := by
                simp only [List.length_append, RawConv.bytes, List.length_cons]; omega
              rw [this, List.take_left]
            have hmatched : (ch '%' :: s).take ((ch '%' :: s).length - m.rest.length) = rc.bytes := by
              rw [hmlen, hs']
              have : rc.tail.length + 1 = rc.bytes.length := by simp [RawConv.bytes]
              rw [this, List.take_left]
            rw [hmlen, hsub] at h
            have htne : rc.tail ≠ [] := by simp [RawConv.tail]
            have hlen2 : s.length = rc.tail.length + m.rest.length := by rw [htail]; simp
            obtain ⟨k, rfl⟩ : ∃ k, fuel = rc.tail.length + k := ⟨fuel - rc.tail.length, by omega⟩
            rw [pyScan_plain fmt rc.tail m.rest k (i + 1) _ _ _ htne (RawConv.tail_plain hrc)
              (by rw [hd1, htail])] at h
            have hde : fmt.drop (i + 1 + rc.tail.length) = m.rest := by
              rw [← List.drop_drop, hd1, htail, List.drop_left]
            have hidx : i + (rc.tail.length + 1) = i + 1 + rc.tail.length := by omega
            rw [hidx] at h
            have hwf : ∃ c : RawConv, c.WF ∧ (∃ a b, fmt = a ++ c.bytes ++ b)
                ∧ m = ⟨c.width.bytes, c.prec.bytes, c.len, c.spec, m.rest⟩ := by
              refine ⟨rc, hrc, ⟨fmt.take i, m.rest, ?_⟩, hmm⟩
              rw [List.append_assoc, ← hs', ← hd, List.take_append_drop]
            cases hty : getFormatType m.len m.spec with
            | none =>
              -- the decoder fails
              obtain ⟨ext, h1, h2, h3, h4⟩ := ih m.rest (by omega) (i + 1 + rc.tail.length) 0 0
                (i + 1 + rc.tail.length) _ ⟨[], [], 0⟩ k m.rest.length hde (.inr (by simp))
                (by rw [hde]; rfl) rfl rfl (by omega) (Nat.le_refl _) ms' start' h
              refine ⟨(m, st.text ++ rc.bytes) :: ext, by rw [h1]; simp, ?_, hs' ▸ .conv hrc h3, ?_⟩
              · intro p hp
                rcases List.mem_cons.1 hp with rfl | hp
                · exact hwf
                · exact h2 p hp
              · simp [decFrags, hty]
            | some ty =>
              dsimp only
              obtain ⟨ext, h1, h2, h3, h4⟩ := ih m.rest (by omega) (i + 1 + rc.tail.length) 0 0
                (i + 1 + rc.tail.length) _
                { text := []
                  frags := st.frags ++ [⟨some ty, m.width.head? = some (ch '*'),
                    m.prec.head? = some (ch '*'), st.text ++ rc.bytes⟩]
                  nibbles := st.nibbles + (if m.spec ≠ ch 's' then 1 else 0)
                    + (if m.width.head? = some (ch '*') then 1 else 0)
                    + (if m.prec.head? = some (ch '*') then 1 else 0) } k fuel' hde (.inr (by simp))
                (by rw [hde]; rfl) rfl rfl (by omega) (by omega) ms' start' h
              refine ⟨(m, st.text ++ rc.bytes) :: ext, by rw [h1]; simp, ?_, hs' ▸ .conv hrc h3, ?_⟩
              · intro p hp
                rcases List.mem_cons.1 hp with rfl | hp
                · exact hwf
                · exact h2 p hp
              · rw [hmatched]
                rw [h4]
                simp only [decFrags, hty, Option.map_map]
                congr 1
                funext fs
                simp only [Function.comp_apply, List.append_assoc, List.cons_append, List.nil_append,
                  decNibbles, MState.mk.injEq, true_and]
                omega
          | none =>
            rw [hm] at h
            dsimp only at h
            rw [microLoop_skip fuel' pct' st s (.inr hm)]
            split at h
            · next hh =>
              cases s with
              | nil => simp at hh
              | cons d s =>
                obtain rfl : d = ch '%' := by simpa using hh
                simp only [List.length_cons] at hs hf hf'
                obtain ⟨fuel, rfl⟩ : ∃ f, fuel = f + 1 := ⟨fuel - 1, by omega⟩
                obtain ⟨fuel', rfl⟩ : ∃ f, fuel' = f + 1 := ⟨fuel' - 1, by omega⟩
                have hd2 : fmt.drop (i + 1 + 1) = s := by rw [← List.drop_drop, hd1]; rfl
                rw [pyScan, hd1] at h
                dsimp only at h
                rw [if_neg (by decide), if_pos rfl, if_neg (by omega)] at h
                rw [microLoop_skip fuel' _ _ s (.inl (by omega))]
                obtain ⟨ext, h1, h2, h3, h4⟩ := ih s (by omega) (i + 1 + 1) (pct + 1 + 1) (pct' + 1 + 1)
                  start ms { st with text := st.text ++ [ch '%'] ++ [ch '%'] } fuel fuel' hd2
                  (.inr (by simp; omega)) (by simp [ht]) (by omega) (by omega) (by omega) (by omega)
                  ms' start' h
                exact ⟨ext, h1, h2, .pct h3, h4⟩
            · cases h
        · rw [if_neg hpc] at h
          rw [microLoop_plain fuel' pct' st s hbs hpc]
          obtain ⟨ext, h1, h2, h3, h4⟩ := ih s (by omega) (i + 1) 0 0 start ms
            { st with text := st.text ++ [c] } fuel fuel' hd1 (.inr (by simp; omega)) (by simp [ht])
            rfl rfl (by omega) (by omega) ms' start' h
          exact ⟨ext, h1, h2, .plain hpc hbs h3, h4⟩

/-! ## Types -/

/-- The specifiers of the regular expression. -/
def specList : List Byte :=
  [ch 'd', ch 'i', ch 'u', ch 'o', ch 'x', ch 'X', ch 'f', ch 'F', ch 'e', ch 'E',
   ch 'g', ch 'G', ch 'a', ch 'A', ch 'c', ch 's', ch 'p', ch 'n']

/-- Integer conversions. -/
def intSpecs : List Byte := [ch 'd', ch 'i', ch 'u', ch 'o', ch 'x', ch 'X']

/-- For every combination the preprocessor accepts, except integers with `Z`, both arrive at the
same type. -/
theorem types_agree {len : List Byte} (hl : len ∈ rawLens) {spec : Byte} (hs : isSpec spec = true)
    {t : List Byte} (ht : pyType len spec = some t) (hz : ¬ (len = [ch 'Z'] ∧ spec ∈ intSpecs)) :
    ∃ ty, getFormatType len spec = some ty ∧ enumOf (enumName t) = some ty
      ∧ isStringType t = decide (spec = ch 's') := by
  have h : ∀ len ∈ rawLens, ∀ spec ∈ specList, (match pyType len spec, getFormatType len spec with
      | none, _ => true
      | some _, none => decide (len = [ch 'Z'] ∧ spec ∈ intSpecs)
      | some t, some ty => decide (enumOf (enumName t) = some ty) &&
          decide (isStringType t = decide (spec = ch 's'))) = true := by
    decide +kernel
  have := h len hl spec (of_decide_eq_true hs)
  rw [ht] at this
  cases hg : getFormatType len spec with
  | none =>
    rw [hg] at this
    exact absurd (of_decide_eq_true this) hz
  | some ty =>
    rw [hg] at this
    simp only [Bool.and_eq_true] at this
    exact ⟨ty, rfl, of_decide_eq_true this.1, of_decide_eq_true this.2⟩

theorem pyNum_star {f : NumField} (hf : f.Digits) :
    (decide (pyNum f.bytes = .star)) = decide (f.bytes.head? = some (ch '*')) := by
  cases f with
  | none => rfl
  | star => rfl
  | digits ds =>
    obtain ⟨h1, h2⟩ := hf ds rfl
    cases ds with
    | nil => exact absurd rfl h1
    | cons d ds =>
      have hd := (digit_facts d (h2 d List.mem_cons_self)).1
      have e1 : pyNum (NumField.digits (d :: ds)).bytes = .num (digitsVal (d :: ds)) := by
        simp [pyNum, NumField.bytes, hd]
      rw [e1]
      simp [NumField.bytes, hd]

/-- A match that comes from a conversion other than an integer with `Z`. -/
def GoodMatch (m : RMatch) : Prop :=
  ∃ c : RawConv, c.WF ∧ ¬ (c.len = [ch 'Z'] ∧ c.spec ∈ intSpecs)
    ∧ m = ⟨c.width.bytes, c.prec.bytes, c.len, c.spec, m.rest⟩

theorem fmts_agree (ms : List (RMatch × List Byte)) (hg : ∀ p ∈ ms, GoodMatch p.1) :
    ∀ fs, pyFmts ms = some fs →
      ∃ gs, decFrags ms = some gs ∧ pyFrags fs = some gs ∧ pyNibbles fs = decNibbles ms := by
  induction ms with
  | nil => intro fs h; cases h; exact ⟨[], rfl, rfl, rfl⟩
  | cons p ms ih =>
    intro fs h
    rw [pyFmts] at h
    obtain ⟨c, hc, hz, hm⟩ := hg p List.mem_cons_self
    have elen : p.1.len = c.len := by rw [hm]
    have espec : p.1.spec = c.spec := by rw [hm]
    have ewid : p.1.width = c.width.bytes := by rw [hm]
    have eprec : p.1.prec = c.prec.bytes := by rw [hm]
    cases ht : pyType p.1.len p.1.spec with
    | none => rw [pyFmtOf, ht] at h; cases h
    | some t =>
      rw [pyFmtOf, ht] at h
      simp only [Option.map_some] at h
      cases hr : pyFmts ms with
      | none => rw [hr] at h; cases h
      | some fs' =>
        rw [hr] at h
        simp only [Option.map_some, Option.some.injEq] at h
        subst h
        obtain ⟨gs, h1, h2, h3⟩ := ih (fun p hp => hg p (List.mem_cons_of_mem _ hp)) fs' hr
        rw [elen, espec] at ht
        obtain ⟨ty, g1, g2, g3⟩ := types_agree hc.2.2.2.2.1 hc.2.2.2.2.2 ht hz
        have hw := pyNum_star hc.2.1
        have hp := pyNum_star hc.2.2.2.1
        refine ⟨⟨some ty, decide (pyNum p.1.width = .star), decide (pyNum p.1.prec = .star), p.2⟩ :: gs,
          ?_, ?_, ?_⟩
        · rw [decFrags, elen, espec, g1]
          simp only [h1, Option.map_some, ewid, eprec, hw, hp]
        · rw [pyFrags, PyFmt.frag]
          simp only [g2, h2, Option.map_some]
        · rw [decNibbles, ← h3, ewid, eprec, espec]
          have hint : isStringType (pyStr "int") = false := by decide
          simp only [pyNibbles, pyArgs, List.flatMap_cons, PyFmt.args, List.filter_append, List.length_append]
          have e1 : (List.filter (fun t => !isStringType t)
              (if pyNum c.width.bytes = .star then [pyStr "int"] else [])).length
              = if c.width.bytes.head? = some (ch '*') then 1 else 0 := by
            by_cases hx : pyNum c.width.bytes = .star
            · rw [if_pos hx, if_pos (by simpa [hx] using hw)]
              simp [hint]
            · rw [if_neg hx, if_neg (by simpa [hx] using hw)]
              rfl
          have e2 : (List.filter (fun t => !isStringType t)
              (if pyNum c.prec.bytes = .star then [pyStr "int"] else [])).length
              = if c.prec.bytes.head? = some (ch '*') then 1 else 0 := by
            by_cases hx : pyNum c.prec.bytes = .star
            · rw [if_pos hx, if_pos (by simpa [hx] using hp)]
              simp [hint]
            · rw [if_neg hx, if_neg (by simpa [hx] using hp)]
              rfl
          have e3 : (List.filter (fun t => !isStringType t) [t]).length
              = if c.spec ≠ ch 's' then 1 else 0 := by
            by_cases hx : c.spec = ch 's' <;> simp [g3, hx]
          rw [e1, e2, e3]
          omega

theorem decFrags_cons (p : RMatch × List Byte) (ps : List (RMatch × List Byte)) :
    decFrags (p :: ps) = match getFormatType p.1.len p.1.spec with
    | none => none
    | some ty => (decFrags ps).map
        (⟨some ty, p.1.width.head? = some (ch '*'), p.1.prec.head? = some (ch '*'), p.2⟩ :: ·) := rfl

theorem foldLast_frags (ms : List (RMatch × List Byte)) (t : List Byte) :
    decFrags (foldLast ms t) = (decFrags ms).map (extendLast · t) := by
  induction ms with
  | nil => rfl
  | cons p ms ih =>
    cases ms with
    | nil =>
      simp only [foldLast, decFrags]
      cases getFormatType p.1.len p.1.spec <;> rfl
    | cons q ms =>
      show decFrags (p :: foldLast (q :: ms) t) = _
      rw [decFrags_cons p (foldLast (q :: ms) t), ih, decFrags_cons p (q :: ms)]
      cases getFormatType p.1.len p.1.spec with
      | none => rfl
      | some ty =>
        dsimp only
        cases hd : decFrags (q :: ms) with
        | none => rfl
        | some gs =>
          simp only [Option.map_some]
          cases gs with
          | nil =>
            exfalso
            rw [decFrags] at hd
            cases hq : getFormatType q.1.len q.1.spec with
            | none => rw [hq] at hd; cases hd
            | some ty' =>
              rw [hq] at hd
              simp at hd
          | cons g gs => rfl

theorem foldLast_nibbles (ms : List (RMatch × List Byte)) (t : List Byte) :
    decNibbles (foldLast ms t) = decNibbles ms := by
  induction ms with
  | nil => rfl
  | cons p ms ih =>
    cases ms with
    | nil => rfl
    | cons q ms =>
      show decNibbles (p :: foldLast (q :: ms) t) = decNibbles (p :: q :: ms)
      rw [decNibbles, ih]
      rfl

theorem foldLast_mem (ms : List (RMatch × List Byte)) (t : List Byte) :
    ∀ p ∈ foldLast ms t, ∃ q ∈ ms, p.1 = q.1 := by
  induction ms with
  | nil => intro p hp; cases hp
  | cons p ms ih =>
    cases ms with
    | nil =>
      intro q hq
      simp only [foldLast, List.mem_singleton] at hq
      subst hq
      exact ⟨p, List.mem_cons_self, rfl⟩
    | cons r ms =>
      intro q hq
      rcases List.mem_cons.1 hq with hq | hq
      · subst hq
        exact ⟨p, List.mem_cons_self, rfl⟩
      · obtain ⟨x, hx, e⟩ := ih q hq
        exact ⟨x, List.mem_cons_of_mem _ hx, e⟩

theorem decFrags_length {ms : List (RMatch × List Byte)} : ∀ {gs}, decFrags ms = some gs →
    gs.length = ms.length := by
  induction ms with
  | nil => intro gs h; cases h; rfl
  | cons p ms ih =>
    intro gs h
    rw [decFrags] at h
    cases ht : getFormatType p.1.len p.1.spec with
    | none => rw [ht] at h; cases h
    | some ty =>
      rw [ht] at h
      cases hd : decFrags ms with
      | none => rw [hd] at h; cases h
      | some gs' =>
        rw [hd] at h
        cases h
        simp [ih hd]

/-- No integer conversion with the length modifier `Z` (an extension of old C libraries). -/
def NoZ (fmt : List Byte) : Prop :=
  ∀ (c : RawConv) (a b : List Byte), c.WF → fmt = a ++ c.bytes ++ b →
    ¬ (c.len = [ch 'Z'] ∧ c.spec ∈ intSpecs)

/-- **C39**, on the same text.  Whatever text the preprocessor accepts, the decoder's parser arrives
at the same static information: the same fragments with the same types, dynamic width and
precision, the same text and number of nibbles.  No bound on the length or number of
conversions. -/
theorem C39_same_text_partial (fmt file : List Byte) (line level : Nat) (d : Meta) (hz : NoZ fmt)
    (h : pyMeta fmt file line level = some d) : createMicroCode fmt file line level = some d := by
  unfold pyMeta at h
  cases hs : pySplit fmt with
  | none => rw [hs] at h; cases h
  | some fs =>
    rw [hs] at h
    dsimp only at h
    cases hf : pyFrags fs with
    | none => rw [hf] at h; cases h
    | some gs =>
      rw [hf] at h
      dsimp only at h
      obtain rfl := Option.some.inj h
      unfold pySplit at hs
      cases hp : pyScan fmt fmt.length 0 0 0 [] with
      | none => rw [hp] at hs; cases hs
      | some r =>
        obtain ⟨ms, start⟩ := r
        rw [hp] at hs
        dsimp only at hs
        obtain ⟨ext, h1, h2, h3, h4⟩ := scan_sim fmt fmt.length fmt (Nat.le_refl _) 0 0 0 0 []
          ⟨[], [], 0⟩ fmt.length fmt.length rfl (.inr rfl) rfl rfl rfl (Nat.le_refl _) (Nat.le_refl _)
          ms start hp
        obtain rfl : ms = ext := by simpa using h1
        have hgood : ∀ p ∈ ms, GoodMatch p.1 := by
          intro p hp
          obtain ⟨c, hc, ⟨a, b, hab⟩, hm⟩ := h2 p hp
          exact ⟨c, hc, hz c a b hc hab, hm⟩
        simp only [createMicroCode, h4, Option.bind_eq_bind]
        by_cases hms : ms = []
        · rw [if_pos hms] at hs
          cases hs
          subst hms
          cases hf
          rfl
        · rw [if_neg hms] at hs
          obtain ⟨gs', k1, k2, k3⟩ := fmts_agree _ (by
            intro p hp
            obtain ⟨q, hq, e⟩ := foldLast_mem _ _ p hp
            rw [e]
            exact hgood q hq) fs hs
          obtain rfl : gs = gs' := by rw [hf] at k2; exact Option.some.inj k2
          rw [foldLast_frags] at k1
          rw [foldLast_nibbles] at k3
          cases hd : decFrags ms with
          | none => rw [hd] at k1; cases k1
          | some g0 =>
            rw [hd] at k1
            simp only [Option.map_some, Option.some.injEq] at k1
            have hlen := decFrags_length hd
            have hg0 : g0 ≠ [] := by
              intro e
              rw [e] at hlen
              exact hms (List.length_eq_zero_iff.1 hlen.symm)
            simp only [Option.map_some, Option.bind_some, List.nil_append, hg0, if_false, k1, Nat.zero_add, k3]
            have : gs.length = g0.length := by rw [← k1, extendLast_length]
            rw [this]

/-! ## Escape sequences -/

theorem Accepted.plain_inv {c : Byte} {s : List Byte} (h : Accepted (c :: s)) (h1 : c ≠ ch '%')
    (h2 : c ≠ ch '\\') : Accepted s := by
  generalize e : c :: s = x at h
  cases h with
  | nil => cases e
  | last => exact absurd (List.cons.inj e).1 h2
  | esc _ => exact absurd (List.cons.inj e).1 h2
  | plain _ _ h => rw [(List.cons.inj e).2]; exact h
  | pct _ => exact absurd (List.cons.inj e).1 h1
  | conv _ _ => exact absurd (List.cons.inj e).1 h1

theorem Accepted.plains_inv {t s : List Byte} (ht : ∀ b ∈ t, b ≠ ch '%' ∧ b ≠ ch '\\')
    (h : Accepted (t ++ s)) : Accepted s := by
  induction t with
  | nil => exact h
  | cons b t ih =>
    have hb := ht b List.mem_cons_self
    exact ih (fun b hb => ht b (List.mem_cons_of_mem _ hb)) (h.plain_inv hb.1 hb.2)

theorem Accepted.esc_inv {d : Byte} {s : List Byte} (h : Accepted (ch '\\' :: d :: s)) : Accepted s := by
  generalize e : ch '\\' :: d :: s = x at h
  cases h with
  | nil => cases e
  | last => cases (List.cons.inj e).2
  | esc h => rw [(List.cons.inj (List.cons.inj e).2).2]; exact h
  | plain _ h2 _ => exact absurd (List.cons.inj e).1.symm h2
  | pct _ => exact absurd (List.cons.inj e).1 (by decide)
  | conv _ _ => exact absurd (List.cons.inj e).1 (by decide)

theorem Accepted.pct_inv {s : List Byte} (h : Accepted (ch '%' :: s)) :
    (∃ s', s = ch '%' :: s' ∧ Accepted s') ∨
    ∃ (c : RawConv) (s' : List Byte), c.WF ∧ ch '%' :: s = c.bytes ++ s' ∧ Accepted s' := by
  generalize e : ch '%' :: s = x at h
  cases h with
  | nil => cases e
  | last => exact absurd (List.cons.inj e).1 (by decide)
  | esc _ => exact absurd (List.cons.inj e).1 (by decide)
  | plain h1 _ _ => exact absurd (List.cons.inj e).1.symm h1
  | pct h => exact .inl ⟨_, (List.cons.inj e).2, h⟩
  | conv hc h => exact .inr ⟨_, _, hc, rfl, h⟩

theorem microLoop_plains (t : List Byte) : ∀ (r : List Byte) (fuel pct : Nat) (st : MState),
    (∀ b ∈ t, b ≠ ch '%' ∧ b ≠ ch '\\') →
    microLoop (t.length + fuel) (t ++ r) pct st
      = microLoop fuel r (if t = [] then pct else 0) { st with text := st.text ++ t } := by
  induction t with
  | nil => intro r fuel pct st _; simp
  | cons b t ih =>
    intro r fuel pct st h
    have hb := h b List.mem_cons_self
    have hlen : (b :: t).length + fuel = (t.length + fuel) + 1 := by simp only [List.length_cons]; omega
    rw [hlen, List.cons_append, microLoop_plain _ _ _ _ hb.2 hb.1,
      ih r fuel 0 _ (fun b hb => h b (List.mem_cons_of_mem _ hb))]
    simp

/-- Source text without backslash comes from plain elements. -/
theorem litSrc_prefix (p : List Byte) (hp : ∀ b ∈ p, b ≠ ch '\\') : ∀ (l : List LitItem) (r : List Byte),
    litSrc l = p ++ r → ∃ l', l = p.map .plain ++ l' ∧ litSrc l' = r := by
  induction p with
  | nil => intro l r h; exact ⟨l, rfl, h⟩
  | cons b p ih =>
    intro l r h
    have hb := hp b List.mem_cons_self
    cases l with
    | nil => cases h
    | cons i l =>
      rw [litSrc_cons] at h
      cases i with
      | plain c =>
        obtain ⟨h1, h2⟩ := List.cons.inj h
        obtain ⟨l', h3, h4⟩ := ih (fun b hb => hp b (List.mem_cons_of_mem _ hb)) l r h2
        refine ⟨l', ?_, h4⟩
        rw [h3, h1]
        rfl
      | simple c v => exact absurd (List.cons.inj h).1.symm hb
      | oct ds => exact absurd (List.cons.inj h).1.symm hb
      | hex ds => exact absurd (List.cons.inj h).1.symm hb

theorem headNot_append {p : Byte → Bool} {a b : List Byte} (h : HeadNot p (a ++ b)) : HeadNot p a := by
  intro x hx
  refine h x ?_
  cases a with
  | nil => cases hx
  | cons y a => exact hx

theorem litWF_left {a b : List LitItem} (h : LitWF (a ++ b)) : LitWF a := by
  induction a with
  | nil => trivial
  | cons i a ih =>
    obtain ⟨h1, h2, h3⟩ := h
    refine ⟨h1, ?_, ih h3⟩
    have e : litSrc (a ++ b) = litSrc a ++ litSrc b := by simp [litSrc]
    change i.mayFollow (litSrc (a ++ b)) at h2
    rw [e] at h2
    cases i with
    | plain c => trivial
    | simple c v => trivial
    | oct ds => exact fun hl => headNot_append (h2 hl)
    | hex ds => exact headNot_append h2

theorem litWF_right {a b : List LitItem} (h : LitWF (a ++ b)) : LitWF b := by
  induction a with
  | nil => exact h
  | cons i a ih => exact ih h.2.2

/-- The escapes of a literal denote neither a percent sign nor a backslash. -/
def PlainEscapes (l : List LitItem) : Prop :=
  ∀ i ∈ l, (∀ c, i ≠ .plain c) → i.value ≠ ch '%' ∧ i.value ≠ ch '\\'

/-- A fragment in the text of the generated code, and the fragment it stands for. -/
def FragDenotes (f g : Frag) : Prop :=
  f.ty = g.ty ∧ f.dynW = g.dynW ∧ f.dynP = g.dynP ∧ Denotes f.text g.text

theorem All2.append_one {α β : Type} {R : α → β → Prop} {as : List α} {bs : List β} (h : All2 R as bs)
    {a : α} {b : β} (hab : R a b) : All2 R (as ++ [a]) (bs ++ [b]) := by
  induction h with
  | nil => exact .cons hab .nil
  | cons h _ ih => exact .cons h ih

theorem All2.length_eq {α β : Type} {R : α → β → Prop} {as : List α} {bs : List β} (h : All2 R as bs) :
    as.length = bs.length := by
  induction h with
  | nil => rfl
  | cons _ _ ih => simp [ih]

theorem All2.take {α β : Type} {R : α → β → Prop} {as : List α} {bs : List β} (h : All2 R as bs) (n : Nat) :
    All2 R (as.take n) (bs.take n) := by
  induction h generalizing n with
  | nil => simp; exact .nil
  | cons h _ ih =>
    cases n with
    | zero => exact .nil
    | succ n => exact .cons h (ih n)

/-- The same while the text of the fragment ends in the character of a conversion. -/
def FragLits (f g : Frag) : Prop :=
  f.ty = g.ty ∧ f.dynW = g.dynW ∧ f.dynP = g.dynP ∧
  ∃ l c, LitWF (l ++ [.plain c]) ∧ litSrc (l ++ [.plain c]) = f.text
    ∧ (l ++ [.plain c]).map LitItem.value = g.text

theorem src_ne_nil (i : LitItem) : i.src ≠ [] := by cases i <;> simp [LitItem.src]

/-- Literals may be joined after a plain character. -/
theorem litWF_join (l : List LitItem) (c : Byte) (b : List LitItem) (h : LitWF (l ++ [.plain c]))
    (hb : LitWF b) : LitWF (l ++ [.plain c] ++ b) := by
  induction l with
  | nil => exact ⟨h.1, trivial, hb⟩
  | cons i l ih =>
    obtain ⟨h1, h2, h3⟩ := h
    refine ⟨h1, ?_, ih h3⟩
    have hne : ∃ x s, litSrc (l ++ [.plain c]) = x :: s := by
      cases l with
      | nil => exact ⟨c, [], rfl⟩
      | cons j l =>
        rw [List.cons_append, litSrc_cons]
        cases hj : j.src with
        | nil => exact absurd hj (src_ne_nil j)
        | cons x s => exact ⟨x, _, rfl⟩
    obtain ⟨x, s, hxs⟩ := hne
    have e : litSrc (l ++ [.plain c] ++ b) = x :: (s ++ litSrc b) := by
      have : litSrc (l ++ [.plain c] ++ b) = litSrc (l ++ [.plain c]) ++ litSrc b := by simp [litSrc]
      rw [this, hxs]
      rfl
    change i.mayFollow (litSrc (l ++ [.plain c])) at h2
    change i.mayFollow (litSrc (l ++ [.plain c] ++ b))
    rw [hxs] at h2
    rw [e]
    cases i with
    | plain c => trivial
    | simple c v => trivial
    | oct ds => exact fun hl y hy => h2 hl y hy
    | hex ds => exact fun y hy => h2 y hy

/-- An escape: a backslash, a character, and digits (if any). -/
theorem esc_src {i : LitItem} (hw : i.WF) (h : ∀ c, i ≠ .plain c) :
    ∃ d t, i.src = ch '\\' :: d :: t ∧ ∀ b ∈ t, b ≠ ch '%' ∧ b ≠ ch '\\' := by
  have hoct : ∀ b, isOct b = true → b ≠ ch '%' ∧ b ≠ ch '\\' := by
    intro b
    exact forall_byte (P := fun b => isOct b = true → b ≠ ch '%' ∧ b ≠ ch '\\') (by decide +kernel) b
  have hhex : ∀ b, isHex b = true → b ≠ ch '%' ∧ b ≠ ch '\\' := by
    intro b
    exact forall_byte (P := fun b => isHex b = true → b ≠ ch '%' ∧ b ≠ ch '\\') (by decide +kernel) b
  cases i with
  | plain c => exact absurd rfl (h c)
  | simple c v => exact ⟨c, [], rfl, by simp⟩
  | oct ds =>
    cases ds with
    | nil => exact absurd hw.1 (by simp)
    | cons d ds =>
      exact ⟨d, ds, rfl, fun b hb => hoct b (hw.2.2 b (List.mem_cons_of_mem _ hb))⟩
  | hex ds => exact ⟨ch 'x', ds, rfl, fun b hb => hhex b (hw.2 b hb)⟩

theorem value_sim : ∀ (n : Nat) (l : List LitItem), l.length ≤ n → Accepted (litSrc l) → PlainEscapes l →
    ∀ (tl : List LitItem), LitWF (tl ++ l) →
    ∀ (pct1 pct2 fuel1 fuel2 : Nat) (st1 st2 st1' : MState), pct1 % 2 = 0 → pct2 % 2 = 0 →
    (litSrc l).length ≤ fuel1 → l.length ≤ fuel2 →
    st1.text = litSrc tl → st2.text = tl.map LitItem.value →
    All2 FragLits st1.frags st2.frags → st1.nibbles = st2.nibbles →
    microLoop fuel1 (litSrc l) pct1 st1 = some st1' →
    ∃ st2' tl', microLoop fuel2 (l.map LitItem.value) pct2 st2 = some st2'
      ∧ LitWF tl' ∧ st1'.text = litSrc tl' ∧ st2'.text = tl'.map LitItem.value
      ∧ All2 FragLits st1'.frags st2'.frags ∧ st1'.nibbles = st2'.nibbles := by
  intro n
  induction n with
  | zero =>
    intro l hl _ _ tl hwf pct1 pct2 fuel1 fuel2 st1 st2 st1' _ _ _ _ ht1 ht2 hfr hnb h
    obtain rfl : l = [] := List.length_eq_zero_iff.1 (by omega)
    have e1 : microLoop fuel1 (litSrc []) pct1 st1 = some st1 := by
      cases fuel1 <;> simp [litSrc, microLoop]
    have e2 : microLoop fuel2 (([] : List LitItem).map LitItem.value) pct2 st2 = some st2 := by
      cases fuel2 <;> simp [microLoop]
    rw [e1] at h
    cases h
    exact ⟨st2, tl, e2, by simpa using hwf, ht1, ht2, hfr, hnb⟩
  | succ n ih =>
    intro l hl hacc hpe tl hwf pct1 pct2 fuel1 fuel2 st1 st2 st1' hp1 hp2 hf1 hf2 ht1 ht2 hfr hnb h
    cases l with
    | nil =>
      have e1 : microLoop fuel1 (litSrc []) pct1 st1 = some st1 := by
        cases fuel1 <;> simp [litSrc, microLoop]
      have e2 : microLoop fuel2 (([] : List LitItem).map LitItem.value) pct2 st2 = some st2 := by
        cases fuel2 <;> simp [microLoop]
      rw [e1] at h
      cases h
      exact ⟨st2, tl, e2, by simpa using hwf, ht1, ht2, hfr, hnb⟩
    | cons i l =>
      have hwi : i.WF := (litWF_right hwf).1
      have hpe' : PlainEscapes l := fun j hj => hpe j (List.mem_cons_of_mem _ hj)
      have hwf1 : LitWF ((tl ++ [i]) ++ l) := by simpa using hwf
      simp only [List.length_cons] at hl hf2
      obtain ⟨fuel2, rfl⟩ : ∃ f, fuel2 = f + 1 := ⟨fuel2 - 1, by omega⟩
      rw [litSrc_cons] at hacc hf1 h
      by_cases hplain : ∃ c, i = .plain c
      · obtain ⟨c, rfl⟩ := hplain
        have hcb : c ≠ ch '\\' := hwi.2.1
        by_cases hpc : c = ch '%'
        · subst hpc
          rcases hacc.pct_inv with ⟨s', hs', hacc'⟩ | ⟨rc, s', hrc, hs', hacc'⟩
          · -- `%%`
            replace hs' : litSrc l = ch '%' :: s' := hs'
            obtain ⟨l', rfl, hl'⟩ := litSrc_prefix [ch '%'] (by decide) l s' hs'
            have hm := regexMatch_pct s'
            change microLoop fuel1 (ch '%' :: litSrc ([ch '%'].map .plain ++ l')) pct1 st1 = some st1' at h
            change (ch '%' :: litSrc ([ch '%'].map .plain ++ l')).length ≤ fuel1 at hf1
            rw [hs'] at h hf1
            simp only [List.length_cons] at hf1
            obtain ⟨fuel1, rfl⟩ : ∃ f, fuel1 = f + 2 := ⟨fuel1 - 2, by omega⟩
            rw [microLoop_skip _ _ _ _ (.inr hm), microLoop_skip _ _ _ _ (.inl (by omega))] at h
            simp only [List.map_cons, List.map_nil, List.cons_append, List.nil_append, LitItem.value,
              List.length_cons] at hl hf2 ⊢
            obtain ⟨fuel2, rfl⟩ : ∃ f, fuel2 = f + 1 := ⟨fuel2 - 1, by omega⟩
            rw [microLoop_skip _ _ _ _ (.inr (regexMatch_pct _)), microLoop_skip _ _ _ _ (.inl (by omega))]
            subst hl'
            exact ih l' (by omega) hacc' (fun j hj => hpe' j (List.mem_append_right _ hj))
              (tl ++ [.plain (ch '%'), .plain (ch '%')]) (by simpa using hwf) (pct1 + 1 + 1) (pct2 + 1 + 1)
              fuel1 fuel2
              { st1 with text := st1.text ++ [ch '%'] ++ [ch '%'] }
              { st2 with text := st2.text ++ [ch '%'] ++ [ch '%'] } st1' (by omega) (by omega) (by omega)
              (by omega) (by simp [ht1, litSrc, LitItem.src]) (by simp [ht2, LitItem.value]) hfr hnb h
          · -- a conversion
            have hsl : litSrc l = rc.tail ++ s' := by
              change ch '%' :: litSrc l = _ at hs'
              rw [RawConv.bytes, List.cons_append] at hs'
              exact (List.cons.inj hs').2
            obtain ⟨l', rfl, hl'⟩ := litSrc_prefix rc.tail (fun b hb => (RawConv.tail_plain hrc b hb).2) l s' hsl
            change microLoop fuel1 (ch '%' :: litSrc (rc.tail.map .plain ++ l')) pct1 st1 = some st1' at h
            change (ch '%' :: litSrc (rc.tail.map .plain ++ l')).length ≤ fuel1 at hf1
            rw [hsl] at h hf1
            simp only [List.length_cons, List.length_append, List.length_map] at hf1 hf2 hl
            obtain ⟨fuel1, rfl⟩ : ∃ f, fuel1 = f + 1 := ⟨fuel1 - 1, by omega⟩
            have hm1 := regexMatch_raw hrc s'
            rw [RawConv.bytes, List.cons_append] at hm1
            have hm2 := regexMatch_raw hrc (l'.map LitItem.value)
            rw [RawConv.bytes, List.cons_append] at hm2
            have hvals : (LitItem.plain (ch '%') :: (rc.tail.map LitItem.plain ++ l')).map LitItem.value
                = ch '%' :: (rc.tail ++ l'.map LitItem.value) := by
              simp [LitItem.value, Function.comp_def]
            rw [hvals]
            rw [microLoop_match _ _ _ _ (by omega) hm1] at h
            rw [microLoop_match _ _ _ _ (by omega) hm2]
            dsimp only at h ⊢
            have htk : ∀ r : List Byte, (ch '%' :: (rc.tail ++ r)).take
                ((ch '%' :: (rc.tail ++ r)).length - r.length) = rc.bytes := by
              intro r
              have e1 : ch '%' :: (rc.tail ++ r) = rc.bytes ++ r := rfl
              have e2 : (rc.bytes ++ r).length - r.length = rc.bytes.length := by simp
              rw [e1, e2, List.take_left]
            rw [htk] at h ⊢
            cases hty : getFormatType rc.len rc.spec with
            | none => rw [hty] at h; cases h
            | some ty =>
              rw [hty] at h
              dsimp only at h ⊢
              have hsrc : litSrc (tl ++ rc.bytes.map .plain) = st1.text ++ rc.bytes := by
                rw [ht1]
                simp [litSrc, List.flatMap_map, LitItem.src, List.flatMap_singleton']
              have hval : (tl ++ rc.bytes.map LitItem.plain).map LitItem.value = st2.text ++ rc.bytes := by
                rw [ht2]
                simp [LitItem.value, Function.comp_def]
              have hwt : LitWF ((tl ++ rc.bytes.map .plain) ++ l') := by
                simpa [RawConv.bytes] using hwf
              subst hl'
              have hend : tl ++ rc.bytes.map LitItem.plain
                  = (tl ++ (ch '%' :: (rc.flags ++ (rc.width.bytes ++ (precBytes rc.prec ++ rc.len)))).map .plain)
                    ++ [.plain rc.spec] := by
                simp [RawConv.bytes, RawConv.tail]
              have hwl := litWF_left hwt
              rw [hend] at hsrc hval hwl
              refine ih l' (by omega) hacc' (fun j hj => hpe' j (List.mem_append_right _ hj)) []
                (litWF_right hwt) 0 0 fuel1 fuel2 _ _ st1' rfl rfl (by omega) (by omega) rfl rfl ?_ ?_ h
              · exact hfr.append_one ⟨rfl, rfl, rfl, _, _, hwl, hsrc, hval⟩
              · simp only [hnb]
        · -- a plain character
          simp only [LitItem.src, List.cons_append, List.nil_append, List.length_cons] at h hf1 hacc
          obtain ⟨fuel1, rfl⟩ : ∃ f, fuel1 = f + 1 := ⟨fuel1 - 1, by omega⟩
          rw [microLoop_plain _ _ _ _ hcb hpc] at h
          simp only [List.map_cons, LitItem.value]
          rw [microLoop_plain _ _ _ _ hcb hpc]
          exact ih l (by omega) (hacc.plain_inv hpc hcb) hpe' (tl ++ [.plain c]) hwf1 0 0 fuel1 fuel2
            { st1 with text := st1.text ++ [c] } { st2 with text := st2.text ++ [c] } st1' rfl rfl
            (by omega) (by omega) (by simp [ht1, litSrc, LitItem.src]) (by simp [ht2, LitItem.value])
            hfr hnb h
      · -- an escape
        have hne : ∀ c, i ≠ .plain c := fun c hc => hplain ⟨c, hc⟩
        obtain ⟨d, t, hsrc, ht⟩ := esc_src hwi hne
        have hv := hpe i List.mem_cons_self hne
        rw [hsrc] at h hf1 hacc
        simp only [List.cons_append, List.length_cons, List.length_append] at h hf1 hacc
        obtain ⟨fuel1, rfl⟩ : ∃ f, fuel1 = (t.length + f) + 1 := ⟨fuel1 - 1 - t.length, by omega⟩
        rw [microLoop_bs, microLoop_plains t _ _ _ _ ht] at h
        simp only [List.map_cons]
        rw [microLoop_plain _ _ _ _ hv.2 hv.1]
        refine ih l (by omega) (Accepted.plains_inv ht hacc.esc_inv) hpe' (tl ++ [i]) hwf1 _ 0 fuel1 fuel2
          { st1 with text := st1.text ++ [ch '\\', d] ++ t } { st2 with text := st2.text ++ [i.value] } st1'
          ?_ rfl (by omega) (by omega) ?_ ?_ hfr hnb h
        · split
          · exact hp1
          · rfl
        · simp [ht1, litSrc, hsrc]
        · simp [ht2]

theorem fragLits_denotes {f g : Frag} (h : FragLits f g) : FragDenotes f g := by
  obtain ⟨h1, h2, h3, l, c, h4, h5, h6⟩ := h
  exact ⟨h1, h2, h3, _, h4, h5, h6⟩

theorem extendLast_denotes {fs gs : List Frag} (h : All2 FragLits fs gs) {a : List LitItem}
    (ha : LitWF a) :
    All2 FragDenotes (extendLast fs (litSrc a)) (extendLast gs (a.map LitItem.value)) := by
  induction h with
  | nil => exact .nil
  | @cons f g fs gs hfg hrest ih =>
    cases hrest with
    | nil =>
      obtain ⟨h1, h2, h3, l, c, h4, h5, h6⟩ := hfg
      refine .cons ⟨h1, h2, h3, l ++ [.plain c] ++ a, litWF_join l c a h4 ha, ?_, ?_⟩ .nil
      · have : litSrc (l ++ [.plain c] ++ a) = litSrc (l ++ [.plain c]) ++ litSrc a := by simp [litSrc]
        rw [this, h5]
      · rw [List.map_append, h6]
    | cons hfg' hrest' => exact .cons (fragLits_denotes hfg) ih

/-- **C39.**  For a string literal with elements `l`, the preprocessor works on its source text and
the decoder (in the other mode of operation) on its value.  If the preprocessor accepts the text,
the decoder's parser accepts the value and both descriptions have the same fragments: same types,
dynamic width and precision, number of nibbles, and the text of every fragment in the generated
code denotes the text of the decoder's fragment.
Partial: no escape sequence may denote a percent sign or backslash (`C39_backslash_false`,
`C39_hidden_percent_false`) and the length modifier `Z` is excluded (`C39_Z_false`). -/
theorem C39_literals_partial (l : List LitItem) (hl : LitWF l) (he : PlainEscapes l)
    (hz : NoZ (litSrc l)) (file : List Byte) (line level : Nat) (d : Meta)
    (h : pyMeta (litSrc l) file line level = some d) :
    ∃ m, createMicroCode (l.map LitItem.value) file line level = some m
      ∧ All2 FragDenotes d.frags m.frags ∧ m.numNibbles = d.numNibbles
      ∧ m.file = d.file ∧ m.line = d.line ∧ m.level = d.level := by
  have hc := C39_same_text_partial _ file line level d hz h
  have hacc : Accepted (litSrc l) := by
    unfold pyMeta pySplit at h
    cases hp : pyScan (litSrc l) (litSrc l).length 0 0 0 [] with
    | none => rw [hp] at h; cases h
    | some r =>
      obtain ⟨ext, _, _, h3, _⟩ := scan_sim (litSrc l) (litSrc l).length (litSrc l) (Nat.le_refl _)
        0 0 0 0 [] ⟨[], [], 0⟩ (litSrc l).length (litSrc l).length rfl (.inr rfl) rfl rfl rfl
        (Nat.le_refl _) (Nat.le_refl _) r.1 r.2 hp
      exact h3
  simp only [createMicroCode, Option.bind_eq_bind] at hc
  cases hm : microLoop (litSrc l).length (litSrc l) 0 ⟨[], [], 0⟩ with
  | none => rw [hm] at hc; cases hc
  | some st1 =>
    rw [hm] at hc
    simp only [Option.bind_some, Option.some.injEq] at hc
    obtain ⟨st2, tl, h1, h2, h3, h4, h5, h6⟩ := value_sim l.length l (Nat.le_refl _) hacc he [] hl 0 0
      (litSrc l).length (l.map LitItem.value).length ⟨[], [], 0⟩ ⟨[], [], 0⟩ st1 rfl rfl (Nat.le_refl _)
      (by simp) rfl rfl .nil rfl hm
    have hnil : st2.frags = [] ↔ st1.frags = [] := by
      have := h5.length_eq
      constructor
      · intro e; rw [e] at this; exact List.length_eq_zero_iff.1 this
      · intro e; rw [e] at this; exact List.length_eq_zero_iff.1 this.symm
    simp only [createMicroCode, h1, Option.bind_eq_bind, Option.bind_some]
    refine ⟨_, rfl, ?_, by rw [← hc, h6], by rw [← hc], by rw [← hc], by rw [← hc]⟩
    rw [← hc]
    by_cases hf : st1.frags = []
    · simp only [hf, hnil.2 hf, if_true, List.take_succ_cons, List.take_zero]
      exact .cons ⟨rfl, rfl, rfl, l, hl, rfl, rfl⟩ .nil
    · have hf2 : st2.frags ≠ [] := fun e => hf (hnil.1 e)
      simp only [hf, hf2, if_false]
      rw [h3, h4, ← h5.length_eq]
      exact (extendLast_denotes h5 h2).take _

/-- The literal `"%d%%\n%-*.*s\x41%5lu!"`. -/
def exFmtLit : List LitItem :=
  (asc "%d%%").map .plain ++ [.simple (ch 'n') 10] ++ (asc "%-*.*s").map .plain ++ [.hex (asc "41")]
    ++ (asc "%5lu!").map .plain

theorem exFmtLit_wf : LitWF exFmtLit := by
  simp only [exFmtLit, asc, ch, String.toList]
  refine ⟨by decide, trivial, by decide, trivial, by decide, trivial, by decide, trivial,
    by decide, trivial, by decide, trivial, by decide, trivial, by decide, trivial, by decide, trivial,
    by decide, trivial, by decide, trivial, by decide, ?_, ?_⟩
  · intro b hb; revert b; decide
  · exact ⟨by decide, trivial, by decide, trivial, by decide, trivial, by decide, trivial, by decide,
      trivial, trivial⟩

/-- Checks that `Z` does not occur at all. -/
theorem noZ_of_no_char {fmt : List Byte} (h : ch 'Z' ∉ fmt) : NoZ fmt := by
  rintro c a b hc rfl ⟨hz, _⟩
  refine h ?_
  simp [RawConv.bytes, RawConv.tail, hz]

example : ∃ d m, pyMeta (litSrc exFmtLit) [] 7 2 = some d
    ∧ createMicroCode (exFmtLit.map LitItem.value) [] 7 2 = some m
    ∧ All2 FragDenotes d.frags m.frags ∧ d.frags.length = 3 ∧ m.numNibbles = 4 := by
  have he : PlainEscapes exFmtLit := by
    have : ∀ i ∈ exFmtLit, i = .plain i.value ∨ i.value ≠ ch '%' ∧ i.value ≠ ch '\\' := by decide +kernel
    intro i hi hne
    exact (this i hi).resolve_left (hne _)
  have hd : ((pyMeta (litSrc exFmtLit) [] 7 2).map fun d => (d.frags.length, d.numNibbles)) = some (3, 4) := by
    decide +kernel
  cases h : pyMeta (litSrc exFmtLit) [] 7 2 with
  | none => rw [h] at hd; cases hd
  | some d =>
    rw [h] at hd
    simp only [Option.map_some, Option.some.injEq, Prod.mk.injEq] at hd
    obtain ⟨m, h1, h2, h3, _⟩ := C39_literals_partial exFmtLit exFmtLit_wf he
      (noZ_of_no_char (by decide +kernel)) [] 7 2 d h
    exact ⟨d, m, rfl, h1, h2, hd.1, by rw [h3]; exact hd.2⟩

/-- **C39** is false with the length modifier `Z`: the preprocessor takes `%Zd` for a `size_t`, the
decoder's parser fails. -/
theorem C39_Z_false : ((pyMeta (asc "%Zd") [] 1 2).map fun d => d.frags.map (·.ty)) = some [some .sizeT]
    ∧ createMicroCode (asc "%Zd") [] 1 2 = none := by decide +kernel

/-- **C39** is false with an escaped backslash before a conversion: for the literal `"\\\\%d"`, whose
value is a backslash and `%d`, the preprocessor finds the conversion, and the decoder's parser, which
takes the backslash of the value for an escape character, does not. -/
theorem C39_backslash_false :
    Denotes (asc "\\\\%d") (asc "\\%d")
    ∧ ((pyMeta (asc "\\\\%d") [] 1 2).map fun d => d.frags.map (·.ty)) = some [some .int]
    ∧ ((createMicroCode (asc "\\%d") [] 1 2).map fun d => d.frags.map (·.ty)) = some [none] := by
  refine ⟨⟨[.simple (ch '\\') 92, .plain (ch '%'), .plain (ch 'd')], ?_, by decide, by decide⟩,
    by decide +kernel, by decide +kernel⟩
  exact ⟨by decide, trivial, by decide, trivial, by decide, trivial, trivial⟩

/-- **C39** is false with a percent sign written as an escape: for `"\\x25s"`, whose value is `%s`, the
preprocessor finds no conversion, so it generates no code for the argument. -/
theorem C39_hidden_percent_false :
    Denotes (asc "\\x25s") (asc "%s")
    ∧ ((pyMeta (asc "\\x25s") [] 1 2).map fun d => d.frags.map (·.ty)) = some [none]
    ∧ ((createMicroCode (asc "%s") [] 1 2).map fun d => d.frags.map (·.ty)) = some [some .charPtr] := by
  refine ⟨⟨[.hex (asc "25"), .plain (ch 's')], ?_, by decide, by decide⟩, by decide +kernel,
    by decide +kernel⟩
  refine ⟨by decide, ?_, by decide, trivial, trivial⟩
  intro b hb
  revert b
  decide

end NanoLog
