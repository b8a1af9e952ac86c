import Verif.PreDec
import Verif.FmtRegex
import Verif.Props.PreLiteral

/-! Helper lemmas: the literals of the print fragments make up the literal of the format. -/

namespace NanoLog

/-! ## Literals -/

theorem litStep_percent (st : LitSt) :
    litStep st (ch '%') = none ∨ ∃ o, litStep st (ch '%') = some (.plain, o) := by
  have ho : octDigit (ch '%') = none := by decide
  have hh : hexDigit (ch '%') = none := by decide
  have hp : litPlain (ch '%') = (.plain, [ch '%']) := by decide
  cases st with
  | plain => exact .inr ⟨_, by rw [litStep, hp]⟩
  | esc => exact .inl (by decide)
  | oct n v =>
    simp only [litStep, ho, hp]
    cases charOf v with
    | none => simp
    | some o => exact .inr ⟨_, rfl⟩
  | hex v =>
    cases v with
    | none => left; simp [litStep, hh]
    | some v =>
      simp only [litStep, hh, hp]
      cases charOf v with
      | none => simp
      | some o => exact .inr ⟨_, rfl⟩

theorem litRun_plains {c : List Byte} (hc : ch '\\' ∉ c) (b : List Byte) :
    litRun .plain (c ++ b) = (litRun .plain b).map (c ++ ·) := by
  induction c with
  | nil => simp
  | cons x c ih =>
    simp only [List.mem_cons, not_or] at hc
    have hx : x ≠ ch '\\' := Ne.symm hc.1
    rw [List.cons_append, litRun, litStep, litPlain, if_neg hx]
    simp only [ih hc.2, Option.map_map]
    rfl

/-- A literal can be cut behind a conversion specification. -/
theorem litRun_cut {c : List Byte} (hc : ch '\\' ∉ c) (b : List Byte) : ∀ (a : List Byte) (st : LitSt) (v : List Byte),
    litRun st (a ++ ch '%' :: c ++ b) = some v →
    ∃ u w, litRun st (a ++ ch '%' :: c) = some u ∧ litRun .plain b = some w ∧ v = u ++ w := by
  intro a
  induction a with
  | nil =>
    intro st v h
    simp only [List.nil_append, List.cons_append, litRun] at h ⊢
    rcases litStep_percent st with e | ⟨o, e⟩
    · rw [e] at h; cases h
    · rw [e] at h ⊢
      simp only [litRun_plains hc] at h
      have hn : litRun .plain c = some c := by
        have := litRun_plains hc []
        simpa [litRun, litEnd] using this
      simp only [hn, Option.map_some]
      cases hb : litRun .plain b with
      | none => rw [hb] at h; cases h
      | some w =>
        rw [hb] at h
        simp only [Option.map_some, Option.some.injEq] at h
        exact ⟨_, w, rfl, rfl, by rw [← h]; simp⟩
  | cons x a ih =>
    intro st v h
    simp only [List.cons_append, litRun] at h ⊢
    cases hs : litStep st x with
    | none => rw [hs] at h; cases h
    | some p =>
      obtain ⟨st', o⟩ := p
      rw [hs] at h
      simp only at h
      cases hr : litRun st' (a ++ ch '%' :: c ++ b) with
      | none =>
        rw [hr] at h; cases h
      | some v' =>
        obtain ⟨u, w, h1, h2, h3⟩ := ih st' v' hr
        rw [hr] at h
        simp only [Option.map_some, Option.some.injEq] at h
        exact ⟨o ++ u, w, by simp only [h1, Option.map_some], h2, by rw [← h, h3]; simp⟩

/-- Characters read but not yet completed count for one. -/
def litPend : LitSt → Nat
  | .plain => 0
  | _ => 1

theorem litPlain_length (c : Byte) : (litPlain c).2.length + litPend (litPlain c).1 = 1 := by
  unfold litPlain; split <;> rfl

theorem charOf_length {v : Nat} {o : List Byte} (h : charOf v = some o) : o.length = 1 := by
  unfold charOf at h; split at h
  · obtain rfl := Option.some.inj h; rfl
  · cases h

theorem litStep_length {st : LitSt} {c : Byte} {st' : LitSt} {o : List Byte}
    (h : litStep st c = some (st', o)) : o.length + litPend st' ≤ litPend st + 1 := by
  have hp := litPlain_length c
  have done : ∀ {v : Nat}, ((charOf v).map fun o => ((litPlain c).1, o ++ (litPlain c).2)) = some (st', o) →
      o.length + litPend st' ≤ 2 := by
    intro v h
    cases hv : charOf v with
    | none => rw [hv] at h; cases h
    | some x =>
      rw [hv] at h
      simp only [Option.map_some, Option.some.injEq, Prod.mk.injEq] at h
      obtain ⟨rfl, rfl⟩ := h
      have := charOf_length hv
      rw [List.length_append]; omega
  cases st with
  | plain =>
    simp only [litStep, Option.some.injEq] at h
    rw [h] at hp
    have : litPend LitSt.plain = 0 := rfl
    simp only at hp
    omega
  | esc =>
    simp only [litStep, litEsc] at h
    split at h
    · obtain ⟨rfl, rfl⟩ := Prod.mk.inj (Option.some.inj h); simp [litPend]
    · split at h
      · obtain ⟨rfl, rfl⟩ := Prod.mk.inj (Option.some.inj h); simp [litPend]
      · cases hl : litEscs.lookup c with
        | none => rw [hl] at h; cases h
        | some b =>
          rw [hl] at h
          obtain ⟨rfl, rfl⟩ := Prod.mk.inj (Option.some.inj h); simp [litPend]
  | oct n v =>
    simp only [litStep] at h
    split at h
    · split at h
      · obtain ⟨rfl, rfl⟩ := Prod.mk.inj (Option.some.inj h); simp [litPend]
      · exact done h
    · exact done h
  | hex v =>
    cases v with
    | none =>
      simp only [litStep] at h
      cases hd : hexDigit c with
      | none => rw [hd] at h; cases h
      | some d =>
        rw [hd] at h
        obtain ⟨rfl, rfl⟩ := Prod.mk.inj (Option.some.inj h); simp [litPend]
    | some v =>
      simp only [litStep] at h
      split at h
      · obtain ⟨rfl, rfl⟩ := Prod.mk.inj (Option.some.inj h); simp [litPend]
      · exact done h

theorem litRun_length : ∀ (s : List Byte) {st : LitSt} {v : List Byte}, litRun st s = some v →
    v.length ≤ s.length + litPend st := by
  intro s
  induction s with
  | nil =>
    intro st v h
    cases st with
    | plain => cases h; simp
    | esc => cases h
    | oct n x => have := charOf_length (show charOf x = some v from h); simp [litPend]; omega
    | hex x =>
      cases x with
      | none => cases h
      | some x => have := charOf_length (show charOf x = some v from h); simp [litPend]; omega
  | cons c s ih =>
    intro st v h
    rw [litRun] at h
    cases hs : litStep st c with
    | none => rw [hs] at h; cases h
    | some p =>
      obtain ⟨st', o⟩ := p
      rw [hs] at h
      simp only at h
      cases hr : litRun st' s with
      | none => rw [hr] at h; cases h
      | some v' =>
        rw [hr] at h
        simp only [Option.map_some, Option.some.injEq] at h
        subst h
        have := ih hr
        have := litStep_length hs
        simp only [List.length_append, List.length_cons]; omega

/-- A literal has at most as many characters as its source text. -/
theorem cLit_length {s v : List Byte} (h : cLit s = some v) : v.length ≤ s.length := by
  simpa [litPend] using litRun_length s h

theorem cLit_plain {s : List Byte} (h : ch '\\' ∉ s) : cLit s = some s := by
  have := litRun_plains h []
  simpa [litRun, litEnd, cLit] using this

/-! ## The grammar of literals -/

/-- Numeric escape sequences in the range of a character. -/
def LitItem.InRange : LitItem → Prop
  | .plain _ => True
  | .simple _ _ => True
  | .oct ds => ds.foldl (fun a b => 8 * a + (b.toNat - 48)) 0 < 256
  | .hex ds => ds.foldl (fun a b => 16 * a + hexVal b) 0 < 256

theorem charOf_lt {v : Nat} (h : v < 256) : charOf v = some [UInt8.ofNat v] := if_pos h

/-- A numeric escape sequence is complete. -/
theorem litRun_finish {st : LitSt} {v : Nat} (hv : v < 256) (r : List Byte) (h0 : litEnd st = charOf v)
    (h1 : ∀ c, r.head? = some c →
      litStep st c = (charOf v).map fun o => ((litPlain c).1, o ++ (litPlain c).2)) :
    litRun st r = (litRun .plain r).map (UInt8.ofNat v :: ·) := by
  cases r with
  | nil => rw [litRun, h0, charOf_lt hv]; rfl
  | cons c r =>
    rw [litRun, h1 c rfl, charOf_lt hv]
    simp only [Option.map_some]
    rw [litRun, litStep]
    simp only [Option.map_map]
    congr 1

theorem octDigit_of {c : Byte} (h : isOct c = true) : octDigit c = some (c.toNat - 48) := by
  simp only [isOct, Bool.and_eq_true, decide_eq_true_eq] at h
  rw [octDigit, if_pos h]

theorem octDigit_not {c : Byte} (h : isOct c = false) : octDigit c = none := by
  simp only [isOct, Bool.and_eq_false_iff, decide_eq_false_iff_not] at h
  rw [octDigit, if_neg (by omega)]

theorem hexDigit_of {c : Byte} (h : isHex c = true) : hexDigit c = some (hexVal c) := by
  simp only [isHex, Bool.and_eq_true, Bool.or_eq_true, decide_eq_true_eq] at h
  unfold hexDigit hexVal
  split
  · rw [if_pos (by omega)]
  · split
    · rw [if_neg (by omega), if_pos (by omega)]
    · rw [if_pos (by omega), if_neg (by omega), if_neg (by omega)]

theorem hexDigit_not {c : Byte} (h : isHex c = false) : hexDigit c = none := by
  simp only [isHex, Bool.and_eq_false_iff, Bool.or_eq_false_iff, decide_eq_false_iff_not] at h
  rw [hexDigit, if_neg (by omega), if_neg (by omega), if_neg (by omega)]

theorem litRun_oct (r : List Byte) : ∀ (ds : List Byte) (n v : Nat), (∀ d ∈ ds, isOct d = true) →
    n + ds.length ≤ 3 → (n + ds.length < 3 → HeadNot isOct r) →
    ds.foldl (fun a b => 8 * a + (b.toNat - 48)) v < 256 →
    litRun (.oct n v) (ds ++ r) =
      (litRun .plain r).map (UInt8.ofNat (ds.foldl (fun a b => 8 * a + (b.toNat - 48)) v) :: ·) := by
  intro ds
  induction ds with
  | nil =>
    intro n v _ hn hr hv
    simp only [List.foldl_nil, List.nil_append, List.length_nil, Nat.add_zero] at *
    refine litRun_finish hv r rfl fun c hc => ?_
    rw [litStep]
    cases ho : octDigit c with
    | none => rfl
    | some d =>
      simp only
      rw [if_neg]
      intro h3
      have := octDigit_not (hr h3 c hc)
      rw [this] at ho; cases ho
  | cons d ds ih =>
    intro n v hd hn hr hv
    simp only [List.length_cons] at hn hr
    rw [List.cons_append, litRun, litStep, octDigit_of (hd d List.mem_cons_self)]
    simp only
    rw [if_pos (by omega)]
    simp only
    rw [ih (n + 1) (8 * v + (d.toNat - 48)) (fun x hx => hd x (List.mem_cons_of_mem _ hx)) (by omega)
      (fun h => hr (by omega)) hv]
    cases litRun .plain r <;> rfl

theorem litRun_hex (r : List Byte) (hr : HeadNot isHex r) : ∀ (ds : List Byte) (v : Nat),
    (∀ d ∈ ds, isHex d = true) → ds.foldl (fun a b => 16 * a + hexVal b) v < 256 →
    litRun (.hex (some v)) (ds ++ r) =
      (litRun .plain r).map (UInt8.ofNat (ds.foldl (fun a b => 16 * a + hexVal b) v) :: ·) := by
  intro ds
  induction ds with
  | nil =>
    intro v _ hv
    simp only [List.foldl_nil, List.nil_append] at *
    refine litRun_finish hv r rfl fun c hc => ?_
    rw [litStep, hexDigit_not (hr c hc)]
  | cons d ds ih =>
    intro v hd hv
    rw [List.cons_append, litRun, litStep, hexDigit_of (hd d List.mem_cons_self)]
    simp only
    rw [ih (16 * v + hexVal d) (fun x hx => hd x (List.mem_cons_of_mem _ hx)) hv]
    cases litRun .plain r <;> rfl

theorem simpleEscs_run : ∀ p ∈ simpleEscs, litEsc p.1 = some (.plain, [p.2]) := by decide +kernel

theorem litRun_item {i : LitItem} (h : i.WF) (hi : i.InRange) {r : List Byte} (hr : i.mayFollow r) :
    litRun .plain (i.src ++ r) = (litRun .plain r).map (i.value :: ·) := by
  have hbs : litStep .plain (ch '\\') = some (.esc, []) := by decide
  cases i with
  | plain c => exact litRun_plains (c := [c]) (by simpa using Ne.symm h.2.1) r
  | simple c v =>
    have := simpleEscs_run _ h
    simp only [LitItem.src, List.cons_append, List.nil_append]
    rw [litRun, hbs]
    simp only [litRun, litStep, this, Option.map_map, LitItem.value]
    rfl
  | oct ds =>
    obtain ⟨h1, h2, h3⟩ := h
    cases ds with
    | nil => simp at h1
    | cons d ds =>
      have ho := octDigit_of (h3 d List.mem_cons_self)
      have hx : d ≠ ch 'x' := by
        rintro rfl
        have : isOct (ch 'x') = true := h3 _ List.mem_cons_self
        exact absurd this (by decide)
      simp only [LitItem.src, List.cons_append]
      rw [litRun, hbs]
      simp only
      rw [litRun, litStep, litEsc, if_neg hx, ho]
      simp only
      simp only [LitItem.InRange, List.foldl_cons, Nat.mul_zero, Nat.zero_add] at hi
      rw [litRun_oct r ds 1 _ (fun x hx => h3 x (List.mem_cons_of_mem _ hx)) (by simp at h2; omega)
        (fun hl => hr (by simp; omega)) hi]
      cases litRun .plain r <;> simp [LitItem.value]
  | hex ds =>
    obtain ⟨h1, h3⟩ := h
    cases ds with
    | nil => simp at h1
    | cons d ds =>
      have ho := hexDigit_of (h3 d List.mem_cons_self)
      simp only [LitItem.src, List.cons_append]
      rw [litRun, hbs]
      simp only
      rw [litRun, litStep, litEsc, if_pos rfl]
      simp only
      rw [litRun, litStep, ho]
      simp only [Option.map_some]
      simp only [LitItem.InRange, List.foldl_cons, Nat.mul_zero, Nat.zero_add] at hi
      rw [litRun_hex r hr ds _ (fun x hx => h3 x (List.mem_cons_of_mem _ hx)) hi]
      cases litRun .plain r <;> simp [LitItem.value]

/-- The compiler gives literals of the C grammar the value they denote. -/
theorem cLit_grammar {l : List LitItem} (h : LitWF l) (hr : ∀ i ∈ l, i.InRange) :
    cLit (litSrc l) = some (l.map LitItem.value) := by
  unfold cLit
  induction l with
  | nil => rfl
  | cons i l ih =>
    rw [litSrc_cons, litRun_item h.1 (hr i List.mem_cons_self) h.2.1,
      ih h.2.2 fun x hx => hr x (List.mem_cons_of_mem _ hx)]
    rfl

/-! ## Pieces of a format -/

/-- Text that ends with a conversion specification. -/
def EndsConv (p : List Byte) : Prop := ∃ a c, p = a ++ ch '%' :: c ∧ ch '\\' ∉ c

theorem pyScan_pieces (fmt : List Byte) : ∀ (fuel i pct start : Nat) (ms ms' : List (RMatch × List Byte))
    (start' : Nat), (∀ k, i ≤ k → k < start → fmt[k]? ≠ some (ch '%')) →
    pyScan fmt fuel i pct start ms = some (ms', start') →
    ∃ ext, ms' = ms ++ ext ∧ fmt.drop start = ext.flatMap Prod.snd ++ fmt.drop start' ∧
      (∀ p ∈ ext, EndsConv p.2) ∧ (ext = [] → start' = start) := by
  intro fuel
  induction fuel with
  | zero =>
    intro i pct start ms ms' start' _ h
    cases h
    exact ⟨[], by simp, by simp, by simp, fun _ => rfl⟩
  | succ fuel ih =>
    intro i pct start ms ms' start' hinv h
    rw [pyScan] at h
    cases hd : fmt.drop i with
    | nil =>
      rw [hd] at h
      cases h
      exact ⟨[], by simp, by simp, by simp, fun _ => rfl⟩
    | cons c s =>
      rw [hd] at h
      simp only at h
      have later : ∀ j, i ≤ j → ∀ k, j ≤ k → k < start → fmt[k]? ≠ some (ch '%') :=
        fun j hj k hk => hinv k (by omega)
      have hget : fmt[i]? = some c := by
        have := congrArg (·[0]?) hd
        simpa using this
      split at h
      · exact ih _ _ _ _ _ _ (later _ (by omega)) h
      · split at h
        · rename_i hc
          subst hc
          have hsi : start ≤ i := by
            by_cases hh : start ≤ i
            · exact hh
            · exact absurd hget (hinv i (Nat.le_refl _) (by omega))
          split at h
          · cases hm : regexMatch (ch '%' :: s) with
            | none =>
              rw [hm] at h
              simp only at h
              split at h
              · exact ih _ _ _ _ _ _ (later _ (by omega)) h
              · cases h
            | some m =>
              rw [hm] at h
              simp only at h
              obtain ⟨cv, w1, w2, -⟩ := regexMatch_inv hm
              have hlen : (ch '%' :: s).length - m.rest.length = cv.bytes.length := by
                rw [w2]; simp
              rw [hlen] at h
              have hplain := cv.tail_plain w1
              have hcut : fmt.drop start = (fmt.drop start).take (i - start) ++ (cv.bytes ++ m.rest) := by
                have h1 := (List.take_append_drop (i - start) (fmt.drop start)).symm
                rw [List.drop_drop, show start + (i - start) = i by omega, hd, w2] at h1
                exact h1
              have hpiece : (fmt.drop start).take (i + cv.bytes.length - start)
                  = (fmt.drop start).take (i - start) ++ cv.bytes := by
                have hil : i < fmt.length := by
                  rcases Nat.lt_or_ge i fmt.length with hh | hh
                  · exact hh
                  · rw [List.drop_eq_nil_of_le hh] at hd; cases hd
                generalize hx : (fmt.drop start).take (i - start) = x at hcut
                have hxl : x.length = i - start := by
                  rw [← hx]; simp; omega
                rw [hcut, ← List.append_assoc, List.take_left']
                rw [List.length_append]; omega
              have hrest : fmt.drop (i + cv.bytes.length) = m.rest := by
                rw [← List.drop_drop, hd, w2, List.drop_left]
              have hinv' : ∀ k, i + 1 ≤ k → k < i + cv.bytes.length → fmt[k]? ≠ some (ch '%') := by
                intro k hk1 hk2 hbad
                have e1 : fmt[k]? = (fmt.drop i)[k - i]? := by
                  rw [List.getElem?_drop, show i + (k - i) = k by omega]
                rw [e1, hd, w2, List.getElem?_append_left (by omega), RawConv.bytes,
                  show k - i = (k - i - 1) + 1 by omega, List.getElem?_cons_succ] at hbad
                exact (hplain _ (List.mem_of_getElem? hbad)).1 rfl
              obtain ⟨ext, i1, i2, i3, i4⟩ := ih _ _ _ _ _ _ hinv' h
              refine ⟨(m, (fmt.drop start).take (i + cv.bytes.length - start)) :: ext, by rw [i1]; simp, ?_, ?_, by simp⟩
              · rw [List.flatMap_cons, hpiece, List.append_assoc, ← i2, hrest, List.append_assoc]
                exact hcut
              · intro p hp
                rcases List.mem_cons.1 hp with rfl | hp
                · exact ⟨_, cv.tail, hpiece, fun hb => (hplain _ hb).2 rfl⟩
                · exact i3 p hp
          · exact ih _ _ _ _ _ _ (later _ (by omega)) h
        · exact ih _ _ _ _ _ _ (later _ (by omega)) h

theorem pyFmts_sub : ∀ (ms : List (RMatch × List Byte)) {fs : List PyFmt}, pyFmts ms = some fs →
    fs.map PyFmt.sub = ms.map Prod.snd := by
  intro ms
  induction ms with
  | nil => intro fs h; cases h; rfl
  | cons p ms ih =>
    intro fs h
    rw [pyFmts] at h
    cases h1 : pyFmtOf p with
    | none => rw [h1] at h; cases h
    | some f =>
      rw [h1] at h
      simp only at h
      cases h2 : pyFmts ms with
      | none => rw [h2] at h; cases h
      | some gs =>
        rw [h2] at h
        simp only [Option.map_some, Option.some.injEq] at h
        subst h
        rw [List.map_cons, List.map_cons, ih h2]
        congr 1
        unfold pyFmtOf at h1
        cases h3 : pyType p.1.len p.1.spec with
        | none => rw [h3] at h1; cases h1
        | some t =>
          rw [h3] at h1
          simp only [Option.map_some, Option.some.injEq] at h1
          rw [← h1]

theorem foldLast_snd (ms : List (RMatch × List Byte)) (t : List Byte) (hne : ms ≠ []) :
    ∃ init l, ms.map Prod.snd = init ++ [l] ∧ (foldLast ms t).map Prod.snd = init ++ [l ++ t] := by
  induction ms with
  | nil => exact absurd rfl hne
  | cons p ms ih =>
    cases ms with
    | nil => exact ⟨[], p.2, rfl, rfl⟩
    | cons q ms =>
      obtain ⟨init, l, h1, h2⟩ := ih (by simp)
      exact ⟨p.2 :: init, l, by rw [List.map_cons, h1]; rfl, by rw [foldLast, List.map_cons, h2]; rfl; simp⟩

/-- The pieces of a format make up the format; all but the last end with a conversion specification. -/
theorem pySplit_pieces {fmt : List Byte} {fs : List PyFmt} (h : pySplit fmt = some fs) :
    ∃ init l, fs.map PyFmt.sub = init ++ [l] ∧ fmt = init.flatten ++ l ∧ ∀ p ∈ init, EndsConv p := by
  unfold pySplit at h
  cases hs : pyScan fmt fmt.length 0 0 0 [] with
  | none => rw [hs] at h; cases h
  | some r =>
    obtain ⟨ms, start⟩ := r
    rw [hs] at h
    simp only at h
    obtain ⟨ext, e1, e2, e3, -⟩ := pyScan_pieces fmt _ _ _ _ _ _ _ (fun k _ hk => by omega) hs
    simp only [List.nil_append] at e1
    subst e1
    split at h
    · obtain rfl := Option.some.inj h
      exact ⟨[], fmt, rfl, rfl, by simp⟩
    · rename_i hne
      obtain ⟨init, l, f1, f2⟩ := foldLast_snd ms (fmt.drop start) hne
      refine ⟨init, l ++ fmt.drop start, by rw [pyFmts_sub _ h, f2], ?_, ?_⟩
      · rw [List.drop_zero, List.flatMap_def, f1] at e2
        exact e2.trans (by simp)
      · intro p hp
        have : p ∈ ms.map Prod.snd := by rw [f1]; simp [hp]
        obtain ⟨q, q1, rfl⟩ := List.mem_map.1 this
        exact e3 q q1

theorem litFrags_cons {f : Frag} {fs gs : List Frag} (h : litFrags (f :: fs) = some gs) :
    ∃ t gs', cLit f.text = some t ∧ litFrags fs = some gs' ∧ gs = { f with text := t } :: gs' := by
  rw [litFrags] at h
  cases h1 : cLit f.text with
  | none => rw [h1] at h; cases h
  | some t =>
    cases h2 : litFrags fs with
    | none => rw [h1, h2] at h; cases h
    | some gs' => rw [h1, h2] at h; exact ⟨t, gs', rfl, rfl, (Option.some.inj h).symm⟩

theorem pieces_lit (l : List Byte) : ∀ (init : List (List Byte)), (∀ p ∈ init, EndsConv p) →
    ∀ (gs : List Frag), gs.map Frag.text = init ++ [l] → ∀ v, cLit (init.flatten ++ l) = some v →
    ∃ hs, litFrags gs = some hs ∧ (hs.map Frag.text).flatten = v ∧ hs.length = gs.length := by
  intro init
  induction init with
  | nil =>
    intro _ gs hg v hv
    cases gs with
    | nil => cases hg
    | cons g gs =>
      simp only [List.map_cons, List.nil_append, List.cons.injEq, List.map_eq_nil_iff] at hg
      obtain ⟨h1, rfl⟩ := hg
      refine ⟨[{ g with text := v }], ?_, by simp, rfl⟩
      simp only [List.flatten_nil, List.nil_append] at hv
      rw [litFrags, h1, hv]; rfl
  | cons p init ih =>
    intro hp gs hg v hv
    cases gs with
    | nil => cases hg
    | cons g gs =>
      simp only [List.map_cons, List.cons_append, List.cons.injEq] at hg
      obtain ⟨a, c, e1, e2⟩ := hp p List.mem_cons_self
      rw [List.flatten_cons, List.append_assoc, e1] at hv
      obtain ⟨u, w, u1, u2, u3⟩ := litRun_cut e2 _ a _ _ hv
      obtain ⟨hs, i1, i2, i3⟩ := ih (fun q hq => hp q (List.mem_cons_of_mem _ hq)) gs hg.2 w u2
      refine ⟨{ g with text := u } :: hs, ?_, by simp [i2, u3], by simp [i3]⟩
      rw [litFrags, hg.1, e1, show cLit (a ++ ch '%' :: c) = some u from u1, i1]

theorem pyFrags_text {fs : List PyFmt} : ∀ {gs : List Frag}, pyFrags fs = some gs →
    gs.map Frag.text = fs.map PyFmt.sub := by
  induction fs with
  | nil => intro gs h; cases h; rfl
  | cons f fs ih =>
    intro gs h
    rw [pyFrags] at h
    cases h1 : f.frag with
    | none => rw [h1] at h; cases h
    | some g =>
      rw [h1] at h
      simp only at h
      cases h2 : pyFrags fs with
      | none => rw [h2] at h; cases h
      | some gs' =>
        rw [h2] at h
        simp only [Option.map_some, Option.some.injEq] at h
        subst h
        rw [List.map_cons, List.map_cons, ih h2]
        congr 1
        unfold PyFmt.frag at h1
        split at h1
        · rw [← Option.some.inj h1]
        · split at h1
          · cases h1
          · rw [← Option.some.inj h1]

end NanoLog
