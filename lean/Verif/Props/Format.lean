import Verif.FmtText
import Verif.Props.Args

/-!
# Properties C22, C23: the two format string parsers; C13 through both parsers
-/

namespace NanoLog

/-- Bytes of an ASCII string literal (used in examples). -/
def asc (s : String) : List Byte := s.toList.map ch

/-- Specification for C22: kinds of parameters. -/
inductive PKind where
  | width | prec | scalar | string
  deriving DecidableEq, Repr

/-- Kind of a compile-time parameter. -/
def ParamType.kind : ParamType → PKind
  | .dynWidth => .width
  | .dynPrec => .prec
  | .nonString => .scalar
  | .strDyn | .strNo | .strPrec _ => .string

/-- Kinds of values the decoder will read for a fragment, in order. -/
def Frag.kinds (f : Frag) : List PKind :=
  (if f.dynW then [.width] else []) ++ (if f.dynP then [.prec] else []) ++
  match f.ty with
  | none => []
  | some .charPtr | some .wcharPtr => [.string]
  | some _ => [.scalar]

/-- What the logging side encodes (parameter kinds, in order, and the number of half bytes
they need) is what the decoder will read back. -/
def ParsersAgree (fmt : List Byte) : Prop :=
  ∀ ps, analyze fmt = some ps → ∀ file line level, ∃ m,
    createMicroCode fmt file line level = some m ∧
    m.frags.flatMap Frag.kinds = ps.map ParamType.kind ∧
    m.numNibbles = numNibblesNeeded ps

/-- `"%*.*ld%%x%.3s"` as an abstract format. -/
def exampleFormat : List FItem :=
  [.conv ⟨[ch '0'], .star, .star, .l, (ch 'd', .signed), .long⟩, .pct, .text (ch 'x'),
   .conv ⟨[], .none, .digits [ch '3'], .none, (ch 's', .str), .charPtr⟩]

theorem exampleFormat_wf : ∀ i ∈ exampleFormat, i.WF := by
  intro i hi
  simp only [exampleFormat, List.mem_cons, List.not_mem_nil, or_false] at hi
  rcases hi with rfl | rfl | rfl | rfl
  · exact ⟨by decide, by simp, by simp, by decide, by decide⟩
  · exact trivial
  · exact ⟨by decide, by decide, by decide⟩
  · refine ⟨by simp, by simp, ?_, by decide, by decide⟩
    intro ds h
    injection h with h
    subst h
    exact ⟨by simp, by decide, by decide⟩

theorem conv_kinds (c : Conv) (t : List Byte) :
    (Piece.frag (some c, t)).kinds = c.params.map ParamType.kind := by
  obtain ⟨w, p, pr, ty⟩ := c
  have : (match (some ty : Option FormatType) with
      | none => []
      | some .charPtr | some .wcharPtr => [PKind.string]
      | some _ => [.scalar]) =
      [ParamType.kind (if ty.rty.isSome then .nonString else if p then .strDyn
        else match pr with
          | some n => .strPrec n
          | none => .strNo)] := by
    cases ty <;> simp [FormatType.rty] <;> first | rfl | (cases p <;> cases pr <;> rfl)
  simp only [Frag.kinds, Piece.frag, this, Conv.params, List.map_append]
  cases w <;> cases p <;> rfl

theorem pieces_kinds (cs : List Piece) :
    (formatFrags cs).flatMap Frag.kinds = (formatParams cs).map ParamType.kind := by
  induction cs with
  | nil => rfl
  | cons c cs ih =>
    simp only [formatFrags, formatParams] at ih
    simp only [formatFrags, formatParams, List.map_cons, List.flatMap_cons, List.map_append, ih]
    congr 1
    obtain ⟨c, t⟩ := c
    cases c with
    | none => rfl
    | some c => exact conv_kinds c t

/-- **C22** (partial).  For every format string of the C standard's grammar (any flags,
static or `*` width and precision, any length modifier and specifier combination the
standard defines, `%%`, arbitrary text without backslash), with at most 255 pieces and half
bytes, both parsers succeed and agree; the parameters are the specified ones and the decoder
reads each conversion at the C type the standard gives it.  Missing: strings outside this
grammar that the compile-time parser nevertheless accepts, see `C22_false`. -/
theorem C22_parsers_agree_partial {is : List FItem} (h : ∀ i ∈ is, i.WF)
    (hn : numNibblesNeeded (itemParams is) ≤ 255) (hp : (pieces is).length ≤ 255) :
    ParsersAgree (render is) ∧ analyze (render is) = some (itemParams is) ∧
    ∀ file line level, createMicroCode (render is) file line level =
      some { file := file, line := line, level := level
             numNibbles := numNibblesNeeded (formatParams (pieces is))
             frags := formatFrags (pieces is) } := by
  have h1 := analyze_items h
  have h2 := fun file line level => createMicroCode_items h file line level hn hp
  refine ⟨?_, h1, ?_⟩
  · intro ps hps file line level
    rw [h1] at hps
    injection hps with hps
    subst hps
    refine ⟨_, h2 file line level, ?_, rfl⟩
    rw [pieces_kinds, pieces_params]
  · intro file line level
    rw [h2 file line level, pieces_params]

example : (∀ i ∈ exampleFormat, i.WF) ∧ numNibblesNeeded (itemParams exampleFormat) ≤ 255 ∧
    (pieces exampleFormat).length ≤ 255 ∧ render exampleFormat = asc "%0*.*ld%%x%.3s" :=
  ⟨exampleFormat_wf, by decide, by decide, by decide⟩

/-- **C13**, from the format string on.  The arguments of a log call are stored and compressed
with the parameters that the compile-time parser finds in the format string, and decoded with
the description that the decoder finds in the same format string: the result is what `printf`
must receive. -/
theorem C13_through_both_parsers {is : List FItem} (h : ∀ i ∈ is, i.WF)
    (hn : numNibblesNeeded (itemParams is) ≤ 255) (hp : (pieces is).length ≤ 255)
    {as : List Arg} {ds : List Decoded} (hf : FormatPrints (pieces is) as ds)
    (ha : ∀ a ∈ as, a.Valid) (hsz : argAllocSize (itemParams is) as < 2 ^ 32)
    (file : List Byte) (line level junk : Nat) (more rest : List Byte) :
    ∃ ps m out, analyze (render is) = some ps ∧
      createMicroCode (render is) file line level = some m ∧
      compress junk (numNibblesNeeded ps) (as.map Arg.ty) ps (storedArgs ps as ++ more)
        = some (out, more) ∧
      decodeArgs m.numNibbles m.frags (out ++ rest) = some (ds, rest) := by
  have hpar := pieces_params is
  obtain ⟨out, h1, h2⟩ := C13_arguments_recovered hf ha (by rw [hpar]; exact hsz) junk more rest
  exact ⟨itemParams is, _, out, analyze_items h, createMicroCode_items h file line level hn hp,
    by rw [hpar] at h1; exact h1, by rw [hpar] at h2; exact h2⟩

/-- `%*.*s`. -/
def exDynFormat : List FItem := [.conv ⟨[], .star, .star, .none, (ch 's', .str), .charPtr⟩]

/-- Width 7, precision 2 and "abc": `printf` must receive 7, 2 and "ab". -/
example : render exDynFormat = asc "%*.*s" ∧ (∀ i ∈ exDynFormat, i.WF) ∧
    numNibblesNeeded (itemParams exDynFormat) ≤ 255 ∧ (pieces exDynFormat).length ≤ 255 ∧
    FormatPrints (pieces exDynFormat)
      [.int .i32 7, .int .i32 2, .cstr 4096 [97, 98, 99]]
      [⟨asc "%*.*s", some 7, some 2, some (.str [97, 98])⟩] ∧
    (∀ a ∈ [Arg.int .i32 7, .int .i32 2, .cstr 4096 [97, 98, 99]], a.Valid) ∧
    argAllocSize (itemParams exDynFormat)
      [.int .i32 7, .int .i32 2, .cstr 4096 [97, 98, 99]] < 2 ^ 32 := by
  refine ⟨by decide, ?_, by decide, by decide, ?_, by decide, by decide⟩
  · intro i hi
    simp only [exDynFormat, List.mem_cons, List.not_mem_nil, or_false] at hi
    subst hi
    exact ⟨by simp, by simp, by simp, by decide, by decide⟩
  · exact .conv (as := [.int .i32 7, .int .i32 2, .cstr 4096 [97, 98, 99]]) (.mk _
      (ws := [.int .i32 7]) (ps := [.int .i32 2]) (.present _ _ (.inl (by decide)))
      (.present _ _ (.inl (by decide))) (.str _ _ _)) .nil

/-- C22 is false in general.  The compile-time parser accepts each of these format strings,
but the decoder reads other parameters or no micro code at all: a backslash before `%`, a
precision without digits, a flagged percent sign, doubled length modifiers, and four
combinations the decoder rejects. -/
theorem C22_false : ∀ s ∈ [asc "\\%d", asc "%.f", asc "% %", asc "%5%", asc "%hlld",
    asc "%Ld", asc "%hs", asc "%lp", asc "%hc"], ¬ ParsersAgree s := by
  have key : ∀ s ps, analyze s = some ps →
      (match createMicroCode s [] 0 0 with
       | none => true
       | some m => decide (m.frags.flatMap Frag.kinds ≠ ps.map ParamType.kind)) = true →
      ¬ ParsersAgree s := by
    intro s ps h1 h2 h
    obtain ⟨m, h3, h4, _⟩ := h ps h1 [] 0 0
    rw [h3] at h2
    simp [h4] at h2
  intro s hs
  simp only [List.mem_cons, List.not_mem_nil, or_false] at hs
  rcases hs with rfl | rfl | rfl | rfl | rfl | rfl | rfl | rfl | rfl
  · exact key _ [.nonString] (by decide) (by decide)
  · exact key _ [.nonString] (by decide) (by decide)
  · exact key _ [.nonString] (by decide) (by decide)
  · exact key _ [.nonString] (by decide) (by decide)
  · exact key _ [.nonString] (by decide) (by decide)
  · exact key _ [.nonString] (by decide) (by decide)
  · exact key _ [.strNo] (by decide) (by decide)
  · exact key _ [.nonString] (by decide) (by decide)
  · exact key _ [.nonString] (by decide) (by decide)

/-- A `%d` conversion. -/
def convD : FItem := .conv ⟨[], .none, .none, .none, (ch 'd', .signed), .int⟩

theorem convD_wf (n : Nat) : ∀ i ∈ List.replicate n convD, i.WF := by
  intro i hi
  rw [List.mem_replicate] at hi
  rw [hi.2]
  exact ⟨by simp, by simp, by simp, by decide, by decide⟩

theorem convD_split (n : Nat) :
    splitConvs [] (List.replicate n convD) =
      (List.replicate n (⟨false, false, none, .int⟩, asc "%d"), []) := by
  induction n with
  | zero => rfl
  | succ n ih => rw [List.replicate_succ, List.replicate_succ]; simp only [convD, splitConvs]; simp only [convD] at ih; rw [ih]; rfl

theorem convD_params (n : Nat) :
    itemParams (List.replicate n convD) = List.replicate n .nonString := by
  induction n with
  | zero => rfl
  | succ n ih =>
    rw [List.replicate_succ, List.replicate_succ, ← ih]
    simp [itemParams, convD, Conv.params, ConvS.conv, FormatType.rty]

/-- What the decoder makes of a format with `n ≥ 1` conversions `%d`: counts modulo 256. -/
theorem convD_micro (n : Nat) (hn : 1 ≤ n) (file : List Byte) (line level : Nat) :
    createMicroCode (render (List.replicate n convD)) file line level =
      some { file := file, line := line, level := level, numNibbles := n % 256
             frags := List.replicate (n % 256) ⟨some .int, false, false, asc "%d"⟩ } := by
  have hm := microLoop_items (convD_wf n) (render (List.replicate n convD)).length 0 ⟨[], [], 0⟩
    (Nat.le_refl _) rfl
  rw [convD_split, convD_params] at hm
  simp only [List.nil_append, Nat.zero_add, List.map_replicate] at hm
  have hnn : numNibblesNeeded (List.replicate n ParamType.nonString) = n := by
    simp [numNibblesNeeded]
  rw [hnn] at hm
  have he : ∀ k, extendLast (List.replicate k (convFrag (⟨false, false, none, .int⟩, asc "%d"))) []
      = List.replicate k (convFrag (⟨false, false, none, .int⟩, asc "%d")) := by
    intro k
    induction k with
    | zero => rfl
    | succ k ih =>
      cases k with
      | zero => rfl
      | succ k => rw [List.replicate_succ, List.replicate_succ] at *; simp only [extendLast, ih]
  simp only [createMicroCode, hm, Option.bind_eq_bind, Option.bind_some]
  have hne : ¬ (List.replicate n (convFrag (⟨false, false, none, .int⟩, asc "%d")) = []) := by
    simp; omega
  rw [if_neg hne, if_neg hne, he, List.length_replicate, List.take_replicate,
    Nat.min_eq_left (Nat.mod_le _ _)]
  rfl

/-- The bound of 255 in C22 is needed: with 256 integer conversions (or any multiple) the
decoder's 8-bit counters wrap to zero and it reads nothing. -/
theorem C22_255_bound_needed (n : Nat) (hn : 1 ≤ n) (h0 : n % 256 = 0) :
    ¬ ParsersAgree (render (List.replicate n convD)) := by
  intro h
  obtain ⟨m, h3, h4, _⟩ := h _ (analyze_items (convD_wf n)) [] 0 0
  rw [convD_micro n hn] at h3
  injection h3 with h3
  subst h3
  rw [convD_params, h0] at h4
  have := congrArg List.length h4
  simp at this
  omega

/-- **C23** (partial).  For every format string whatsoever for which the decoder builds micro
code with fewer than 256 fragments, the texts of the fragments concatenate to the format
string.  Missing: formats with 256 or more conversions, see `C23_256_conversions_lost`. -/
theorem C23_no_text_lost_partial {fmt file : List Byte} {line level : Nat} {m : Meta}
    (h : createMicroCode fmt file line level = some m)
    (hk : ∀ st, microLoop fmt.length fmt 0 ⟨[], [], 0⟩ = some st → st.frags.length < 256) :
    fragText m.frags = fmt := by
  unfold createMicroCode at h
  cases hm : microLoop fmt.length fmt 0 ⟨[], [], 0⟩ with
  | none => simp [hm] at h
  | some st =>
    simp only [hm, Option.bind_eq_bind, Option.bind_some, Option.some.injEq] at h
    subst h
    have ht := microLoop_text _ _ _ _ _ hm
    have hlt := hk st hm
    by_cases hf : st.frags = []
    · simp [hf, fragText]
    · simp only [hf, if_false]
      rw [Nat.mod_eq_of_lt hlt, List.take_of_length_le (by rw [extendLast_length]; exact Nat.le_refl _),
        fragText_extendLast _ _ hf]
      simpa [fragText] using ht

example : ∃ m, createMicroCode (asc "a%5.2f %% %s\n") [] 7 1 = some m ∧ m.frags.length = 2 :=
  ⟨_, by rfl, by rfl⟩

/-- **C23**, one conversion per fragment: for formats of the C grammar the fragments are the
rendered groups of a partition of the format's items, each with at most one conversion. -/
theorem C23_one_conversion_each {is : List FItem} (h : ∀ i ∈ is, i.WF)
    (hn : numNibblesNeeded (itemParams is) ≤ 255) (hp : (pieces is).length ≤ 255)
    (file : List Byte) (line level : Nat) :
    ∃ (m : Meta) (gs : List (List FItem)),
      createMicroCode (render is) file line level = some m ∧
      gs.flatten = is ∧ m.frags.map (·.text) = gs.map render ∧
      ∀ g ∈ gs, (g.filter fun i => match i with | .conv _ => true | _ => false).length ≤ 1 := by
  have key : ∀ (is : List FItem) (pre : List FItem),
      (pre.filter fun i => match i with | .conv _ => true | _ => false) = [] →
      ∃ gs : List (List FItem), gs.flatten = pre ++ is ∧
        (attachTail (splitConvs (render pre) is).1 (splitConvs (render pre) is).2).map (·.2)
          = gs.map render ∧
        ((splitConvs (render pre) is).1 ≠ [] → gs ≠ []) ∧
        (∀ g ∈ gs,
          (g.filter fun i => match i with | .conv _ => true | _ => false).length ≤ 1) := by
    intro is
    induction is with
    | nil =>
      intro pre hpre
      exact ⟨[pre], by simp, by simp [splitConvs, attachTail], by simp, by simp [hpre]⟩
    | cons i is ih =>
      intro pre hpre
      cases i with
      | text b =>
        obtain ⟨gs, g1, g2, g3, g4⟩ := ih (pre ++ [.text b]) (by simp [hpre])
        refine ⟨gs, by simpa using g1, ?_, ?_, g4⟩
        · rw [← g2]; simp [splitConvs, render]
        · intro hne; apply g3; simpa [splitConvs, render] using hne
      | pct =>
        obtain ⟨gs, g1, g2, g3, g4⟩ := ih (pre ++ [.pct]) (by simp [hpre])
        refine ⟨gs, by simpa using g1, ?_, ?_, g4⟩
        · rw [← g2]; simp [splitConvs, render]
        · intro hne; apply g3; simpa [splitConvs, render] using hne
      | conv c =>
        have hr : render (pre ++ [.conv c]) = render pre ++ c.bytes := by
          simp [render, FItem.bytes]
        by_cases hc : (splitConvs [] is).1 = []
        · refine ⟨[pre ++ .conv c :: is], by simp, ?_, by simp, ?_⟩
          · have := splitConvs_text is [] hc
            have e : render (pre ++ .conv c :: is) = render pre ++ c.bytes ++ render is := by
              simp [render, FItem.bytes]
            simp [splitConvs, hc, attachTail, this, e]
          · have : ∀ (js : List FItem) (acc : List Byte), (splitConvs acc js).1 = [] →
                (js.filter fun i => match i with | .conv _ => true | _ => false) = [] := by
              intro js
              induction js with
              | nil => simp
              | cons j js ihj =>
                intro acc hj
                cases j with
                | conv d => simp [splitConvs] at hj
                | text b => simp only [splitConvs] at hj; simpa using ihj _ hj
                | pct => simp only [splitConvs] at hj; simpa using ihj _ hj
            simp [hpre, this is [] hc]
        · obtain ⟨gs, g1, g2, g3, g4⟩ := ih [] rfl
          have hne : gs ≠ [] := g3 hc
          refine ⟨(pre ++ [.conv c]) :: gs, by simp [g1], ?_, by simp, ?_⟩
          · have e0 : render ([] : List FItem) = [] := rfl
            rw [e0] at g2
            simp only [splitConvs, List.map_cons, hr, ← g2]
            generalize splitConvs [] is = r at *
            obtain ⟨r1, r2⟩ := r
            cases r1 with
            | nil => exact absurd rfl hc
            | cons d ds => simp [attachTail]
          · intro g hg
            rcases List.mem_cons.1 hg with rfl | hg
            · simp [hpre]
            · exact g4 g hg
  obtain ⟨gs, g1, g2, _, g4⟩ := key is [] rfl
  refine ⟨_, gs, createMicroCode_items h file line level hn hp, by simpa using g1, ?_, g4⟩
  rw [← g2]
  have e0 : render ([] : List FItem) = [] := rfl
  rw [e0]
  show ((pieces is).map Piece.frag).map (·.text) = (pieces is).map (·.2)
  rw [List.map_map]
  apply List.map_congr_left
  intro p _
  obtain ⟨c, t⟩ := p
  cases c <;> rfl

/-- The bound in C23 is needed: the text of a format with 256 conversions is lost. -/
theorem C23_256_conversions_lost (n : Nat) (hn : 1 ≤ n) (h0 : n % 256 = 0) :
    ∃ m, createMicroCode (render (List.replicate n convD)) [] 0 0 = some m ∧
      fragText m.frags = [] ∧ render (List.replicate n convD) ≠ [] := by
  refine ⟨_, convD_micro n hn [] 0 0, by rw [h0]; rfl, ?_⟩
  obtain ⟨k, rfl⟩ : ∃ k, n = k + 1 := ⟨n - 1, by omega⟩
  rw [List.replicate_succ]
  simp [render, convD, FItem.bytes, ConvS.bytes]

end NanoLog
