import Verif.PreFileScan

/-!
# C51: log statements found and replaced by the preprocessor
-/

namespace NanoLog

/-- C51.  The preprocessor takes exactly the line markers of the GNU preprocessor for line markers, with their
line number and file name. -/
theorem C51_marker (x e : List Byte) (hx : (10 : Byte) ∉ x) (he : e = [] ∨ e = [10]) (n : Nat)
    (f : List Byte) : dirOf (x ++ e) = some (n, f) ↔ IsMarker (x ++ e) n f :=
  marker_iff x e hx he n f

example : (10 : Byte) ∉ asc "# 12 \"dir/a b.cc\" 3 4" ∧
    IsMarker (asc "# 12 \"dir/a b.cc\" 3 4" ++ [10]) 12 (asc "dir/a b.cc") :=
  ⟨by decide, asc "12", asc " 3 4\n", by decide, by decide, by decide, by decide, by decide⟩

/-! ## The record functions -/

theorem ppStep_unit {st st' : PPState} {line f0 : List Byte} {ls ls' : List (List Byte)} (hf0 : f0 ≠ [])
    (h : st.first = f0 ∧ ∀ p ∈ st.stmts, p.1.unit = f0) (hs : ppStep st line ls = some (st', ls')) :
    st'.first = f0 ∧ ∀ p ∈ st'.stmts, p.1.unit = f0 := by
  unfold ppStep at hs
  split at hs
  · obtain ⟨rfl, rfl⟩ : _ = st' ∧ _ = ls' := by simpa using hs
    refine ⟨?_, h.2⟩
    show (if st.first = [] then _ else st.first) = f0
    rw [if_neg (h.1 ▸ hf0)]
    exact h.1
  · split at hs
    · obtain ⟨rfl, rfl⟩ : _ = st' ∧ _ = ls' := by simpa using hs
      exact h
    · split at hs
      · obtain ⟨rfl, rfl⟩ : _ = st' ∧ _ = ls' := by simpa using hs
        exact h
      · split at hs
        · simp at hs
        · obtain ⟨rfl, rfl⟩ : _ = st' ∧ _ = ls' := by simpa using hs
          exact h
        · unfold ppStmt at hs
          split at hs
          · simp at hs
          split at hs
          · split at hs
            · simp at hs
            split at hs
            · simp at hs
            split at hs
            · simp at hs
            split at hs
            · split at hs
              · obtain ⟨rfl, rfl⟩ : _ = st' ∧ _ = ls' := by simpa using hs
                refine ⟨h.1, ?_⟩
                intro p hp
                rcases List.mem_append.1 hp with hp | hp
                · exact h.2 p hp
                · rw [List.mem_singleton.1 hp]
                  exact h.1
              · simp at hs
            · simp at hs
          · simp at hs

theorem ppLoop_unit {f0 : List Byte} (hf0 : f0 ≠ []) (bound : Nat) : ∀ {st st' : PPState}
    {todo : List (List Byte)}, (st.first = f0 ∧ ∀ p ∈ st.stmts, p.1.unit = f0) →
    ppLoop bound st todo = some st' → st'.first = f0 ∧ ∀ p ∈ st'.stmts, p.1.unit = f0 := by
  induction bound with
  | zero => intro st st' todo _ h; simp [ppLoop] at h
  | succ k ih =>
    intro st st' todo hi h
    cases todo with
    | nil =>
      obtain rfl : st = st' := by simpa [ppLoop] using h
      exact hi
    | cons l ls =>
      rw [ppLoop] at h
      split at h
      · simp at h
      next st1 ls1 hs => exact ih (ppStep_unit hf0 hi hs) h

/-- The record functions of a compilation unit: one for each identifier. -/
theorem recFns_spec (text : Stmt → List Byte) (ss : List Stmt) (u : List Byte) (hu : ∀ s ∈ ss, s.unit = u) :
    ∃ qs : List Stmt, recFns text ss u = qs.map text ∧ (qs.map Stmt.id).Nodup ∧ (∀ q ∈ qs, q ∈ ss) ∧
      ∀ s ∈ ss, ∃ q ∈ qs, q.id = s.id := by
  obtain ⟨h1, h2, h3, -⟩ := mapFile_spec ss [] (by simp [KeysNodup]) (by simp)
  have hp := sortedItems_perm (mapFile ss)
  have hmem : ∀ p, p ∈ sortedItems (mapFile ss) ↔ p ∈ mapFile ss := fun p => hp.mem_iff
  have hkey : ∀ p ∈ mapFile ss, p.1 = p.2.id ∧ p.2 ∈ ss := fun p hpm => by
    obtain ⟨a, b⟩ := h2 p hpm
    exact ⟨a, b.resolve_left (by simp)⟩
  have hfil : (sortedItems (mapFile ss)).filter (fun p => decide (p.2.unit = u)) = sortedItems (mapFile ss) := by
    rw [List.filter_eq_self]
    intro p hpm
    simpa using hu _ (hkey p ((hmem p).1 hpm)).2
  refine ⟨(sortedItems (mapFile ss)).map Prod.snd, ?_, ?_, ?_, ?_⟩
  · rw [recFns, hfil]
    simp
  · have e : ((sortedItems (mapFile ss)).map Prod.snd).map Stmt.id = (sortedItems (mapFile ss)).map Prod.fst := by
      rw [List.map_map]
      exact List.map_congr_left fun p hpm => ((hkey p ((hmem p).1 hpm)).1).symm
    rw [e]
    exact (hp.map Prod.fst).nodup_iff.2 h1
  · intro q hq
    obtain ⟨p, hpm, rfl⟩ := List.mem_map.1 hq
    exact (hkey p ((hmem p).1 hpm)).2
  · intro s hs
    obtain ⟨p, hpm, e⟩ := List.mem_map.1 (h3 s hs)
    exact ⟨p.2, List.mem_map.2 ⟨p, (hmem p).2 hpm, rfl⟩, by rw [← (hkey p hpm).1, e]⟩

/-- C51 (partial).  Whenever the preprocessor produces an output for a text that starts with a line marker:
apart from the injected record functions, the output is the input with the statements found replaced one
by one.  The name of the log function, which stands in the file and line handed to the generator, becomes
`{` and the name of the record function, a `}` follows the semicolon, and everything else, including the
source location of each character, stays as it was.  The record functions, one for each identifier, are
injected behind a line with the injection marker, before all statements found: the text before them is the
beginning of the input, unless the marker occurs more than once.  Missing: statements with a line marker inside their
arguments, for which the claim is false (`C51_marker_inside_false`). -/
theorem C51_rewrite_partial (text : Stmt → List Byte) (bound : Nat) (name input out : List Byte)
    (stmts : List (Stmt × List (List Byte))) (hn : (10 : Byte) ∉ name)
    (h : processFile text bound name input = some (out, stmts))
    {l0 f0 : List Byte} {ls : List (List Byte)} {n0 : Nat} (hfirst : readLines input = l0 :: ls)
    (hd : IsMarker l0 n0 f0) (hf0 : f0 ≠ [])
    (hm : ∀ p ∈ stmts, ∀ a ∈ p.2, ∀ u v, a ≠ u ++ 10 :: ch '#' :: v) :
    ∃ pre code post, out = pre ++ (code ++ post) ∧
      Edits (placed name input) (placed name (pre ++ post)) stmts ∧
      (stmts = [] → code = []) ∧
      (stmts ≠ [] → (∃ u l, pre = u ++ l ∧ hasSub injMarker l = true) ∧
        (∃ u l r, pre = u ++ l ++ r ∧ u ++ l <+: input ∧ hasSub injMarker l = true ∧
          (r = [] ∨ ∃ r1 l', r = r1 ++ l' ∧ hasSub injMarker l' = true)) ∧
        ∃ qs : List Stmt, code = injCode (qs.map text) ∧ (qs.map Stmt.id).Nodup ∧
          (∀ q ∈ qs, ∃ p ∈ stmts, p.1 = q) ∧ ∀ p ∈ stmts, ∃ q ∈ qs, q.id = p.1.id) := by
  unfold processFile at h
  split at h
  · simp at h
  next st hloop =>
    obtain ⟨o, ho, e⟩ := Option.map_eq_some_iff.1 h
    obtain ⟨rfl, rfl⟩ := Prod.mk.inj e
    have I := ppLoop_inv bound (ppInv_init name input hn) hloop
    have F := ppLoop_first (input := input) bound (st := .init name) ⟨fun _ => ⟨rfl, (readLines_ok input).2.2⟩,
      fun m hm => by simp [PPState.init] at hm⟩ hloop
    have E := I.edits hm
    rw [List.flatten_nil, List.append_nil] at E
    -- the first line
    have hdir : dirOf l0 = some (n0, f0) := by
      have hok := (readLines_ok input).1
      rw [hfirst] at hok
      rcases hok with ⟨⟨y, hy, e⟩, -⟩ | ⟨-, hy⟩
      · rw [e] at hd ⊢
        exact (C51_marker y [10] hy (.inr rfl) n0 f0).2 hd
      · have := C51_marker l0 [] hy (.inl rfl) n0 f0
        rw [List.append_nil] at this
        exact this.2 hd
    have hunit : st.first = f0 ∧ ∀ p ∈ st.stmts, p.1.unit = f0 := by
      cases bound with
      | zero => simp [ppLoop] at hloop
      | succ k =>
        rw [hfirst, ppLoop, ppStep, hdir] at hloop
        exact ppLoop_unit hf0 k ⟨by simp [PPState.init], by simp [PPState.init]⟩ hloop
    obtain ⟨qs, q1, q2, q3, q4⟩ := recFns_spec text (st.stmts.map Prod.fst) st.first (by
      intro s hs
      obtain ⟨p, hp, rfl⟩ := List.mem_map.1 hs
      rw [hunit.1]
      exact hunit.2 p hp)
    unfold ppFinish at ho
    simp only at ho
    split at ho
    next hfns =>
      obtain rfl : st.done = o := by simpa using ho
      have hnil : st.stmts = [] := by
        cases hc : st.stmts with
        | nil => rfl
        | cons p ps =>
          obtain ⟨q, hq, -⟩ := q4 p.1 (by rw [hc]; simp)
          rw [q1, List.map_eq_nil_iff] at hfns
          rw [hfns] at hq
          simp at hq
      refine ⟨st.done.flatten, [], [], by simp, by simpa using E, fun _ => rfl, fun hc => absurd hnil hc⟩
    next hfns =>
      split at ho
      · simp at ho
      · simp at ho
      next m hne hinj =>
        obtain rfl := Option.some.inj ho
        obtain ⟨a, l, b, e1, e2, e3⟩ := I.inj _ hinj
        have ht : st.done.take (m + 1) = a ++ [l] := by rw [e1, ← e2]; rw [List.take_append, List.take_of_length_le (by omega)]; simp
        have hdr : st.done.drop (m + 1) = b := by rw [e1, ← e2]; simp
        refine ⟨(a ++ [l]).flatten, injCode (qs.map text), b.flatten, ?_, ?_, ?_, ?_⟩
        · rw [ht, hdr, q1]
          simp
        · have : (a ++ [l]).flatten ++ b.flatten = st.done.flatten := by rw [e1]; simp
          rw [this]
          exact E
        · intro hc
          exfalso
          apply hfns
          rw [q1]
          have : qs = [] := by
            cases hq : qs with
            | nil => rfl
            | cons q qs' =>
              have := q3 q (by rw [hq]; simp)
              rw [hc] at this
              simp at this
          rw [this]
          rfl
        · intro _
          refine ⟨⟨a.flatten, l, by simp, e3⟩, ?_, qs, rfl, q2, ?_, ?_⟩
          · obtain ⟨a', l', b', k1, k2, -, k4, k5⟩ := F.after m hinj
            rw [e1] at k1
            rw [List.flatten_append, List.flatten_cons, List.flatten_nil, List.append_nil] at k5
            rcases Nat.eq_or_lt_of_le (show a'.length ≤ a.length by omega) with hlen | hlen
            · obtain ⟨rfl, hc⟩ := List.append_inj k1 hlen.symm
              obtain ⟨rfl, -⟩ := List.cons.inj hc
              exact ⟨a.flatten, l, [], by simp, k5, e3, .inl rfl⟩
            · rw [show a' ++ l' :: b' = (a' ++ [l']) ++ b' by simp] at k1
              obtain ⟨c, hc⟩ : ∃ c, a = (a' ++ [l']) ++ c := by
                have hp : a' ++ [l'] <+: a := List.prefix_of_prefix_length_le ⟨b', k1.symm⟩ ⟨l :: b, rfl⟩ (by simp; omega)
                exact ⟨_, hp.choose_spec.symm⟩
              exact ⟨a'.flatten, l', c.flatten ++ l, by rw [hc]; simp, k5, k4, .inr ⟨_, _, rfl, e3⟩⟩
          · intro q hq
            obtain ⟨p, hp, e⟩ := List.mem_map.1 (q3 q hq)
            exact ⟨p, hp, e⟩
          · intro p hp
            exact q4 p.1 (List.mem_map.2 ⟨p, hp, rfl⟩)

/-- C51 (partial).  In each line the preprocessor comes to, it finds the first occurrence of the identifier
`NANO_LOG` outside of string literals that is followed by an opening parenthesis, and if there is none, it finds
nothing.  Missing: lines that are no sequence of tokens, because they have a quote in a character constant
(`C51_char_constant_false`), identifiers with an `N` before `NANO_LOG` (`C51_longer_name_false`) and the end of the
text (`C51_end_false`). -/
theorem C51_detect_partial (name input : List Byte) (hn : (10 : Byte) ∉ name) (st : PPState) (line : List Byte)
    (ls : List (List Byte)) (hr : PPReach name input st (line :: ls)) (toks : List CTok) (hw : ∀ t ∈ toks, t.WF)
    (hl : line = ctext toks) (hNN : ∀ a b, line ≠ a ++ (asc "NNANO_LOG" ++ b))
    (hmore : ∃ c ∈ ls.flatten, pySpace c = false) :
    (∃ j, scanLine (line :: ls) line 0 false false st.last = .found j ∧ CallAt (line :: ls) 10 toks 0 j ∧
      ∀ k < j, ¬ CallAt (line :: ls) 10 toks 0 k) ∨
    (∃ last, scanLine (line :: ls) line 0 false false st.last = .done last ∧
      ∀ k, ¬ CallAt (line :: ls) 10 toks 0 k) := by
  have hlast := (hr.last hn).resolve_left (by simp)
  have hne : ls ≠ [] := by
    rintro rfl
    simp at hmore
  have h10 := linesOK_head (hr.inv hn).ok hne
  have key := scanLine_first line ls hmore toks hw 0 10 st.last (fun _ => by rw [hlast]; rfl) (by
    intro a b e
    cases a with
    | nil => exact absurd (List.cons.inj e).1 (by decide)
    | cons c a => exact hNN a b (by rw [hl]; exact (List.cons.inj e).2)) (.inr (by rw [← hl]; exact h10))
  rw [← hl] at key
  exact key

/-! ## A concrete file -/

def exPPHead : List Byte :=
  asc "# 1 \"a.cc\"\n# 9 \"N.h\" 1\nstatic const int __internal_dummy_variable_marker_for_code_injection = 0;\n"

/-- Two statements, one of which spans two lines. -/
def exPPIn : List Byte :=
  exPPHead ++ asc "# 3 \"a.cc\" 2\nint f() {\n a(); NANO_LOG(DEBUG, \"x%d\",\n  g(1, 2)) ; b(); NANO_LOG (INFO, \"y\"); }\n}\n"

def exPPText (s : Stmt) : List Byte := asc "inline void f" ++ s.id ++ asc "() {}\n"

def exPPStmts : List (Stmt × List (List Byte)) :=
  [(⟨asc "DEBUG", asc "x%d", asc "a.cc", asc "a.cc", 4⟩, [asc "DEBUG", asc " \"x%d\"", asc "\n  g(1, 2)"]),
   (⟨asc "INFO", asc "y", asc "a.cc", asc "a.cc", 5⟩, [asc "INFO", asc " \"y\""])]

def exPPOut : List Byte :=
  exPPHead ++ asc "\r\n\r\n# 1 \"generatedCode.h\" 3\r\ninline void f__x37d__a46cc__4__() {}\n\r\ninline void f__y__a46cc__5__() {}\n" ++
  asc "# 3 \"a.cc\" 2\nint f() {\n a(); \r\n# 4 \"injectedCode.fake\"\r\n{ __syang0__fl__x37d__a46cc__4__\r\n# 4 \"a.cc\"\r\n              (DEBUG, \"x%d\",\n  g(1, 2)) ;\r\n}\r\n# 5 \"a.cc\"\r\n             b(); \r\n# 5 \"injectedCode.fake\"\r\n{ __syang0__fl__y__a46cc__5__\r\n# 5 \"a.cc\"\r\n                           (INFO, \"y\");\r\n}\r\n# 5 \"a.cc\"\r\n                                        }\n}\n"

theorem exPP_run : processFile exPPText 20 (asc "a.ii") exPPIn = some (exPPOut, exPPStmts) := by
  decide +kernel

/-- The hypotheses of `C51_rewrite_partial` are met by this file, in which two statements are replaced. -/
example : (10 : Byte) ∉ asc "a.ii" ∧ processFile exPPText 20 (asc "a.ii") exPPIn = some (exPPOut, exPPStmts) ∧
    (∃ ls, readLines exPPIn = asc "# 1 \"a.cc\"\n" :: ls) ∧ IsMarker (asc "# 1 \"a.cc\"\n") 1 (asc "a.cc") ∧
    ∀ p ∈ exPPStmts, ∀ a ∈ p.2, ∀ u v, a ≠ u ++ 10 :: ch '#' :: v := by
  refine ⟨by decide, exPP_run, ?_, ⟨asc "1", [10], by decide, by decide, by decide, by decide, by decide⟩, ?_⟩
  · have e : exPPIn = asc "# 1 \"a.cc\"" ++ 10 :: exPPIn.drop 11 := by decide +kernel
    rw [e, readLines_cons (by decide)]
    exact ⟨_, rfl⟩
  · intro p hp a ha
    have : ∀ p ∈ exPPStmts, ∀ a ∈ p.2, ch '#' ∉ a := by decide +kernel
    exact noHash_of_not_mem (this p hp a ha)

/-- The hypotheses of `C51_detect_partial` are met: the call behind a string literal and a longer identifier is
found. -/
example : ∃ (toks : List CTok) (line : List Byte) (ls : List (List Byte)),
    PPReach (asc "a.ii") (asc "MNANO_LOG(\"NANO_LOG(\"); NANO_LOG\n (D, \"x\");\n") (.init (asc "a.ii"))
      (line :: ls) ∧ (∀ t ∈ toks, t.WF) ∧ line = ctext toks ∧
    (∀ a b, line ≠ a ++ (asc "NNANO_LOG" ++ b)) ∧ (∃ c ∈ ls.flatten, pySpace c = false) ∧
    scanLine (line :: ls) line 0 false false 0 = .found 24 := by
  refine ⟨(asc "MNANO_LOG(").map .chr ++ .str ((asc "NANO_LOG(").map .plain) :: (asc "); NANO_LOG\n").map .chr,
    asc "MNANO_LOG(\"NANO_LOG(\"); NANO_LOG\n", [asc " (D, \"x\");\n"], ?_, ?_, by decide, ?_, by decide, by decide⟩
  · have e : readLines (asc "MNANO_LOG(\"NANO_LOG(\"); NANO_LOG\n (D, \"x\");\n") =
        [asc "MNANO_LOG(\"NANO_LOG(\"); NANO_LOG\n", asc " (D, \"x\");\n"] := by decide +kernel
    rw [← e]
    exact .start
  · intro t ht
    simp only [List.mem_append, List.mem_cons] at ht
    rcases ht with ht | rfl | ht
    · obtain ⟨b, hb, rfl⟩ := List.mem_map.1 ht
      exact (by decide : ∀ b ∈ asc "MNANO_LOG(", b ≠ ch '"' ∧ b ≠ ch '\\') b hb
    · intro i hi
      obtain ⟨b, hb, rfl⟩ := List.mem_map.1 hi
      exact (by decide : ∀ b ∈ asc "NANO_LOG(", b ≠ ch '"' ∧ b ≠ ch '\\') b hb
    · obtain ⟨b, hb, rfl⟩ := List.mem_map.1 ht
      exact (by decide : ∀ b ∈ asc "); NANO_LOG\n", b ≠ ch '"' ∧ b ≠ ch '\\') b hb
  · intro a b e
    have h : ((asc "MNANO_LOG(\"NANO_LOG(\"); NANO_LOG\n").drop a.length).take 9 = asc "NNANO_LOG" := by
      rw [e]
      simp [asc]
    have hlt : a.length < 34 := by
      have := congrArg List.length e
      simp [asc] at this
      omega
    exact (by decide : ∀ n < 34, ((asc "MNANO_LOG(\"NANO_LOG(\"); NANO_LOG\n").drop n).take 9 ≠ asc "NNANO_LOG")
      a.length hlt h

/-! ## Where the claim fails -/

/-- A statement with a line marker inside its arguments, and code behind it in line 50. -/
def exPPMark : List Byte :=
  exPPHead ++ asc "# 3 \"a.cc\" 2\nNANO_LOG(A, \"x\",\n# 50 \"a.cc\"\n1); b;\n"

/-- C51 is false if a line marker stands inside a statement (the GNU preprocessor writes one when many empty
lines or comments are left out): the code behind the statement gets wrong line numbers, here 5 instead of 50. -/
theorem C51_marker_inside_false : ∃ out stmts,
    processFile exPPText 20 (asc "a.ii") exPPMark = some (out, stmts) ∧
    (placed (asc "a.ii") exPPMark).getLast? = some ⟨asc "a.cc", 50, 5, ch ';'⟩ ∧
    (placed (asc "a.ii") out).getLast? = some ⟨asc "a.cc", 5, 5, ch ';'⟩ := by
  have h : ((processFile exPPText 20 (asc "a.ii") exPPMark).map fun p =>
      ((placed (asc "a.ii") exPPMark).getLast?, (placed (asc "a.ii") p.1).getLast?)) =
      some (some ⟨asc "a.cc", 50, 5, ch ';'⟩, some ⟨asc "a.cc", 5, 5, ch ';'⟩) := by
    decide +kernel
  obtain ⟨p, hp, e⟩ := Option.map_eq_some_iff.1 h
  obtain ⟨e1, e2⟩ := Prod.mk.inj e
  exact ⟨p.1, p.2, hp, e1, e2⟩

/-- C51 is false for identifiers with an `N` before `NANO_LOG`: the preprocessor takes the call of another function
for a log statement. -/
theorem C51_longer_name_false : scanLine [asc "NNANO_LOG(A, 1);\n"] (asc "NNANO_LOG(A, 1);\n") 0 false false 10 =
      .found 1 ∧
    ∀ k, ¬ CallAt [asc "NNANO_LOG(A, 1);\n"] 10 ((asc "NNANO_LOG(A, 1);\n").map .chr) 0 k := by
  refine ⟨by decide, ?_⟩
  rintro k ⟨p, q, r, e1, -, e3, e4, -⟩
  have et : ctext ((asc "NNANO_LOG(A, 1);\n").map CTok.chr) = asc "NNANO_LOG(A, 1);\n" := by decide
  have e : asc "NNANO_LOG(A, 1);\n" = ctext p ++ (asc "NANO_LOG" ++ r) := by
    rw [← et, e1, ctext_append, e3]
  have h : ((asc "NNANO_LOG(A, 1);\n").drop (ctext p).length).take 8 = asc "NANO_LOG" := by
    rw [e]
    simp [asc]
  have hlt : (ctext p).length < 17 := by
    have := congrArg List.length e
    simp [asc] at this
    omega
  have h1 : (ctext p).length = 1 :=
    (by decide : ∀ n < 17, ((asc "NNANO_LOG(A, 1);\n").drop n).take 8 = asc "NANO_LOG" → n = 1) _ hlt h
  have h2 : ctext p = [ch 'N'] := by
    have := congrArg (List.take 1) e
    rw [List.take_append_of_le_length (by omega), List.take_of_length_le (l := ctext p) (by omega)] at this
    exact this.symm
  rw [h2] at e4
  exact absurd e4 (by decide)

/-- C51 is false for lines with a quote in a character constant: the log statement is not found. -/
theorem C51_char_constant_false :
    scanLine [asc "c = '\"'; NANO_LOG(A, \"x\"); d = '\"';\n"] (asc "c = '\"'; NANO_LOG(A, \"x\"); d = '\"';\n")
      0 false false 10 = .done 10 := by
  decide

/-- C51 is false at the end of the text: when only white space follows the name, the preprocessor stops with an
exception. -/
theorem C51_end_false (text : Stmt → List Byte) (bound : Nat) (name : List Byte) :
    processFile text bound name (asc "int NANO_LOG\n") = none := by
  have e : readLines (asc "int NANO_LOG\n") = [asc "int NANO_LOG\n"] := by decide
  have hs : ppStep (.init name) (asc "int NANO_LOG\n") [] = none := by
    have h1 : dirOf (asc "int NANO_LOG\n") = none := by decide
    have h2 : hasSub injMarker (asc "int NANO_LOG\n") = false := by decide
    have h3 : hasSub nanoLog (asc "int NANO_LOG\n") = true := by decide
    have h4 : scanLine [asc "int NANO_LOG\n"] (asc "int NANO_LOG\n") 0 false false 0 = .error := by decide
    unfold ppStep
    rw [h1]
    simp only
    rw [if_neg (by rw [h2]; simp), if_neg (by rw [h3]; simp)]
    simp only [PPState.init, h4]
  unfold processFile
  rw [e]
  cases bound with
  | zero => rfl
  | succ k => rw [ppLoop, hs]

end NanoLog
