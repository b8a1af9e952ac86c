import Verif.Tool
import Verif.Props.Ordered
import Verif.Props.Rcdf
import Mathlib.Data.Nat.Digits.Defs

/-!
# C61: the program `decompressor`
-/

namespace NanoLog

/-! ## Counting the messages -/

/-- Whoever has a message at hand has not met the end of the file or an error. -/
def Dec.Fed (s : Dec) : Prop := s.bf.hasMore = true → s.file.eof = false ∧ s.good = true

theorem read_eof {n : Nat} {f : FileSt} (h : (f.read n).1.length = n) (he : f.eof = false) :
    (f.read n).2.eof = false := by
  unfold FileSt.read at h ⊢
  split
  · exact he
  · rename_i hn
    rw [if_neg hn] at h
    simp only at h
    omega

theorem extent_eof {bf bf' : BufFrag} {f f' : FileSt} {np : Bool} (he : f.eof = false)
    (h : readBufferExtent bf f = some (true, np, bf', f')) : f'.eof = false := by
  unfold readBufferExtent at h
  have h5 := read_eof (n := 5) (f := f)
  have hle := read_length_le 5 f
  generalize f.read 5 = r at h h5 hle
  obtain ⟨hdr, f1⟩ := r
  simp only at h h5 hle
  split at h
  · rename_i b lenB
    split at h
    · cases h
    · rename_i hok
      split at h
      · cases h
      · simp only [not_or, not_lt] at hok
        have e1 : f1.eof = false := h5 (Nat.le_antisymm hle hok.2.1) he
        have h6 := read_eof (n := unle lenB - 5) (f := f1)
        generalize f1.read (unle lenB - 5) = r2 at h h6
        obtain ⟨body, f2⟩ := r2
        simp only at h h6
        split at h
        · cases h
        · rename_i hb
          split at h
          · cases h
          · cases h
            exact h6 (not_not.1 hb) e1
  · cases h

/-- The reading loop. -/
theorem iterLoop_fed (n : Nat) (s s1 : Dec) (r : Bool) (hs : s.Fed) (h : iterLoop n s = some (r, s1)) :
    s1.out = s.out ∧ (r = true → s1.Fed) ∧ (r = false → s1.good = false) := by
  induction n generalizing s with
  | zero => cases h; exact ⟨rfl, fun _ => hs, by simp⟩
  | succ n ih =>
    simp only [iterLoop] at h
    split at h
    · rename_i hc
      have hno : s.bf.hasMore = true → False := fun hm => by simp [hm] at hc
      have hpe : (s.file.peek).1 ≠ .invalid → (s.file.peek).2 = s.file := fun hx => (peek_cases _ hx).2
      generalize s.file.peek = p at h hpe
      obtain ⟨e, f⟩ := p
      simp only at h hpe
      cases e with
      | extent =>
        have hf := hpe (by simp)
        simp only at h
        split at h
        · cases h
        · cases h
          exact ⟨rfl, by simp, fun _ => rfl⟩
        · rename_i np bf f1 hx
          have hi := fun hf => ih _ hf h
          exact hi fun _ => ⟨extent_eof (by rw [hf]; exact hc.2.1) hx, hc.2.2⟩
      | checkpoint =>
        simp only at h
        split at h
        · cases h
        · have hi := fun hf => ih _ hf h
          exact hi fun hm => (hno hm).elim
        · cases h
          exact ⟨rfl, by simp, fun _ => rfl⟩
      | dict =>
        simp only at h
        split at h
        · cases h
        · have hi := fun hf => ih _ hf h
          exact hi fun hm => (hno hm).elim
      | invalid =>
        simp only at h
        have hi := fun hf => ih _ hf h
        exact hi fun hm => (hno hm).elim
    · cases h; exact ⟨rfl, fun _ => hs, by simp⟩

/-- After a call that returned `true`. -/
theorem next_fed {s s1 : Dec} {m : Option OutMsg} (hs : s.Fed) (h : s.next = some (true, m, s1)) :
    s1.file.eof = false ∧ s1.good = true ∧ s1.out = s.out ++ m.toList := by
  unfold Dec.next at h
  split at h
  · rename_i hm
    split at h
    · cases h
    · cases h; exact ⟨(hs hm).1, (hs hm).2, rfl⟩
  · split at h
    · cases h
    · split at h
      · cases h
      · cases h
      · rename_i s2 hl
        obtain ⟨ho, hf, -⟩ := iterLoop_fed _ _ _ _ hs hl
        split at h
        · cases h
        · rename_i m' bf hd
          simp only [Option.some.injEq, Prod.mk.injEq] at h
          obtain ⟨h1, rfl, rfl⟩ := h
          have := (decompressNext_progress hd).2.2.2 h1
          exact ⟨(hf rfl this).1, (hf rfl this).2, by simp [ho]⟩

/-- A call that returns `false` delivers nothing. -/
theorem next_false_out {s s1 : Dec} {m : Option OutMsg} (hs : s.Fed) (h : s.next = some (false, m, s1)) :
    s1.out = s.out := by
  unfold Dec.next at h
  split at h
  · split at h
    · cases h
    · cases h
  · split at h
    · cases h; rfl
    · split at h
      · cases h
      · rename_i s2 hl
        cases h
        exact (iterLoop_fed _ _ _ _ hs hl).1
      · rename_i s2 hl
        split at h
        · cases h
        · rename_i m' bf hd
          simp only [Option.some.injEq, Prod.mk.injEq, Option.isSome_eq_false_iff, Option.isNone_iff_eq_none] at h
          obtain ⟨h1, rfl, rfl⟩ := h
          rw [h1]
          simpa using (iterLoop_fed _ _ _ _ hs hl).1

/-- A call that returns `false` in a state from which there was something to read changes the state. -/
theorem next_false {s : Dec} {m : Option OutMsg} (he : s.file.eof = false) (hg : s.good = true) :
    s.next ≠ some (false, m, s) := by
  intro h
  unfold Dec.next at h
  split at h
  · split at h
    · cases h
    · cases h
  · rename_i hm
    split at h
    · rename_i hc
      simp [he, hg] at hc
    · split at h
      · cases h
      · rename_i s1 hl
        simp only [Option.some.injEq, Prod.mk.injEq, true_and] at h
        have := (iterLoop_fed _ _ _ _ (fun _ => ⟨he, hg⟩) hl).2.2 rfl
        rw [h.2, hg] at this
        cases this
      · rename_i s1 hl
        have hend := (C29_next_terminates_partial s 0).2 s1 hl
        have hpr := iterLoop_progress _ hl
        split at h
        · cases h
        · rename_i m' bf hd
          simp only [Option.some.injEq, Prod.mk.injEq] at h
          have e1 : s1.file = s.file := by rw [← h.2.2]
          have e2 : s1.good = s.good := by rw [← h.2.2]
          rw [e1, e2, he, hg] at hend
          simp only [and_true, Bool.not_eq_false] at hend
          rcases hpr.2 with ⟨-, hb⟩ | ⟨hlt, -⟩
          · rw [hb] at hend; exact hm hend
          · rw [e1] at hlt; omega

/-- `n` calls return `true`. -/
inductive Steps : Nat → Dec → Dec → Prop where
  | zero (s : Dec) : Steps 0 s s
  | succ {n : Nat} {s s1 s2 : Dec} {m : Option OutMsg} (h : s.next = some (true, m, s1)) (t : Steps n s1 s2) :
      Steps (n + 1) s s2

theorem Steps.iterate {n : Nat} {s s2 : Dec} (h : Steps n s s2) (k : Nat) : s.iterate (n + k) = s2.iterate k := by
  induction h with
  | zero => simp
  | succ hn t ih => rw [Nat.add_right_comm, Dec.iterate, hn]; exact ih

theorem Steps.count {n : Nat} {s s2 : Dec} (h : Steps n s s2) (c k : Nat) :
    Dec.countLoop (n + k) c s = Dec.countLoop k (c + n) s2 := by
  induction h generalizing c with
  | zero => simp
  | @succ n s s1 s2 m hn t ih =>
    rw [Nat.add_right_comm, Dec.countLoop, hn]
    simp only
    rw [ih, show c + 1 + n = c + (n + 1) by omega]

theorem Steps.out {n : Nat} {s s2 : Dec} (h : Steps n s s2) (hs : s.Fed) :
    s2.out.length ≤ s.out.length + n ∧ s2.Fed ∧ (0 < n → s2.file.eof = false ∧ s2.good = true) ∧
    s2.bound + n ≤ s.bound := by
  induction h with
  | zero => exact ⟨by simp, hs, by simp, by simp⟩
  | @succ n s s1 s2 m hn t ih =>
    obtain ⟨h1, h2, h3⟩ := next_fed hs hn
    obtain ⟨a, b, c, d⟩ := ih (fun _ => ⟨h1, h2⟩)
    have hb := next_progress hn
    have hl : m.toList.length ≤ 1 := by cases m <;> simp
    refine ⟨by rw [h3, List.length_append] at a; omega, b, fun _ => ?_, by omega⟩
    cases t with
    | zero => exact ⟨h1, h2⟩
    | succ _ _ => exact c (by omega)

/-- Every iteration ends: with `false`, or with an abort or undefined behaviour. -/
theorem steps_end (s : Dec) : ∃ n s1, Steps n s s1 ∧ (s1.next = none ∨ ∃ m s2, s1.next = some (false, m, s2)) := by
  induction hb : s.bound using Nat.strongRecOn generalizing s with
  | ind b ih =>
    cases hn : s.next with
    | none => exact ⟨0, s, .zero s, .inl hn⟩
    | some p =>
      obtain ⟨r, m, s1⟩ := p
      cases r with
      | false => exact ⟨0, s, .zero s, .inr ⟨m, s1, hn⟩⟩
      | true =>
        obtain ⟨n, s2, t, h⟩ := ih s1.bound (by have := next_progress hn; omega) s1 rfl
        exact ⟨n + 1, s2, .succ hn t, h⟩

/-- If the iteration delivers `n` messages and then no call changes the state any more, then exactly `n` calls
returned `true`. -/
theorem count_of_iterate {s s2 : Dec} {n : Nat} (hs : s.Fed) (h0 : s.out = []) (hn : s2.out.length = n)
    (h : ∀ k, n < k → s.iterate k = some s2) (k : Nat) (hk : n < k) : Dec.countLoop k 0 s = some (n, s2) := by
  obtain ⟨T, s1, t, hend⟩ := steps_end s
  obtain ⟨o1, o2, o3, -⟩ := t.out hs
  have hcall : ∃ m, s1.next = some (false, m, s2) := by
    have hx := h (T + (n + 1)) (by omega)
    rw [t.iterate, Dec.iterate] at hx
    rcases hend with h1 | ⟨m, s3, h1⟩
    · rw [h1] at hx; cases hx
    · rw [h1] at hx; cases hx; exact ⟨m, h1⟩
  obtain ⟨m, hcall⟩ := hcall
  have ho := next_false_out o2 hcall
  rw [h0, ← ho, hn] at o1
  have hT : T = n := by
    by_contra hne
    have hlt : n < T := by
      have : n ≤ T := by simpa using o1
      omega
    have hx := h T hlt
    have hy := t.iterate 0
    rw [Nat.add_zero, hx, Dec.iterate, Option.some.injEq] at hy
    subst hy
    obtain ⟨he, hg⟩ := o3 (by omega)
    exact next_false he hg hcall
  subst hT
  obtain ⟨j, rfl⟩ : ∃ j, k = T + (j + 1) := ⟨k - T - 1, by omega⟩
  rw [t.count, Dec.countLoop, hcall]
  simp

/-- The bound of the model on the number of calls is never what ends the loop. -/
theorem calls_bound (s : Dec) : s.bound < s.calls := by
  unfold Dec.bound Dec.calls BufFrag.room
  have h := measure_le s.file
  have := Nat.mul_le_mul_right (max s.bf.stor.length 5 + 2) h
  split <;> omega

theorem countLoop_calls (s : Dec) (hs : s.Fed) (c k : Nat) :
    Dec.countLoop (s.calls + k) c s = Dec.countLoop s.calls c s := by
  obtain ⟨T, s1, t, hend⟩ := steps_end s
  have h1 := (t.out hs).2.2.2
  have h2 := calls_bound s
  obtain ⟨j, hj⟩ : ∃ j, s.calls = T + (j + 1) := ⟨s.calls - T - 1, by omega⟩
  rw [hj, t.count, Nat.add_assoc, t.count, show j + 1 + k = j + k + 1 by omega]
  simp only [Dec.countLoop]
  rcases hend with h | ⟨m, s2, h⟩ <;> rw [h]

/-! ## Printing the messages -/

theorem openFile_fresh {cap : Nat} {bytes : List Byte} {ok : Bool} {s : Dec}
    (h : (Dec.new cap).openFile bytes = some (ok, s)) : s.out = [] ∧ s.Fed := by
  unfold Dec.openFile at h
  split at h
  · cases h
  · cases h
    exact ⟨rfl, by intro h; simp [Dec.new, BufFrag.init] at h⟩
  · cases h
    exact ⟨rfl, by intro h; simp [Dec.new, BufFrag.init] at h⟩

/-- Name of the command and the arguments that follow the name of the file. -/
def unorderedArgs (name : List Byte) (more : List (List Byte)) : List (List Byte) :=
  bytesOf "decompressUnordered" :: name :: more

/-- The same for the other command. -/
def orderedArgs (name : List Byte) (more : List (List Byte)) : List (List Byte) := bytesOf "decompress" :: name :: more

theorem parse_unordered (pre : Bool) (name : List Byte) (more : List (List Byte)) :
    parseCmd pre (unorderedArgs name more) = .unordered := by
  simp only [parseCmd, unorderedArgs]
  rw [if_neg (by decide), if_pos trivial]

theorem parse_ordered (pre : Bool) (name : List Byte) (more : List (List Byte)) :
    parseCmd pre (orderedArgs name more) = .decompress := by
  simp only [parseCmd, orderedArgs]
  rw [if_pos trivial]

theorem tool_unordered_of {cap : Nat} {bytes : List Byte} {s s2 : Dec} {out : List OutMsg}
    (h1 : (Dec.new cap).openFile bytes = some (true, s)) (h2 : ∀ k, out.length < k → s.iterate k = some s2)
    (h3 : s2.out = out) (pre : Bool) (pick : Nat → List BufFrag → Nat) (name : List Byte) (more : List (List Byte)) :
    tool pre cap pick (unorderedArgs name more) (some bytes) = some ⟨0, out, some out.length⟩ := by
  obtain ⟨h4, h5⟩ := openFile_fresh h1
  have h6 := count_of_iterate h5 h4 (by rw [h3]) h2 (s.calls + (out.length + 1)) (by omega)
  rw [countLoop_calls s h5] at h6
  unfold tool
  rw [parse_unordered]
  simp only [Option.map_some, h1, toolUnordered, h6, h3]

/-- **C61** `decompressUnordered`: all messages of the log are printed, in the order of the file, the number in the
last line is the number of messages, and the exit status is 0.  For any number of appended executions. -/
theorem C61_unordered {cfg : Config} {file : List Byte} {ms : List OutMsg} (h : Appended cfg file ms) (hne : file ≠ [])
    (pre : Bool) (pick : Nat → List BufFrag → Nat) (name : List Byte) (more : List (List Byte)) :
    tool pre (cfg.staging + 9) pick (unorderedArgs name more) (some file) = some ⟨0, ms, some ms.length⟩ := by
  obtain ⟨s, s1, s2, h1, -, -, h4, h5⟩ := C27_appended_many_partial h hne (BufFrag.init (cfg.staging + 9)) (by simp [BufFrag.init])
  exact tool_unordered_of h1 h4 h5 pre pick name more

/-- **C61** `decompress`, for files with one execution: every message exactly once. -/
theorem C61_ordered_partial {cfg c all ops st ns ms} (h : FileRun cfg c all ops st ns ms)
    (hno : ∀ op ∈ ops.tail, ∀ jk c all, op ≠ .start jk c all)
    {pick : Nat → List BufFrag → Nat} (hp : Picks pick) (pre : Bool) (name : List Byte) (more : List (List Byte)) :
    ∃ out, tool pre (cfg.staging + 9) pick (orderedArgs name more) (some st.contents) =
      some ⟨0, out, some ms.length⟩ ∧ out.Perm ms := by
  obtain ⟨s, s', F, h1, h2, -, -, -, -, h3⟩ := C25_ordered_partial h hno hp (pool := []) (by simp) (Dec.new (cfg.staging + 9))
  refine ⟨s'.out, ?_, h3⟩
  unfold tool
  rw [parse_ordered]
  simp only [Option.map_some, h1, toolOrdered, h2, h3.length_eq]

/-- For a file to which a second execution was appended, `decompress` can print other messages than were logged
(C25, C27), again with status 0. -/
theorem C61_ordered_false : ∃ cfg c1 all1 ops1 st1 ns1 ms1 c2 all2 ops2 st2 ns2 pick,
    FileRun cfg c1 all1 ops1 st1 ns1 ms1 ∧ FileRun cfg c2 all2 ops2 st2 ns2 [] ∧ Picks pick ∧
    ∀ pre name more, ∃ out total, tool pre (cfg.staging + 9) pick (orderedArgs name more)
      (some (st1.contents ++ st2.contents)) = some ⟨0, out, total⟩ ∧ ¬ out.Perm ms1 := by
  obtain ⟨cfg, c1, all1, ops1, st1, ns1, ms1, c2, all2, ops2, st2, ns2, pick, s, s', h1, h2, h3, h4, h5, -, h6⟩ :=
    C25_appended_false
  refine ⟨cfg, c1, all1, ops1, st1, ns1, ms1, c2, all2, ops2, st2, ns2, pick, h1, h2, h3, fun pre name more =>
    ⟨s'.out, some s'.out.length, ?_, h6⟩⟩
  unfold tool
  rw [parse_ordered]
  simp only [Option.map_some, h4, toolOrdered, h5]

/-- A file that ends early, at any byte behind what the first operations wrote: what is printed is a prefix, and the
number in the last line is the number of messages printed; the exit status is 0. -/
theorem C61_cut {cfg c all ops1 ops2 st1 ns1 ms1 st ns ms}
    (h1 : FileRun cfg c all ops1 st1 ns1 ms1) (h : FileRun cfg c all (ops1 ++ ops2) st ns ms)
    (n : Nat) (hn1 : st1.contents.length ≤ n) (hn : n ≤ st.contents.length)
    (pre : Bool) (pick : Nat → List BufFrag → Nat) (name : List Byte) (more : List (List Byte)) :
    ∃ out, tool pre (cfg.staging + 9) pick (unorderedArgs name more) (some (st.contents.take n)) =
      some ⟨0, out, some out.length⟩ ∧ ms1 <+: out ∧ out <+: ms := by
  obtain ⟨s, g, s1, s2, out, g1, -, -, g4, g5, g6, g7⟩ :=
    C28_cut_loses_tail h1 h n hn1 hn (BufFrag.init (cfg.staging + 9)) (by simp [BufFrag.init])
  exact ⟨out, tool_unordered_of g1 g4 g5 pre pick name more, g6, g7⟩

/-! ## The command line -/

/-- The commands that exist. -/
def isCommand (pre : Bool) (c : List Byte) : Prop :=
  c = bytesOf "decompress" ∨ c = bytesOf "decompressUnordered" ∨ c = bytesOf "rcdfTime" ∨
  (pre = true ∧ (c = bytesOf "minMaxMean" ∨ c = bytesOf "find"))

/-- **C61** usage: with fewer than two arguments, or another command, or without the argument that `minMaxMean` and `find`
need, nothing is read and nothing is printed but the usage; status 1.  In all other cases the usage is not printed. -/
theorem C61_usage (pre : Bool) (args : List (List Byte)) :
    parseCmd pre args = .help ↔
      (args.length < 2 ∨ (∃ c ∈ args.head?, ¬ isCommand pre c) ∨
        (args.length < 3 ∧ ∃ c ∈ args.head?, c = bytesOf "minMaxMean" ∨ c = bytesOf "find")) := by
  have d1 : bytesOf "minMaxMean" ≠ bytesOf "decompress" := by decide
  have d2 : bytesOf "minMaxMean" ≠ bytesOf "decompressUnordered" := by decide
  have d3 : bytesOf "minMaxMean" ≠ bytesOf "rcdfTime" := by decide
  have d4 : bytesOf "find" ≠ bytesOf "decompress" := by decide
  have d5 : bytesOf "find" ≠ bytesOf "decompressUnordered" := by decide
  have d6 : bytesOf "find" ≠ bytesOf "rcdfTime" := by decide
  have d7 : bytesOf "find" ≠ bytesOf "minMaxMean" := by decide
  match args with
  | [] => simp [parseCmd]
  | [c] => simp [parseCmd]
  | c :: name :: rest =>
    simp only [parseCmd, List.length_cons, List.head?_cons, Option.mem_def, Option.some.injEq, exists_eq_left']
    unfold isCommand
    generalize bytesOf "decompress" = a1 at *
    generalize bytesOf "decompressUnordered" = a2 at *
    generalize bytesOf "rcdfTime" = a3 at *
    generalize bytesOf "minMaxMean" = a4 at *
    generalize bytesOf "find" = a5 at *
    by_cases e1 : c = a1
    · subst e1; simp [d1.symm, d4.symm]
    by_cases e2 : c = a2
    · subst e2; simp [e1, d2.symm, d5.symm]
    by_cases e3 : c = a3
    · subst e3; simp [e1, e2, d3.symm, d6.symm]
    cases pre with
    | false => simp [e1, e2, e3]
    | true =>
      simp only [e1, e2, e3, if_false, if_true, false_or, true_and]
      by_cases e4 : c = a4
      · subst e4
        cases rest with
        | nil => simp
        | cons id r =>
          simp only [if_true, true_or, not_true, List.length_cons, false_or]
          constructor
          · intro h
            split at h
            · cases h
            · cases h
            · split at h <;> cases h
          · intro h; omega
      · by_cases e5 : c = a5
        · subst e5
          cases rest with
          | nil => simp [e4]
          | cons id r => simp [e4]
        · simp [e4, e5]

/-- What the usage means for the program: independent of the file. -/
theorem C61_usage_status {pre : Bool} {args : List (List Byte)} (h : parseCmd pre args = .help) (cap : Nat)
    (pick : Nat → List BufFrag → Nat) (file : Option (List Byte)) :
    tool pre cap pick args file = some ⟨1, [], none⟩ := by
  unfold tool; rw [h]

/-- A file that cannot be opened or does not begin with a checkpoint: nothing is printed, status 1, whatever the
command. -/
theorem C61_open (pre : Bool) (cap : Nat) (pick : Nat → List BufFrag → Nat) (args : List (List Byte))
    (hc : parseCmd pre args ≠ .badId) {file : Option (List Byte)}
    (hf : ∀ bytes ∈ file, ∃ s, (Dec.new cap).openFile bytes = some (false, s)) :
    tool pre cap pick args file = some ⟨1, [], none⟩ := by
  unfold tool
  cases file with
  | none => cases h : parseCmd pre args <;> first | rfl | exact absurd h hc
  | some bytes =>
    obtain ⟨s, hs⟩ := hf bytes rfl
    simp only [Option.map_some, hs]
    cases h : parseCmd pre args <;> first | rfl | exact absurd h hc

/-! ## The log id of `minMaxMean` -/

/-- A number in decimal notation, most significant digit first. -/
def decimal (ds : List Nat) : List Byte := ds.map fun d => UInt8.ofNat (48 + d)

/-- Its value. -/
def value (ds : List Nat) : Nat := Nat.ofDigits 10 ds.reverse

theorem digitC_digit {d : Nat} (h : d < 10) : digitC (UInt8.ofNat (48 + d)) = some d := by
  revert h
  have : ∀ d : Fin 10, digitC (UInt8.ofNat (48 + d.val)) = some d.val := by decide
  exact fun h => this ⟨d, h⟩

theorem leadDigits_digits (ds : List Nat) (h : ∀ d ∈ ds, d < 10) (rest : List Byte)
    (hr : ∀ c ∈ rest.head?, digitC c = none) (acc : Nat) (any : Bool) (ha : any = true ∨ ds ≠ []) :
    leadDigits acc any (decimal ds ++ rest) = some (acc * 10 ^ ds.length + value ds) := by
  induction ds generalizing acc any with
  | nil =>
    simp only [decimal, List.map_nil, List.nil_append, value, List.reverse_nil, Nat.ofDigits_nil]
    have hany : any = true := by simpa using ha
    cases rest with
    | nil => simp [leadDigits, hany]
    | cons c cs => simp [leadDigits, hr c rfl, hany]
  | cons d ds ih =>
    have h1 : digitC (UInt8.ofNat (48 + d)) = some d := digitC_digit (h d (by simp))
    have h2 := ih (fun x hx => h x (by simp [hx])) (10 * acc + d) true (.inl rfl)
    simp only [decimal] at h2 ⊢
    rw [List.map_cons, List.cons_append, leadDigits, h1]
    simp only
    rw [h2]
    simp only [value, List.reverse_cons, Nat.ofDigits_append, List.length_reverse, Nat.ofDigits_singleton,
      List.length_cons, Option.some.injEq]
    ring

theorem digit_plain {d : Nat} (h : d < 10) : isSpaceC (UInt8.ofNat (48 + d)) = false ∧ UInt8.ofNat (48 + d) ≠ 45 ∧
    UInt8.ofNat (48 + d) ≠ 43 := by
  have : ∀ d : Fin 10, isSpaceC (UInt8.ofNat (48 + d.val)) = false ∧ UInt8.ofNat (48 + d.val) ≠ 45 ∧
      UInt8.ofNat (48 + d.val) ≠ 43 := by decide
  exact this ⟨d, h⟩

theorem stoi_digits (ds : List Nat) (hne : ds ≠ []) (h : ∀ d ∈ ds, d < 10) (rest : List Byte)
    (hr : ∀ c ∈ rest.head?, digitC c = none) :
    stoi (decimal ds ++ rest) = if value ds < 2 ^ 31 then .ok (value ds) else .range := by
  have h1 := leadDigits_digits ds h rest hr 0 false (.inr hne)
  obtain ⟨d, ds', rfl⟩ := List.exists_cons_of_ne_nil hne
  obtain ⟨p1, p2, p3⟩ := digit_plain (h d (by simp))
  have e : decimal (d :: ds') ++ rest = UInt8.ofNat (48 + d) :: (decimal ds' ++ rest) := rfl
  unfold stoi
  rw [e] at h1 ⊢
  rw [List.dropWhile_cons_of_neg (by rw [p1]; simp)]
  simp only [p2, p3, if_false, h1, Nat.zero_mul, Nat.zero_add, Bool.false_eq_true]
  generalize value (d :: ds') = v
  by_cases hv : v < 2 ^ 31
  · rw [if_pos hv, if_pos (by constructor <;> [omega; exact_mod_cast hv])]
  · rw [if_neg hv, if_neg (by rintro ⟨-, h⟩; exact hv (by exact_mod_cast h))]

theorem stoi_minus (ds : List Nat) (hne : ds ≠ []) (h : ∀ d ∈ ds, d < 10) :
    stoi (45 :: decimal ds) = if value ds ≤ 2 ^ 31 then .ok (-(value ds : Int)) else .range := by
  have h1 := leadDigits_digits ds h [] (by simp) 0 false (.inr hne)
  rw [List.append_nil] at h1
  unfold stoi
  rw [List.dropWhile_cons_of_neg (by decide)]
  simp only [if_true, h1, Nat.zero_mul, Nat.zero_add]
  generalize value ds = v
  by_cases hv : v ≤ 2 ^ 31
  · rw [if_pos hv, if_pos (by constructor <;> omega)]
  · rw [if_neg hv, if_neg (by rintro ⟨h, -⟩; exact hv (by omega))]

/-- The arguments of the command `minMaxMean`. -/
def meanArgs (name id : List Byte) : List (List Byte) := [bytesOf "minMaxMean", name, id]

theorem parse_mean (name id : List Byte) :
    parseCmd true (meanArgs name id) =
      match stoi id with
      | .invalid | .range => .badId
      | .ok v => if v < 0 then .badId else .minMaxMean v := by
  simp only [parseCmd, meanArgs]
  rw [if_neg (by decide), if_neg (by decide), if_neg (by decide), if_pos trivial, if_pos trivial]
  cases stoi id <;> rfl

/-- **C61** the id: every number below 2^31 in decimal notation (leading zeros allowed) is understood as this number;
larger ones and negative ones are refused. -/
theorem C61_id (name : List Byte) (ds : List Nat) (hne : ds ≠ []) (h : ∀ d ∈ ds, d < 10) :
    (value ds < 2 ^ 31 → parseCmd true (meanArgs name (decimal ds)) = .minMaxMean (value ds)) ∧
    (2 ^ 31 ≤ value ds → parseCmd true (meanArgs name (decimal ds)) = .badId) ∧
    (0 < value ds → parseCmd true (meanArgs name (45 :: decimal ds)) = .badId) := by
  have h1 := stoi_digits ds hne h [] (by simp)
  rw [List.append_nil] at h1
  have h2 := stoi_minus ds hne h
  rw [parse_mean, parse_mean, h1, h2]
  refine ⟨fun hv => ?_, fun hv => ?_, fun hv => ?_⟩
  · rw [if_pos hv]; simp
  · rw [if_neg (by omega)]
  · split
    · rfl
    · rfl
    · rename_i v hv'
      split at hv'
      · cases hv'; rw [if_pos (by omega)]
      · cases hv'

/-- A text that is not a number is not always refused: whatever follows the digits is ignored. -/
theorem C61_id_false (name : List Byte) (ds : List Nat) (hne : ds ≠ []) (h : ∀ d ∈ ds, d < 10) (hv : value ds < 2 ^ 31)
    (rest : List Byte) (hr : ∀ c ∈ rest.head?, digitC c = none) :
    parseCmd true (meanArgs name (decimal ds ++ rest)) = .minMaxMean (value ds) := by
  rw [parse_mean, stoi_digits ds hne h rest hr, if_pos hv]
  simp

/-! ## The command `find` -/

theorem strstr_iff (hay needle : List Byte) : strstr hay needle = true ↔ needle <:+: hay := by
  induction hay with
  | nil => simp [strstr, List.infix_nil]
  | cons c cs ih =>
    rw [strstr, Bool.or_eq_true, ih, List.isPrefixOf_iff_prefix, List.infix_cons_iff]

theorem findIds_eq (needle : List Byte) (i : Nat) (fs : List (List Byte)) :
    ∀ k, k ∈ findIds needle i fs ↔ ∃ f, i ≤ k ∧ fs[k - i]? = some f ∧ needle <:+: f := by
  induction fs generalizing i with
  | nil => simp [findIds]
  | cons f fs ih =>
    intro k
    have key : (∃ g, i ≤ k ∧ (f :: fs)[k - i]? = some g ∧ needle <:+: g) ↔
        (k = i ∧ needle <:+: f) ∨ ∃ g, i + 1 ≤ k ∧ fs[k - (i + 1)]? = some g ∧ needle <:+: g := by
      constructor
      · rintro ⟨g, h1, h2, h3⟩
        by_cases hk : k = i
        · subst hk
          simp only [Nat.sub_self, List.getElem?_cons_zero, Option.some.injEq] at h2
          subst h2; exact .inl ⟨rfl, h3⟩
        · refine .inr ⟨g, by omega, ?_, h3⟩
          rw [show k - i = (k - (i + 1)) + 1 by omega, List.getElem?_cons_succ] at h2
          exact h2
      · rintro (⟨rfl, h⟩ | ⟨g, h1, h2, h3⟩)
        · exact ⟨f, Nat.le_refl _, by simp, h⟩
        · refine ⟨g, by omega, ?_, h3⟩
          rw [show k - i = (k - (i + 1)) + 1 by omega, List.getElem?_cons_succ]
          exact h2
    rw [key, findIds]
    split
    · rename_i hs
      rw [List.mem_cons, ih]
      simp [(strstr_iff f needle).1 hs]
    · rename_i hs
      rw [ih]
      have : ¬ needle <:+: f := fun h => hs ((strstr_iff f needle).2 h)
      simp [this]

/-- **C61** `find`: the ids listed are those of the log statements whose format string contains the text, in increasing
order. -/
theorem C61_find (needle : List Byte) (fs : List (List Byte)) :
    (∀ k, k ∈ findIds needle 0 fs ↔ ∃ f, fs[k]? = some f ∧ needle <:+: f) ∧ (findIds needle 0 fs).Pairwise (· < ·) := by
  refine ⟨fun k => by simpa using findIds_eq needle 0 fs k, ?_⟩
  suffices ∀ i, (findIds needle i fs).Pairwise (· < ·) from this 0
  intro i
  induction fs generalizing i with
  | nil => simp [findIds]
  | cons f fs ih =>
    rw [findIds]
    split
    · refine List.pairwise_cons.2 ⟨fun k hk => ?_, ih _⟩
      obtain ⟨-, h, -⟩ := (findIds_eq needle (i + 1) fs k).1 hk
      omega
    · exact ih _

/-! ## The exit status -/

/-- The exit status does not tell that a file is incomplete: six messages were logged, the last byte of the file is
missing, and both commands print four messages, "Decompression Complete" and return 0. -/
theorem C61_status_false : ∃ st ns ms, FileRun exCfg exCk exSites (exTsOps exCk exGs) st ns ms ∧ ms.length = 6 ∧
    ∀ args ∈ [unorderedArgs [1] [], orderedArgs [1] []], ∃ out,
      tool false (exCfg.staging + 9) (fun _ => firstMin) args (some st.contents.dropLast) = some ⟨0, out, some 4⟩ ∧
      out.length = 4 := by
  obtain ⟨st, ns, ms, h⟩ := exTsRun exCk_plain (by decide : ExTs exGs)
  have hF := exTsExecExts (ck := exCk) (by decide : ExTs exGs) (by decide +kernel)
  obtain ⟨jk, bs, hfl, -⟩ := h.body' hF
  refine ⟨st, ns, ms, h, by rw [← hfl]; rfl, ?_⟩
  have e : ((EncSt.init.run exCfg (exTsOps exCk exGs)).map fun x =>
      [unorderedArgs [1] [], orderedArgs [1] []].map fun args =>
        (tool false (exCfg.staging + 9) (fun _ => firstMin) args (some x.1.contents.dropLast)).map fun o =>
          (o.status, o.out.length, o.total)) = some [some (0, 4, some 4), some (0, 4, some 4)] := by decide +kernel
  have hr := h.run
  rw [hr] at e
  simp only [Option.map_some, List.map_cons, List.map_nil, Option.some.injEq, List.cons.injEq, and_true] at e
  intro args ha
  have key : (tool false (exCfg.staging + 9) (fun _ => firstMin) args (some st.contents.dropLast)).map
      (fun o => (o.status, o.out.length, o.total)) = some (0, 4, some 4) := by
    simp only [List.mem_cons, List.not_mem_nil, or_false] at ha
    rcases ha with rfl | rfl
    · exact e.1
    · exact e.2
  generalize tool false (exCfg.staging + 9) (fun _ => firstMin) args (some st.contents.dropLast) = o at key ⊢
  cases o with
  | none => cases key
  | some o =>
    obtain ⟨a, b, c⟩ := o
    simp only [Option.map_some, Option.some.injEq, Prod.mk.injEq] at key
    obtain ⟨rfl, h2, rfl⟩ := key
    exact ⟨b, rfl, h2⟩

/-! ## Examples -/

/-- Six messages, for both commands. -/
example : ∃ st ns ms, FileRun exCfg exCk exSites (exTsOps exCk exGs) st ns ms ∧ ms.length = 6 ∧
    (∀ op ∈ (exTsOps exCk exGs).tail, ∀ jk c all, op ≠ .start jk c all) ∧ (Picks fun _ => firstMin) ∧
    Appended exCfg st.contents ms ∧ st.contents ≠ [] := by
  obtain ⟨st, ns, ms, h⟩ := exTsRun exCk_plain (by decide : ExTs exGs)
  have hF := exTsExecExts (ck := exCk) (by decide : ExTs exGs) (by decide +kernel)
  obtain ⟨jk, bs, hfl, -⟩ := h.body' hF
  have hap : Appended exCfg (st.contents ++ []) (ms ++ []) := .cons h .nil
  rw [List.append_nil, List.append_nil] at hap
  refine ⟨st, ns, ms, h, by rw [← hfl]; rfl, ?_, firstMin_picks, hap, ?_⟩
  · obtain ⟨jk, ops', st1, n, e, -, hr⟩ := hF
    rw [e]
    exact hr.noStart
  · have e : ((EncSt.init.run exCfg (exTsOps exCk exGs)).map fun x => decide (x.1.contents ≠ [])) = some true := by
      decide +kernel
    rw [h.run] at e
    simpa using e

/-- `C61_cut`: the example of C28. -/
example : ∃ st1 ns1 ms1 st ns ms, FileRun Config.default exCk exSites (exOps.take 4) st1 ns1 ms1 ∧
    FileRun Config.default exCk exSites (exOps.take 4 ++ exOps.drop 4) st ns ms ∧
    st1.contents.length ≤ 110 ∧ 110 ≤ st.contents.length := by
  obtain ⟨st1, ns1, ms1, h1⟩ := C18_run_exists Config.default Config.default_ok 0 exCk exSites
    ((exOps.take 4).drop 1)
    (.start exCk_plain exSites_ok (by decide) (.dict (.batch exBatch1 (.flush .nil))))
    (by simp [exOps, FlushedStarts])
  obtain ⟨st, ns, ms, h⟩ := exRun
  refine ⟨st1, ns1, ms1, st, ns, ms, h1, by simpa using h, ?_, ?_⟩
  · have e : ((EncSt.init.run Config.default (exOps.take 4)).map fun x =>
        decide (x.1.contents.length ≤ 110)) = some true := by decide +kernel
    have hr : EncSt.init.run Config.default (exOps.take 4) = some (st1, ns1) := h1.run
    rw [hr] at e
    simpa using e
  · have e : ((EncSt.init.run Config.default exOps).map fun x =>
        decide (110 ≤ x.1.contents.length)) = some true := by decide +kernel
    rw [h.run] at e
    simpa using e

/-- Command lines: no argument, a command of the other build, a missing id; and one that is understood. -/
example : parseCmd false [] = .help ∧ parseCmd false [bytesOf "find", [1], [2]] = .help ∧
    parseCmd true [bytesOf "minMaxMean", [1]] = .help ∧ parseCmd true [bytesOf "find", [1], [2]] = .find [2] := by
  decide

/-- Files that are not opened: none, and an empty one. -/
example : ∀ file ∈ [none, some []], ∀ bytes ∈ file, ∃ s, (Dec.new 100).openFile bytes = some (false, s) := by
  intro file hf bytes hb
  simp only [List.mem_cons, List.not_mem_nil, or_false] at hf
  rcases hf with rfl | rfl
  · cases hb
  · cases hb
    rw [Dec.openFile, readDictionary_cut _ _ (by simp)]
    exact ⟨_, rfl⟩

/-- Ids: `042`, `2147483648`, `-7`, and `5abc`. -/
example : (value [0, 4, 2] = 42 ∧ value [2, 1, 4, 7, 4, 8, 3, 6, 4, 8] = 2 ^ 31 ∧ value [7] = 7) ∧
    parseCmd true (meanArgs [1] (bytesOf "042")) = .minMaxMean 42 ∧
    parseCmd true (meanArgs [1] (bytesOf "2147483648")) = .badId ∧
    parseCmd true (meanArgs [1] (bytesOf "-7")) = .badId ∧
    parseCmd true (meanArgs [1] (bytesOf "5abc")) = .minMaxMean 5 := by
  decide +kernel

/-- `find`. -/
example : findIds (bytesOf "ab") 0 [bytesOf "xab", bytesOf "ba", bytesOf "ab"] = [0, 2] := by decide +kernel

end NanoLog
