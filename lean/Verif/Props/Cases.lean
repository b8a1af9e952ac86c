import Verif.Props.Packing
import Verif.Props.Header
import Verif.Props.Staging
import Verif.Props.Encode
import Verif.Props.File
import Verif.Props.Runtime
import Verif.Props.Stats
import Verif.Props.Format

/-! Further concrete cases for theorems whose examples are shared with other theorems of the same property.  Each
example applies the theorem to one case. -/

namespace NanoLog

/-! ## Packing and headers -/

/-- `C01_int_round_trip`: a negative 32-bit number read as an unsigned one. -/
example : unpackInt .u32 (packInt .i32 (-70000)).1 ((packInt .i32 (-70000)).2 ++ [1, 2]) =
    some (4294897296, [1, 2]) :=
  C01_int_round_trip (t := .i32) (t' := .u32) (v := -70000) (by decide) (.inl (by decide)) [1, 2]

/-- `C03_packed_size`, `C03_minimal`: 65536 needs three bytes. -/
example : (packInt .i64 65536).2.length ≤ 8 ∧ 256 ^ 2 ≤ 65536 ∧ 65536 < 256 ^ (packU 8 65536).2.length :=
  ⟨(C03_packed_size (t := .i64) (v := 65536) (by decide)).2.2,
    (C03_minimal (sz := 8) (v := 65536) (k := 2) (by decide) (by decide) (by decide)).2 (by decide) (by decide),
    (C03_minimal (sz := 8) (v := 65536) (k := 2) (by decide) (by decide) (by decide)).1⟩

/-- `C05_header_size`: the longest header. -/
example : (compressLogHeader 4294967295 (2 ^ 63) 0).length ≤ 13 :=
  (C05_header_size (id := 4294967295) (ts := 2 ^ 63) (last := 0) (by decide)).2.1

/-- `C06_extent_header_empty`: an extent without messages, followed by others. -/
example : ∃ bf', readBufferExtent (BufFrag.init 40) ⟨extentBytes 300 true [] ++ [2, 7], false⟩ =
    some (true, true, bf', ⟨[2, 7], false⟩) ∧ bf'.tid = 300 ∧ bf'.left = 0 ∧ bf'.hasMore = false :=
  C06_extent_header_empty _ _ _ _ (by decide) (by decide)

/-! ## Staging buffers -/

/-- `C07_fifo`, `C07_prefix`, `C09_too_large_never`: after a wrap around seven bytes are consumed and two are unread. -/
example : ∃ s, SB.Reachable .pso 8 s ∧ s.got.length = 7 ∧ s.unread = [8, 9] ∧ s.got ++ s.unread = s.pub ∧
    s.got <+: s.pub ∧ ∀ img, s.pc ≠ .reserved 8 img := by
  have h : exWrapCheck .pso = true := by decide +kernel
  unfold exWrapCheck at h
  split at h
  · rename_i s hs
    simp only [Bool.and_eq_true, decide_eq_true_eq] at h
    exact ⟨s, ⟨_, hs⟩, by rw [h.1.1]; rfl, h.2, C07_fifo (by decide) (by decide) ⟨_, hs⟩,
      C07_prefix (by decide) (by decide) ⟨_, hs⟩,
      fun img => C09_too_large_never (by decide) (by decide) ⟨_, hs⟩ (by decide) img⟩
  · cases h

/-- `C08_no_overlap`: two bytes reserved behind unread ones. -/
example : ∃ s img, SB.Reachable .tso 8 s ∧ s.pc = .reserved 2 img ∧ s.pp + 2 < 8 ∧
    ∀ i, i < 2 → ¬ s.Unread (s.pp + i) := by
  have h : exTightCheck = true := by decide +kernel
  unfold exTightCheck at h
  split at h
  · rename_i s hs
    simp only [Bool.and_eq_true] at h
    have h1 := h.1.1
    split at h1
    · rename_i n img hp
      have : n = 2 := by simpa using h1
      subst this
      have := C08_no_overlap (mm := .tso) (N := 8) (by decide) (by decide) ⟨_, hs⟩ hp
      exact ⟨s, img, ⟨_, hs⟩, hp, this.1, this.2⟩
    · cases h1
  · cases h

/-- `C11_freed_after_drained`: the buffer of a thread that has ended. -/
example : ∃ s, SB.Reachable .tso 8 s ∧ s.cc = .freed ∧ s.got = [7] ∧ s.got = s.pub := by
  have h : exFreeCheck = true := by decide +kernel
  unfold exFreeCheck at h
  split at h
  · rename_i s hs
    simp only [Bool.and_eq_true, beq_iff_eq] at h
    have h1 := h.1
    split at h1
    · rename_i hf
      exact ⟨s, ⟨_, hs⟩, hf, h.2, (C11_freed_after_drained (by decide) (by decide) ⟨_, hs⟩ hf).2.2⟩
    · cases h1
  · cases h

/-! ## Files -/

/-- `C27_appended_partial`: the file of three messages twice. -/
example : ∃ st ns ms, FileRun Config.default exCk exSites exOps st ns ms ∧
    ∃ s s1, (Dec.new (Config.default.staging + 9)).openFile (st.contents ++ st.contents) = some (true, s) ∧
      s.unordered (BufFrag.init (Config.default.staging + 9)) = some (true, s1) ∧ s1.out.length = 6 := by
  obtain ⟨st, ns, ms, h⟩ := exRun
  obtain ⟨s, s1, s2, h1, h2, h3, -⟩ := C27_appended_partial h h (BufFrag.init (Config.default.staging + 9))
    (List.length_replicate ..)
  exact ⟨st, ns, ms, h, s, s1, h1, h2, by simp [h3, exRun_messages h]⟩

/-- `C28_cut_checkpoint`: one byte of the checkpoint is missing. -/
example : ∃ st ns ms, FileRun Config.default exCk exSites exOps st ns ms ∧
    ∃ s, (Dec.new 300).openFile (st.contents.take 39) = some (false, s) := by
  obtain ⟨st, ns, ms, h⟩ := exRun
  exact ⟨st, ns, ms, h, C28_cut_checkpoint h 39 (by decide) _⟩

/-- `C44_written`: five operations. -/
example : ∃ st ns ms, FileRun Config.default exCk exSites exOps st ns ms ∧
    (EncSt.init.written Config.default exOps).flatten = st.contents ∧
    (EncSt.init.written Config.default exOps).length = 5 := by
  obtain ⟨st, ns, ms, h⟩ := exRun
  exact ⟨st, ns, ms, h, C44_written h⟩

/-- `C45_reuse_unordered`, `C45_reuse_iterator_partial`: a decoder that has read the file reads it again. -/
example : ∃ st ns ms s0 s1 s2 s3 s4, FileRun Config.default exCk exSites exOps st ns ms ∧ ms.length = 3 ∧
    (Dec.new (Config.default.staging + 9)).openFile st.contents = some (true, s0) ∧
    s0.unordered (BufFrag.init (Config.default.staging + 9)) = some (true, s1) ∧ s1.out = ms ∧
    s1.openFile st.contents = some (true, s2) ∧
    s2.unordered (BufFrag.init (Config.default.staging + 9)) = some (true, s3) ∧ s3.out = ms ∧
    (∃ s5, (Dec.new (Config.default.staging + 9)).openFile st.contents = some (true, s5) ∧
      s5.iterate 4 = some s4) ∧ s4.out = ms := by
  obtain ⟨st, ns, ms, h⟩ := exRun
  have hl : (BufFrag.init (Config.default.staging + 9)).stor.length = Config.default.staging + 9 :=
    List.length_replicate ..
  obtain ⟨s0, s1, a1, a2, a3⟩ := C45_reuse_unordered h (Dec.new (Config.default.staging + 9)) _ hl
  obtain ⟨s2, s3, b1, b2, b3⟩ := C45_reuse_unordered h s1 _ hl
  obtain ⟨s5, s4, c1, c2, c3⟩ := C45_reuse_iterator_partial h (Dec.new (Config.default.staging + 9)) hl rfl
  exact ⟨st, ns, ms, s0, s1, s2, s3, s4, h, exRun_messages h, a1, a2, a3, b1, b2, b3,
    ⟨s5, c1, c2 4 (by rw [exRun_messages h]; decide)⟩, c3⟩

/-- `C29_unordered_terminates_partial`: a decoder that has opened the file is not at its end. -/
example : ∃ s : Dec, s.file.eof = false ∧ s.good = true ∧ 0 < s.file.inp.length ∧
    unorderedLoop (s.file.inp.length + 1 + 1000) s = unorderedLoop (s.file.inp.length + 1) s :=
  ⟨{ Dec.new 40 with file := ⟨[0, 0, 0], false⟩, good := true }, rfl, rfl, by decide,
    (C29_unordered_terminates_partial _ 1000).1⟩

/-! ## Runtime -/

/-- `C20_ids`, `C33_level`, `C34_unique_partial`: two threads, three messages written. -/
example : ∃ s, RtExec exCfg exSites exWritten s ∧ (s.thr 2).bid = some 1 ∧ 0 ≤ s.level ∧ s.level ≤ 4 ∧
    (∀ k k' i, s.ids k = some i → s.ids k' = some i → k = k') ∧
    ∀ u, (s.thr u).bid = some 1 → 2 = u := by
  obtain ⟨s, h, hp⟩ := exExec (ls := exWritten)
    (p := fun s => (s.thr 2).bid = some 1) (by decide +kernel) (by decide +kernel)
  have hp : (s.thr 2).bid = some 1 := by simpa using hp
  exact ⟨s, h, hp, (C33_level h).2.1, (C33_level h).2.2, (C20_ids exProgOK h).2.1,
    fun u hu => C34_unique_partial h (by decide +kernel) 2 u 1 hp hu⟩

/-! ## Statistics and formats -/

/-- `C57_ratio_partial`, `C57_ratio_range`: buffers of 100 and 512 bytes for 1224 bytes of messages. -/
example : printedRatio 1224 612 0 = (2, 2) ∧ (printedRatio 1224 1024 412).2 < 2 := by
  have h1 := C57_ratio_partial 1224 [100, 512]
  have h2 := (C57_ratio_range (bytesIn := 1224) (ns := [100, 512]) (by decide) (by decide) (by decide)).2.2
  norm_num [countOutput] at h1 h2 ⊢
  exact ⟨h1, h2⟩

/-- `C22_255_bound_needed`, `C23_256_conversions_lost`: 512 conversions. -/
example : ¬ ParsersAgree (render (List.replicate 512 convD)) ∧
    ∃ m, createMicroCode (render (List.replicate 512 convD)) [] 0 0 = some m ∧ fragText m.frags = [] := by
  obtain ⟨m, h1, h2, -⟩ := C23_256_conversions_lost 512 (by decide) (by decide)
  exact ⟨C22_255_bound_needed 512 (by decide) (by decide), m, h1, h2⟩

/-- `C23_one_conversion_each`. -/
example : ∃ (m : Meta) (gs : List (List FItem)),
    createMicroCode (render exampleFormat) (asc "a.cc") 7 2 = some m ∧ gs.flatten = exampleFormat := by
  obtain ⟨m, gs, h1, h2, -⟩ := C23_one_conversion_each exampleFormat_wf (by decide) (by decide) (asc "a.cc") 7 2
  exact ⟨m, gs, h1, h2⟩

end NanoLog
