import Verif.MicroMemSim
import Verif.Props.File
import Verif.Example

/-!
# C54 The decoder's memory for static information

In C++17 mode the decoder translates each log statement of a dictionary fragment into a record in one
large allocation, `rawMetadata`, and keeps a pointer to it.  The other properties describe that memory
as a list of records; the theorems here are about the bytes.
-/

namespace NanoLog

/-- What the interpreter must find for a log statement: `is` is its format string, taken apart. -/
def LogInfo.Means (i : LogInfo) (is : List FItem) : Meta where
  file := i.file
  line := i.line
  level := i.sev
  numNibbles := numNibblesNeeded (itemParams is)
  frags := formatFrags (pieces is)

/-- A log statement with a supported format string. -/
structure LogInfo.Plain (i : LogInfo) (is : List FItem) : Prop where
  fits : i.Fits
  wf : ∀ x ∈ is, x.WF
  fmt : i.fmt = render is
  nibbles : numNibblesNeeded (itemParams is) ≤ 255
  frags : (pieces is).length ≤ 255

/-- The memory that the record of a log statement takes at most. -/
def LogInfo.room (i : LogInfo) : Nat := i.file.length + 3 * i.fmt.length + 14

theorem LogInfo.Plain.micro {i : LogInfo} {is : List FItem} (h : i.Plain is) :
    createMicroCode i.fmt i.file i.line i.sev = some (i.Means is) := by
  rw [h.fmt, createMicroCode_items h.wf _ _ _ h.nibbles h.frags]; rfl

/-- A record.  With enough memory behind `p`, `createMicroCode` writes from `p` to `p'` and nowhere
else, and the interpreter reads from these bytes what the format string means, whatever the memory
held before and whatever follows. -/
theorem C54_record {i : LogInfo} {is : List FItem} (hi : i.Plain is) (raw : List Byte) (p : Nat)
    (hroom : p + i.room ≤ raw.length) :
    ∃ raw' p', microMem raw p i.fmt i.file i.line i.sev = some (true, raw', p') ∧
      p < p' ∧ p' ≤ p + i.room ∧ raw'.length = raw.length ∧
      raw'.take p = raw.take p ∧ raw'.drop p' = raw.drop p' ∧
      ∀ rest, metaAt ((raw'.drop p).take (p' - p) ++ rest) = some (i.Means is) := by
  have hf := hi.fits
  simp only [LogInfo.room] at hroom ⊢
  obtain ⟨ok, raw', p', e1, e2⟩ := microMem_ok (raw := raw) (p := p) (line := i.line) (level := i.sev)
    (fun h0 => hf.fmtNul 0 h0 rfl) (by have := hf.fmtLen; omega) (fun h0 => hf.fileNul 0 h0 rfl)
    (by have := hf.fileLen; omega) hf.sev hf.line (by omega)
  rw [hi.micro] at e2
  obtain ⟨rfl, rec, e3, rfl, e4, e5, e6⟩ := e2
  have hl : (raw.take p).length = p := by simp; omega
  have hd : raw'.drop p = rec ++ raw.drop (p + rec.length) := by rw [e3, List.drop_left' hl]
  refine ⟨raw', _, e1, by omega, by omega, ?_, ?_, ?_, ?_⟩
  · rw [e3]; simp; omega
  · rw [e3, List.take_left' hl]
  · rw [← List.drop_drop, hd, List.drop_left' rfl]
  · intro rest
    rw [hd, Nat.add_sub_cancel_left, List.take_left' rfl]
    exact e6 rest

/-- Any format string, supported or not: within the memory nothing but the bytes from `p` on changes, and a
rejected format string leaves the end of the memory in use where it was. -/
theorem C54_rejected {i : LogInfo} (hf : i.Fits) (raw : List Byte) (p : Nat)
    (hroom : p + i.room ≤ raw.length) :
    ∃ ok raw' p', microMem raw p i.fmt i.file i.line i.sev = some (ok, raw', p') ∧
      raw'.length = raw.length ∧ raw'.take p = raw.take p ∧ (ok = true → p < p') ∧ (ok = false → p' = p) ∧
      p' ≤ p + i.room := by
  simp only [LogInfo.room] at hroom ⊢
  obtain ⟨ok, raw', p', e1, e2⟩ := microMem_ok (raw := raw) (p := p) (line := i.line) (level := i.sev)
    (fun h0 => hf.fmtNul 0 h0 rfl) (by have := hf.fmtLen; omega) (fun h0 => hf.fileNul 0 h0 rfl)
    (by have := hf.fileLen; omega) hf.sev hf.line (by omega)
  refine ⟨ok, raw', p', e1, ?_⟩
  split at e2
  · obtain ⟨rfl, rec, e3, rfl, e4, e5, -⟩ := e2
    have hl : (raw.take p).length = p := by simp; omega
    refine ⟨by rw [e3]; simp; omega, by rw [e3, List.take_left' hl], fun _ => by omega, by simp, by omega⟩
  · obtain ⟨rfl, rfl, e3, e4⟩ := e2
    exact ⟨e4, e3, by simp, fun _ => rfl, by omega⟩

/-- A dictionary.  If the memory has room for all log statements together, each of them is found
under its number, however many follow: later records and the counters in them never
touch earlier ones. -/
theorem C54_dictionary (raw : List Byte) (stmts : List (LogInfo × List FItem))
    (hp : ∀ s ∈ stmts, s.1.Plain s.2) (hroom : (stmts.map fun s => s.1.room).sum ≤ raw.length) :
    ∃ q, PDict.addInfos ⟨raw, 0, []⟩ (stmts.map Prod.fst) = some q ∧ q.ptrs.length = stmts.length ∧
      ∀ id s, stmts[id]? = some s → q.lookup id = some (s.1.Means s.2) := by
  obtain ⟨q, recs, a1, a2, -⟩ := addInfos_sim (infos := stmts.map Prod.fst) (DictSim.empty raw)
    (by intro i hi; obtain ⟨s, hs, rfl⟩ := List.mem_map.1 hi; exact (hp s hs).fits)
    (by simpa [LogInfo.room, Function.comp_def] using hroom)
  have hm : List.Forall₂ (fun i m => createMicroCode i.fmt i.file i.line i.sev = some m)
      (stmts.map Prod.fst) (stmts.map fun s => s.1.Means s.2) := by
    rw [List.forall₂_map_left_iff, List.forall₂_map_right_iff, List.forall₂_same]
    exact fun s hs => (hp s hs).micro
  rw [foldl_add hm] at a2
  refine ⟨q, a1, ?_, ?_⟩
  · rw [a2.ptrs]; simp [Dict.empty]
  · intro id s hs
    refine a2.lookup ?_
    have hlt := (List.getElem?_eq_some_iff.1 hs).1
    have he := (List.getElem?_eq_some_iff.1 hs).2
    simp [Dict.lookup, Dict.empty, hlt, he]

/-- Log files.  Whatever bytes the file consists of: if decoding it with a list of records (the model
of the other properties) has a result, then so has decoding it with the memory, and it is the same.
The memory must have three bytes for each byte of the dictionary fragments of one execution. -/
theorem C54_decoder {cap : Nat} {bytes raw : List Byte} {bf : BufFrag} {s s' : Dec} {ok : Bool}
    (ho : (Dec.new cap).openFile bytes = some (true, s)) (hu : s.unordered bf = some (ok, s'))
    (hroom : 3 * dictPeak (s.file.inp.length + 1) 0 { s with bf := bf } ≤ raw.length) :
    decodeFileM raw bf bytes = some (ok, s'.out) := by
  unfold Dec.openFile at ho
  split at ho
  · cases ho
  · cases ho
  next ck d f hr =>
    have hs := Option.some.inj ho
    simp only [Prod.mk.injEq, true_and] at hs
    obtain ⟨-, ⟨q', a1, a2, a3, a4⟩ | ⟨h, -⟩⟩ := readDictP_sim (q := ⟨raw, 0, []⟩) hr (Nat.zero_le _)
    · unfold decodeFileM
      have e : (Dec.new cap).ck = ⟨0, 0, [], 0, 0⟩ := rfl
      rw [e] at a1
      rw [a1]
      simp only
      unfold Dec.unordered at hu
      split at hu
      · cases hu
      next s2 h2 =>
        have hu' := Option.some.inj hu
        simp only [Prod.mk.injEq] at hu'
        obtain ⟨rfl, rfl⟩ := hu'
        subst hs
        obtain ⟨t', recs', b1, b2⟩ := loopM_sim _ h2 (t := ⟨f, true, ck, q', bf, []⟩) (recs := [])
          ⟨rfl, rfl, rfl, rfl, rfl, a2⟩ (cur := 0) (by simp only; omega) (by simp only [a3]; exact hroom)
        rw [b1, Option.map_some, b2.good, b2.out]
    · cases h

/-- A memory of three times the size of the file is enough. -/
theorem C54_decoder_small {cap : Nat} {bytes raw : List Byte} {bf : BufFrag} {s s' : Dec} {ok : Bool}
    (ho : (Dec.new cap).openFile bytes = some (true, s)) (hu : s.unordered bf = some (ok, s'))
    (hroom : 3 * bytes.length ≤ raw.length) : decodeFileM raw bf bytes = some (ok, s'.out) := by
  refine C54_decoder ho hu (Nat.le_trans (Nat.mul_le_mul_left 3 ?_) hroom)
  refine Nat.le_trans (dictPeak_le _ _ _) ?_
  unfold Dec.openFile at ho
  split at ho
  · cases ho
  · cases ho
  next ck d f hr =>
    have hs := Option.some.inj ho
    simp only [Prod.mk.injEq, true_and] at hs
    have := (readDictP_sim (q := ⟨raw, 0, []⟩) hr (Nat.zero_le _)).1
    subst hs
    simp only at this ⊢
    omega

/-- A log file written by the library: the decoder with memory prints exactly the messages logged. -/
theorem C54_file_decodes {cfg c all ops st ns ms} (h : FileRun cfg c all ops st ns ms) (bf : BufFrag)
    (hbf : bf.stor.length = cfg.staging + 9) (raw : List Byte) (hroom : 3 * st.contents.length ≤ raw.length) :
    decodeFileM raw bf st.contents = some (true, ms) := by
  obtain ⟨s, s', h1, h2, rfl⟩ := C18_file_decodes h bf hbf
  exact C54_decoder_small h1 h2 hroom

/-- The claim without a condition on the memory is false: the code never compares with the size of the
allocation.  For every size, a dictionary with one entry more than the memory has bytes makes the decoder
write outside, whatever the text of the entries; each entry is valid. -/
theorem C54_overflow_false (raw : List Byte) (i : LogInfo)
    (hf : ∀ b ∈ i.fmt, b ≠ ch '%' ∧ b ≠ ch '\\') :
    PDict.addInfos ⟨raw, 0, []⟩ (List.replicate (raw.length + 1) i) = none := by
  cases h : PDict.addInfos ⟨raw, 0, []⟩ (List.replicate (raw.length + 1) i) with
  | none => rfl
  | some q' =>
    have := addInfos_text hf _ h (Nat.zero_le _)
    simp only [Nat.zero_add] at this
    have h2 : (raw.length + 1) * 1 ≤ (raw.length + 1) * (i.file.length + i.fmt.length + 14) :=
      Nat.mul_le_mul_left _ (by omega)
    omega

/-! ## Examples -/

theorem exSite0_plain : exSite0.info.Plain exItems0 :=
  ⟨⟨by decide, by decide, by decide, by decide, by decide, by decide⟩, exItems0_wf, by decide, by decide,
    by decide⟩

theorem exSite1_plain : exSite1.info.Plain exItems1 :=
  ⟨⟨by decide, by decide, by decide, by decide, by decide, by decide⟩, exItems1_wf, by decide, by decide,
    by decide⟩

/-- `C54_record`, `C54_rejected`: `"x=%d\n"` in a memory full of ones, not at its start. -/
example : exSite0.info.Plain exItems0 ∧ 5 + exSite0.info.room ≤ (List.replicate 60 (255 : Byte)).length :=
  ⟨exSite0_plain, by decide⟩

/-- A rejected format string, `"%d %n"`: the first fragment was already written. -/
example : (LogInfo.mk [97] 1 1 (asc "%d %n")).Fits ∧
    (microMem (List.replicate 60 255) 5 (asc "%d %n") [97] 1 1).map (fun r => (r.1, r.2.2)) = some (false, 5) ∧
    (microMem (List.replicate 60 255) 5 (asc "%d %n") [97] 1 1).map (fun r => r.2.1) ≠
      some (List.replicate 60 255) :=
  ⟨⟨by decide, by decide, by decide, by decide, by decide, by decide⟩, by decide +kernel, by decide +kernel⟩

/-- `C54_dictionary`: three log statements of two kinds. -/
example : (∀ s ∈ [(exSite0.info, exItems0), (exSite1.info, exItems1), (exSite0.info, exItems0)],
      s.1.Plain s.2) ∧
    ([(exSite0.info, exItems0), (exSite1.info, exItems1), (exSite0.info, exItems0)].map
      fun s => s.1.room).sum ≤ (List.replicate 100 (7 : Byte)).length := by
  refine ⟨?_, by decide⟩
  intro s hs
  simp only [List.mem_cons, List.not_mem_nil, or_false] at hs
  rcases hs with rfl | rfl | rfl
  · exact exSite0_plain
  · exact exSite1_plain
  · exact exSite0_plain

/-- `C54_decoder`, `C54_decoder_small`, `C54_file_decodes`: the example file, three messages. -/
example : ∃ st ns ms, FileRun Config.default exCk exSites exOps st ns ms ∧
    ∃ raw : List Byte, 3 * st.contents.length ≤ raw.length := by
  obtain ⟨st, ns, ms, h⟩ := exRun
  exact ⟨st, ns, ms, h, List.replicate (3 * st.contents.length) 0, by simp⟩

/-- `C54_overflow_false`: the text `"hi"`. -/
example : (LogInfo.mk [97] 1 1 (asc "hi")).Fits ∧ ∀ b ∈ asc "hi", b ≠ ch '%' ∧ b ≠ ch '\\' :=
  ⟨⟨by decide, by decide, by decide, by decide, by decide, by decide⟩, by decide⟩

end NanoLog
