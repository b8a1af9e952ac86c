import Verif.HdrLemmas

/-!
# Properties C05, C06: message headers and extent headers
-/

namespace NanoLog

/-- **C05.**  Identifier and timestamp of a message are recovered from its compressed header
for any 32-bit id, any 64-bit timestamp and any previous timestamp (also a later one), and
the reader stops exactly at the end of the header.  (`last` needs no bound.) -/
theorem C05_header_round_trip {id ts : Nat} (last : Nat) (hid : id < 2 ^ 32) (hts : ts < 2 ^ 64)
    (rest : List Byte) :
    decompressLogHeader last (compressLogHeader id ts last ++ rest) = some (.ok id ts rest) :=
  header_round_trip hid hts rest

example : decompressLogHeader (2 ^ 64 - 1) (compressLogHeader 4294967295 0 (2 ^ 64 - 1) ++ [9])
    = some (.ok 4294967295 0 [9]) := by decide +kernel

/-- **C05**, size: a header takes 3 to 13 bytes, and its first byte is never a padding byte
nor the first byte of an extent or checkpoint. -/
theorem C05_header_size {id ts last : Nat} (hid : id < 2 ^ 32) :
    3 ≤ (compressLogHeader id ts last).length ∧ (compressLogHeader id ts last).length ≤ 13 ∧
    ∃ b, (compressLogHeader id ts last).head? = some b ∧ entryType b = .dict := by
  refine ⟨(compressLogHeader_length hid).1, (compressLogHeader_length hid).2, _, rfl, ?_⟩
  have ht := packI64_tag (ITy.cast_inRange .i64 ((ts : Int) - last))
  apply entryType_dict
  rw [ofNat_toNat_lt]
  all_goals omega

/-- The value returned by the header compressor (unused by the encoder) is not the size of
the header when the time difference needs 8 bytes. -/
theorem C05_return_value_false :
    compressLogHeaderReturn 1 (2 ^ 62) 0 ≠ (compressLogHeader 1 (2 ^ 62) 0).length := by decide

/-- **C06.**  Thread id, start-of-pass flag and length of an extent are recovered for every
32-bit thread id.  Empty extent: no message follows. -/
theorem C06_extent_header_empty (bf : BufFrag) {tid : Nat} (np : Bool) (rest : List Byte) (e : Bool)
    (ht : tid < 2 ^ 32) (hc : 9 ≤ bf.stor.length) :
    ∃ bf', readBufferExtent bf ⟨extentBytes tid np [] ++ rest, e⟩
        = some (true, np, bf', ⟨rest, e⟩) ∧
      bf'.tid = tid ∧ bf'.left = 0 ∧ bf'.hasMore = false := by
  have h1 := extentBytes_length tid np []
  have h2 := extentHeaderSize_le ht
  simp only [List.length_nil, Nat.add_zero] at h1
  rw [readBufferExtent_ok bf np [] rest e ht (by omega) (by omega)]
  exact ⟨_, rfl, rfl, rfl, rfl⟩

/-- **C06**, extent with messages: additionally the header of the first message is read, and
exactly the bytes after it, up to the recorded length, are left to decode.  `stale` is what
an earlier extent left in the storage. -/
theorem C06_extent_header (bf : BufFrag) {tid id ts : Nat} (np : Bool) (body rest : List Byte)
    (e : Bool) (ht : tid < 2 ^ 32) (hid : id < 2 ^ 32) (hts : ts < 2 ^ 64)
    (hc : (extentBytes tid np (compressLogHeader id ts 0 ++ body)).length ≤ bf.stor.length)
    (h32 : (extentBytes tid np (compressLogHeader id ts 0 ++ body)).length < 2 ^ 32) :
    ∃ bf' stale, readBufferExtent bf
          ⟨extentBytes tid np (compressLogHeader id ts 0 ++ body) ++ rest, e⟩
        = some (true, np, bf', ⟨rest, e⟩) ∧
      bf'.tid = tid ∧ bf'.hasMore = true ∧ bf'.id = id ∧ bf'.ts = ts ∧
      bf'.left = body.length ∧ bf'.mem = body ++ stale := by
  rw [readBufferExtent_ok bf np _ rest e ht hc h32]
  have hne : compressLogHeader id ts 0 ++ body ≠ [] := by
    have := (compressLogHeader_length (ts := ts) (last := 0) hid).1
    intro h
    have := congrArg List.length h
    rw [List.length_append] at this
    simp only [List.length_nil] at this
    omega
  rw [if_neg hne, List.append_assoc, header_round_trip hid hts]
  refine ⟨_, _, rfl, rfl, rfl, rfl, rfl, ?_, rfl⟩
  simp; omega

example : (readBufferExtent (BufFrag.init 40)
      ⟨extentBytes 300 true (compressLogHeader 5 77 0 ++ [1, 2]) ++ [8, 8], false⟩).map
        (fun r => ((r.1, r.2.1), [r.2.2.1.tid, r.2.2.1.id, r.2.2.1.ts], r.2.2.2))
      = some ((true, true), [300, 5, 77], ⟨[8, 8], false⟩) := by decide +kernel

end NanoLog
