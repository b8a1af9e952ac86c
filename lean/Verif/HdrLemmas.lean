import Verif.Decode
import Verif.PackerLemmas

/-!
# Lemmas about message and extent headers
-/

namespace NanoLog

theorem ofNat_toNat_lt {n : Nat} (h : n < 256) : (UInt8.ofNat n).toNat = n := by
  rw [UInt8.toNat_ofNat']; omega

theorem entryType_dict {b : Byte} (h : b.toNat % 4 = 1) : entryType b = .dict := by
  unfold entryType; rw [h]; rfl

theorem entryType_extent {b : Byte} (h : b.toNat % 4 = 2) : entryType b = .extent := by
  unfold entryType; rw [h]; rfl

theorem entryType_checkpoint {b : Byte} (h : b.toNat % 4 = 3) : entryType b = .checkpoint := by
  unfold entryType; rw [h]; rfl

theorem entryType_invalid {b : Byte} (h : b.toNat % 4 = 0) : entryType b = .invalid := by
  unfold entryType; rw [h]; rfl

theorem numBytes_le4 {v : Nat} (h : v < 2 ^ 32) : numBytes v ≤ 4 :=
  numBytes_le_of_lt (by omega) (by omega) (by simpa using h)

theorem packI64_tag {d : Int} (h : ITy.i64.InRange d) : (packI64 d).1 < 16 :=
  (packInt_facts (t := .i64) h).1

/-- Number of bytes of a message header: at least 3, at most 13. -/
theorem compressLogHeader_length {id ts last : Nat} (hid : id < 2 ^ 32) :
    3 ≤ (compressLogHeader id ts last).length ∧ (compressLogHeader id ts last).length ≤ 13 := by
  have h1 := packU_length (sz := 4) (v := id) (by simpa using hid) (by omega) (by omega)
  have h2 := packInt_facts (t := .i64) (v := ITy.i64.cast ((ts : Int) - last)) (ITy.cast_inRange _ _)
  have h3 := numBytes_le4 hid
  have h4 := numBytes_pos id
  simp only [packInt, ITy.bytes] at h2
  simp only [compressLogHeader, List.length_cons, List.length_append, h1]
  omega

theorem u32_i64_cast {id : Nat} (hid : id < 2 ^ 32) :
    (ITy.u32.cast (ITy.i64.cast (id : Int))).toNat = id := by
  simp [ITy.cast, ITy.signed, ITy.bytes]; omega

theorem ts_diff {ts last : Nat} (hts : ts < 2 ^ 64) :
    ((ITy.i64.cast ((ts : Int) - last) + (last : Int)) % 2 ^ 64).toNat = ts := by
  simp [ITy.cast, ITy.signed, ITy.bytes]; omega

/-- Message header round trip. -/
theorem header_round_trip {id ts last : Nat} (hid : id < 2 ^ 32) (hts : ts < 2 ^ 64)
    (rest : List Byte) :
    decompressLogHeader last (compressLogHeader id ts last ++ rest) = some (.ok id ts rest) := by
  have hr := ITy.cast_inRange .i64 ((ts : Int) - last)
  generalize hd : ITy.i64.cast ((ts : Int) - last) = d at hr
  have hn : (packU 4 id).1 = numBytes id := rfl
  have h3 := numBytes_le4 hid
  have h4 := numBytes_pos id
  have ht := packI64_tag hr
  simp only [compressLogHeader, hd, List.cons_append, decompressLogHeader]
  generalize hbv : 1 + 4 * (((packU 4 id).1 - 1) % 4) + 16 * ((packI64 d).1 % 16) = b
  have hb : b < 256 := by rw [hn] at hbv; omega
  have hbn := ofNat_toNat_lt hb
  have e1 : entryType (UInt8.ofNat b) = .dict := by
    apply entryType_dict
    rw [hbn]; omega
  have e2 : (UInt8.ofNat b).toNat / 4 % 4 + 1 = (packU 4 id).1 := by rw [hbn]; omega
  have e3 : (UInt8.ofNat b).toNat / 16 = (packI64 d).1 := by rw [hbn]; omega
  have e0 := unpackInt_packU (sz := 4) (v := id) .u32 ((packI64 d).2 ++ rest) (by simpa using hid)
    (by omega) (by omega)
  rw [if_pos e1, e2, e3, List.append_assoc, e0]
  have e4 := packInt_unpack (t := .i64) (t' := .i64) hr (.inl (by decide)) rest
  rw [ITy.cast_of_inRange hr] at e4
  simp only [packInt] at e4
  simp only [Option.bind_eq_bind, Option.bind_some, e4]
  rw [u32_i64_cast hid, ← hd, ts_diff hts]

/-- Every header consumed has at least one byte. -/
theorem decompressLogHeader_consumes {last id ts : Nat} {mem rest : List Byte}
    (h : decompressLogHeader last mem = some (.ok id ts rest)) : rest.length < mem.length := by
  cases mem with
  | nil => simp [decompressLogHeader] at h
  | cons b bs =>
    have hu : ∀ (t : ITy) (n : Nat) (l : List Byte) (v : Int) (r : List Byte),
        unpackInt t n l = some (v, r) → r.length ≤ l.length := by
      intro t n l v r h
      unfold unpackInt at h
      split at h
      · cases ht : takeN n l with
        | none => simp [ht] at h
        | some p =>
          simp [ht] at h
          have := takeN_some ht
          rw [← h.2]
          have e := this.1
          rw [e]; simp
      · cases ht : takeN ((n - 8) % 16) l with
        | none => simp [ht] at h
        | some p =>
          simp [ht] at h
          have := takeN_some ht
          rw [← h.2]
          have e := this.1
          rw [e]; simp
    simp only [decompressLogHeader] at h
    split at h
    · cases h1 : unpackInt .u32 (b.toNat / 4 % 4 + 1) bs with
      | none => simp [h1] at h
      | some p =>
        simp only [h1, Option.bind_eq_bind, Option.bind_some] at h
        cases h2 : unpackInt .i64 (b.toNat / 16) p.2 with
        | none => simp [h2] at h
        | some q =>
          simp only [h2, Option.bind_some, Option.some.injEq, Hdr.ok.injEq] at h
          have a1 := hu _ _ _ _ _ h1
          have a2 := hu _ _ _ _ _ h2
          rw [← h.2.2]
          simp; omega
    · simp at h

theorem read_append (a rest : List Byte) (e : Bool) :
    FileSt.read a.length ⟨a ++ rest, e⟩ = (a, ⟨rest, e⟩) := by
  simp [FileSt.read]

theorem read_append' {n : Nat} (a rest : List Byte) (e : Bool) (h : a.length = n) :
    FileSt.read n ⟨a ++ rest, e⟩ = (a, ⟨rest, e⟩) := by
  subst h; exact read_append a rest e

/-- Length of the packed thread id after the extent header. -/
theorem extentId_length {tid : Nat} (h : tid < 2 ^ 32) : (extentId tid).2.2.length ≤ 4 := by
  unfold extentId
  split
  · simp
  · have h1 := packU_length (sz := 4) (v := tid) (by simpa using h) (by omega) (by omega)
    have h3 := numBytes_le4 h
    simp only [h1]; exact h3

theorem extentBytes_length (tid : Nat) (np : Bool) (body : List Byte) :
    (extentBytes tid np body).length = extentHeaderSize tid + body.length := by
  unfold extentBytes extentHeaderSize
  generalize extentId tid = x
  obtain ⟨a, n, i⟩ := x
  simp [le_length]; omega

theorem extentHeaderSize_le {tid : Nat} (h : tid < 2 ^ 32) :
    5 ≤ extentHeaderSize tid ∧ extentHeaderSize tid ≤ 9 := by
  have := extentId_length h
  unfold extentHeaderSize
  omega

/-- The first byte of an extent. -/
theorem extent_first (tid : Nat) (np : Bool) (h : tid < 2 ^ 32) :
    ∃ b : Byte, (∀ body, extentBytes tid np body =
        b :: (le 4 (extentHeaderSize tid + body.length) ++ ((extentId tid).2.2 ++ body))) ∧
      entryType b = .extent ∧ decide (b.toNat / 4 % 2 = 1) = np ∧
      (if b.toNat / 8 % 2 = 1 then b.toNat / 16 = tid ∧ (extentId tid).2.2 = []
       else ∀ rest, unpackInt .u32 (b.toNat / 16) ((extentId tid).2.2 ++ rest)
         = some ((tid : Int), rest)) := by
  have hsh : (if tid < 16 then (true, tid % 16, ([] : List Byte)) else
      (false, (packU 4 tid).1 % 16, (packU 4 tid).2)) = extentId tid := rfl
  by_cases ht : tid < 16
  · have hx : extentId tid = (true, tid % 16, []) := by rw [← hsh, if_pos ht]
    generalize hb : 2 + (if np then 4 else 0) + 8 + 16 * (tid % 16) = b
    have hlt : b < 256 := by rw [← hb]; cases np <;> simp <;> omega
    have hbn := ofNat_toNat_lt hlt
    refine ⟨UInt8.ofNat b, ?_, ?_, ?_, ?_⟩
    · intro body
      simp [extentBytes, hx, hb, extentHeaderSize]
    · apply entryType_extent; rw [hbn, ← hb]; cases np <;> simp <;> omega
    · rw [hbn, ← hb]; cases np <;> simp <;> omega
    · rw [hbn, if_pos (by rw [← hb]; cases np <;> simp <;> omega), hx]
      exact ⟨by rw [← hb]; cases np <;> simp <;> omega, rfl⟩
  · have hx : extentId tid = (false, (packU 4 tid).1 % 16, (packU 4 tid).2) := by
      rw [← hsh, if_neg ht]
    have hn4 := numBytes_le4 h
    have hp : (packU 4 tid).1 = numBytes tid := rfl
    generalize hb : 2 + (if np then 4 else 0) + 0 + 16 * ((packU 4 tid).1 % 16) = b
    have hlt : b < 256 := by rw [← hb, hp]; cases np <;> simp <;> omega
    have hbn := ofNat_toNat_lt hlt
    refine ⟨UInt8.ofNat b, ?_, ?_, ?_, ?_⟩
    · intro body
      have hb' := hb
      simp only [Nat.add_zero] at hb'
      simp [extentBytes, hx, hb', extentHeaderSize]
    · apply entryType_extent; rw [hbn, ← hb]; cases np <;> simp <;> omega
    · rw [hbn, ← hb]; cases np <;> simp <;> omega
    · rw [hbn, if_neg (by rw [← hb]; cases np <;> simp <;> omega), hx]
      intro rest
      have e0 := unpackInt_packU (sz := 4) (v := tid) .u32 rest (by simpa using h)
        (by omega) (by omega)
      have e1 : b / 16 = (packU 4 tid).1 := by rw [← hb, hp]; cases np <;> simp <;> omega
      rw [e1]
      refine e0.trans ?_
      have e2 : ITy.u32.cast (ITy.i64.cast (tid : Int)) = tid := by
        clear e0 e1 hb hbn hlt hp hx hsh hn4
        simp [ITy.cast, ITy.signed, ITy.bytes]; omega
      rw [e2]

/-- Reading an extent back, in closed form. -/
theorem readBufferExtent_ok (bf : BufFrag) {tid : Nat} (np : Bool) (body rest : List Byte) (e : Bool)
    (ht : tid < 2 ^ 32) (hc : (extentBytes tid np body).length ≤ bf.stor.length)
    (h32 : (extentBytes tid np body).length < 2 ^ 32) :
    readBufferExtent bf ⟨extentBytes tid np body ++ rest, e⟩ =
      match (if body = [] then
          some (true, { bf with
            stor := overlay (extentBytes tid np body) bf.stor, tid := tid
            mem := bf.stor.drop (extentBytes tid np body).length, left := 0, hasMore := false })
        else
          match decompressLogHeader 0
              (body ++ bf.stor.drop (extentBytes tid np body).length) with
          | none => none
          | some .bad => some (false, BufFrag.reset { bf with
              stor := overlay (extentBytes tid np body) bf.stor, tid := tid })
          | some (.ok id ts r) => some (true,
            { stor := overlay (extentBytes tid np body) bf.stor, tid := tid, mem := r
              left := (body.length : Int) - (((body ++ bf.stor.drop
                (extentBytes tid np body).length).length : Int) - r.length)
              hasMore := true, id := id, ts := ts })) with
      | none => none
      | some (ok, bf') => some (ok, np, bf', ⟨rest, e⟩) := by
  obtain ⟨b, hb, he, hnp, htid⟩ := extent_first tid np ht
  have hlen := extentBytes_length tid np body
  have h5 := (extentHeaderSize_le ht).1
  generalize hL : extentHeaderSize tid + body.length = L at *
  have hhdr : extentBytes tid np body ++ rest =
      (b :: le 4 L) ++ (((extentId tid).2.2 ++ body) ++ rest) := by
    rw [hb, hL]; simp
  have hul : unle (le 4 L) = L := unle_le_of_lt (by simp; omega)
  rw [readBufferExtent, hhdr, read_append' _ _ _ (by simp [le_length])]
  have hbl : ((extentId tid).2.2 ++ body).length = L - 5 := by
    simp [extentHeaderSize] at hL ⊢; omega
  simp only
  rw [if_neg (by simp [he, le_length, hul]; omega), hul, if_neg (by omega), read_append' _ _ _ hbl]
  simp only
  rw [if_neg (by omega)]
  have hfull : b :: le 4 L ++ ((extentId tid).2.2 ++ body) = extentBytes tid np body := by
    rw [hb, hL]; simp
  rw [hfull]
  have hov : (overlay (extentBytes tid np body) bf.stor).drop 5 =
      (extentId tid).2.2 ++ (body ++ bf.stor.drop L) := by
    rw [overlay, hlen, ← hfull]
    have : (5 : Nat) = (b :: le 4 L).length := by simp [le_length]
    rw [this, List.append_assoc, List.drop_left]
    simp
  have hovl : (overlay (extentBytes tid np body) bf.stor).length = bf.stor.length := by
    simp [overlay]; omega
  have hfirst : (if b.toNat / 8 % 2 = 1 then some (b.toNat / 16,
        (overlay (extentBytes tid np body) bf.stor).drop 5)
      else do
        let (v, m) ← unpackInt .u32 (b.toNat / 16)
          ((overlay (extentBytes tid np body) bf.stor).drop 5)
        some (v.toNat, m)) = some (tid, body ++ bf.stor.drop L) := by
    rw [hov]
    split at htid
    · rename_i hs
      rw [if_pos hs, htid.1, htid.2]; rfl
    · rename_i hs
      rw [if_neg hs, htid]; rfl
  rw [BufFrag.start]
  simp only [hfirst]
  have hleft : ((extentBytes tid np body).length : Int) -
      (((overlay (extentBytes tid np body) bf.stor).length : Int) -
        ((body ++ bf.stor.drop L).length : Nat)) = body.length := by
    rw [hovl, hlen]; simp; omega
  rw [hleft]
  by_cases hbody : body = []
  · subst hbody
    simp [hlen, hnp]
  · have hne : ¬ ((body.length : Int) = 0) := by
      simp [List.length_eq_zero_iff]; exact hbody
    rw [if_neg hne, if_neg hbody, hlen]
    cases hd : decompressLogHeader 0 (body ++ bf.stor.drop L) with
    | none => rfl
    | some h => cases h <;> simp [hnp]

end NanoLog
