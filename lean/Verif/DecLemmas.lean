import Verif.EncLemmas

/-! Helper lemmas about decoding extents and dictionaries. -/

namespace NanoLog

/-! ## Dictionary -/

theorem describes_empty : Describes Dict.empty [] := ⟨rfl, rfl⟩

theorem microOf_supported {s : Site} {is : List FItem} (h : s.Supported is) :
    microOf s = some { file := s.info.file, line := s.info.line, level := s.info.sev
                       numNibbles := numNibblesNeeded (itemParams is)
                       frags := formatFrags (pieces is) } := by
  rw [microOf, h.fmt]
  exact createMicroCode_items h.wf _ _ _ h.nibbles h.frags

theorem Describes.lookup {d : Dict} {sites : List Site} (h : Describes d sites) {id : Nat}
    {s : Site} (hs : sites[id]? = some s) : d.lookup id = microOf s := by
  have hlt : id < sites.length := by
    by_contra hn; rw [List.getElem?_eq_none (by omega)] at hs; cases hs
  have h2 : (sites.map microOf)[id]? = some (microOf s) := by simp [hs]
  rw [h.2, List.getElem?_map] at h2
  simp only [Dict.lookup, h.1, List.getElem?_range hlt, Option.bind_eq_bind, Option.bind_some]
  cases hm : d.metas[id]? with
  | none => simp [hm] at h2
  | some m => simpa [hm] using h2

theorem Describes.add {d : Dict} {sites : List Site} (h : Describes d sites) {s : Site}
    {is : List FItem} (hs : s.Supported is) : Describes (d.add s.info) (sites ++ [s]) := by
  have hm := microOf_supported hs
  have hl : sites.length = d.metas.length := by
    have := congrArg List.length h.2; simpa using this
  have hm' := hm
  rw [microOf] at hm
  refine ⟨?_, ?_⟩
  · simp only [Dict.add, hm, h.1, ← hl, List.length_append, List.length_singleton,
      List.range_succ]
  · simp only [Dict.add, hm, List.map_append, h.2, List.map_cons, List.map_nil, hm']

theorem takeCStr_nul {s : List Byte} (h : ∀ b ∈ s, b ≠ 0) :
    takeCStr (s ++ [0]) = some (s, []) := by
  have := takeCStr_append h []
  simpa using this

theorem logInfoBytes_length (i : LogInfo) : (logInfoBytes i).length = logInfoSize i := by
  simp only [logInfoBytes, logInfoSize, List.length_append, le_length, List.length_singleton]

theorem Site.Supported.fits {s : Site} {is : List FItem} (hs : s.Supported is) : s.info.Fits :=
  ⟨hs.fileLen, hs.fmtLen, hs.fileNul, hs.fmtNul, hs.line, hs.sev⟩

theorem readLogInfo_ok {i : LogInfo} (hs : i.Fits) (rest : List Byte) (e : Bool) :
    readLogInfo ⟨logInfoBytes i ++ rest, e⟩ = some (some (i, logInfoSize i), ⟨rest, e⟩) := by
  have hb : logInfoBytes i ++ rest =
      (le 1 i.sev ++ (le 4 i.line ++ (le 2 (i.file.length + 1) ++
        le 2 (i.fmt.length + 1)))) ++
      ((i.file ++ [0]) ++ ((i.fmt ++ [0]) ++ rest)) := by
    simp [logInfoBytes]
  have h1 : unle (le 1 i.sev) = i.sev := unle_le_of_lt (by simpa using hs.sev)
  have h2 : unle (le 4 i.line) = i.line := unle_le_of_lt (by simpa using hs.line)
  have h3 : unle (le 2 (i.file.length + 1)) = i.file.length + 1 :=
    unle_le_of_lt (by have := hs.fileLen; simp; omega)
  have h4 : unle (le 2 (i.fmt.length + 1)) = i.fmt.length + 1 :=
    unle_le_of_lt (by have := hs.fmtLen; simp; omega)
  rw [readLogInfo, hb, read_append' _ _ _ (by simp [le_length])]
  simp only
  rw [if_neg (by simp [le_length])]
  have d1 : (le 1 i.sev ++ (le 4 i.line ++ (le 2 (i.file.length + 1) ++
        le 2 (i.fmt.length + 1)))).drop 1 = le 4 i.line ++
        (le 2 (i.file.length + 1) ++ le 2 (i.fmt.length + 1)) :=
    List.drop_left' (by simp [le_length])
  have d5 : (le 1 i.sev ++ (le 4 i.line ++ (le 2 (i.file.length + 1) ++
        le 2 (i.fmt.length + 1)))).drop 5 =
        (le 2 (i.file.length + 1) ++ le 2 (i.fmt.length + 1)) := by
    rw [← List.append_assoc]
    exact List.drop_left' (by simp [le_length])
  have d7 : (le 1 i.sev ++ (le 4 i.line ++ (le 2 (i.file.length + 1) ++
        le 2 (i.fmt.length + 1)))).drop 7 = le 2 (i.fmt.length + 1) := by
    rw [← List.append_assoc, ← List.append_assoc]
    exact List.drop_left' (by simp [le_length])
  have t1 : (le 1 i.sev ++ (le 4 i.line ++ (le 2 (i.file.length + 1) ++
        le 2 (i.fmt.length + 1)))).take 1 = le 1 i.sev :=
    List.take_left' (by simp [le_length])
  have t4 : (le 4 i.line ++ (le 2 (i.file.length + 1) ++
        le 2 (i.fmt.length + 1))).take 4 = le 4 i.line :=
    List.take_left' (by simp [le_length])
  have t2 : (le 2 (i.file.length + 1) ++ le 2 (i.fmt.length + 1)).take 2 =
      le 2 (i.file.length + 1) := List.take_left' (by simp [le_length])
  rw [d1, d5, d7, t1, t4, t2, h1, h2, h3, h4]
  rw [read_append' _ _ _ (by simp)]
  simp only
  rw [read_append' _ _ _ (by simp)]
  simp only
  rw [if_neg (by simp)]
  simp only [takeCStr_nul hs.fileNul, takeCStr_nul hs.fmtNul, logInfoSize]

/-- The sites all have formats the decoder understands. -/
def AllSupported (sites : List Site) : Prop := ∀ s ∈ sites, ∃ is, s.Supported is

theorem readDictLoop_ok {new : List Site} (hn : AllSupported new) (fuel : Nat)
    (hf : new.length < fuel) (done total : Nat) (d : Dict) {sites : List Site}
    (hd : Describes d sites) (rest : List Byte)
    (ht : total = done + (new.flatMap fun s => logInfoBytes s.info).length) :
    ∃ d', readDictLoop fuel done total d ⟨(new.flatMap fun s => logInfoBytes s.info) ++ rest, false⟩ =
      some (true, d', ⟨rest, false⟩) ∧ Describes d' (sites ++ new) := by
  induction new generalizing fuel done d sites with
  | nil =>
    cases fuel with
    | zero => simp at hf
    | succ fuel =>
      have : total = done := by simpa using ht
      exact ⟨d, by simp [readDictLoop, this], by simpa using hd⟩
  | cons s new ih =>
    cases fuel with
    | zero => simp at hf
    | succ fuel =>
      obtain ⟨is, hs⟩ := hn s (by simp)
      have hl := logInfoBytes_length s.info
      have hpos : 0 < logInfoSize s.info := by simp only [logInfoSize]; omega
      simp only [List.flatMap_cons, List.length_append] at ht
      obtain ⟨d', h1, h2⟩ := ih (fun x hx => hn x (by simp [hx])) fuel (by simp at hf; omega)
        (done + logInfoSize s.info) (d.add s.info) (hd.add hs) (by omega)
      refine ⟨d', ?_, by simpa using h2⟩
      simp only [readDictLoop, List.flatMap_cons, List.append_assoc]
      rw [if_pos ⟨by omega, trivial⟩, readLogInfo_ok hs.fits]
      exact h1

/-- Dictionary fragment bytes, in closed form. -/
def dictBytes (total : Nat) (new : List Site) : List Byte :=
  le 4 (1 + 4 * ((8 + (new.flatMap fun s => logInfoBytes s.info).length) % 2 ^ 30)) ++
    le 4 total ++ new.flatMap fun s => logInfoBytes s.info

theorem flatMap_length_le {new : List Site} :
    new.length ≤ (new.flatMap fun s => logInfoBytes s.info).length := by
  induction new with
  | nil => simp
  | cons s new ih =>
    have := logInfoBytes_length s.info
    simp only [logInfoSize] at this
    simp only [List.flatMap_cons, List.length_append, List.length_cons]
    omega

theorem readDictionaryFragment_ok {new : List Site} (hn : AllSupported new) (total : Nat)
    (hlen : (dictBytes total new).length < 2 ^ 30) (d : Dict) {sites : List Site}
    (hd : Describes d sites) (rest : List Byte) :
    ∃ d', readDictionaryFragment d ⟨dictBytes total new ++ rest, false⟩ =
      some (true, d', ⟨rest, false⟩) ∧ Describes d' (sites ++ new) := by
  have hL : 8 + (new.flatMap fun s => logInfoBytes s.info).length < 2 ^ 30 := by
    simp only [dictBytes, List.length_append, le_length] at hlen; omega
  have hmod := Nat.mod_eq_of_lt hL
  have h1 : unle (le 4 (1 + 4 * (8 + (new.flatMap fun s => logInfoBytes s.info).length))) / 4 =
      8 + (new.flatMap fun s => logInfoBytes s.info).length := by
    rw [unle_le_of_lt (by rw [show 256 ^ 4 = 2 ^ 32 by rfl]; omega)]; omega
  obtain ⟨d', h2, h3⟩ := readDictLoop_ok hn
    (((new.flatMap fun s => logInfoBytes s.info) ++ rest).length + 1)
    (by have := flatMap_length_le (new := new); simp only [List.length_append]; omega) 8 _ d hd rest rfl
  refine ⟨d', ?_, h3⟩
  rw [readDictionaryFragment, dictBytes, hmod, List.append_assoc,
    read_append' _ _ _ (by simp [le_length])]
  simp only
  rw [if_neg (by simp [le_length]), List.take_left' (by simp [le_length]), h1]
  exact h2

/-! ## Extents -/

/-- The fragment is positioned at the messages `cs`: the header of the first one has been
read, nothing is left if there are none. -/
def At (sites : List Site) (bf : BufFrag) : List LogCall → Prop
  | [] => bf.hasMore = false
  | c :: cs => bf.hasMore = true ∧ bf.id = c.id ∧ bf.ts = c.ts ∧
      ∃ s junk body tail, c.OK sites s ∧ Matches s.params c.args ∧
        bf.mem = argsOut junk s.params c.args ++ (body ++ tail) ∧
        bf.left = ((argsOut junk s.params c.args ++ body).length : Nat) ∧
        Encoded sites c.ts cs body

theorem Encoded.nil_iff {sites : List Site} {last : Nat} {cs : List LogCall} {bs : List Byte}
    (h : Encoded sites last cs bs) : bs = [] ↔ cs = [] := by
  cases h with
  | nil => simp
  | @cons _ junk c s cs bs ok hm ht =>
    have := (msgOut_length ok hm junk last).1
    simp only [List.append_eq_nil_iff, reduceCtorEq, iff_false]
    rintro ⟨h, -⟩
    rw [h] at this
    simp at this

theorem readBufferExtent_at (bf : BufFrag) {sites : List Site} {cs : List LogCall}
    {body : List Byte} (he : Encoded sites 0 cs body) {tid : Nat} (np : Bool) (rest : List Byte)
    (e : Bool) (ht : tid < 2 ^ 32)
    (hc : (extentBytes tid np body).length ≤ bf.stor.length)
    (h32 : (extentBytes tid np body).length < 2 ^ 32) :
    ∃ bf', readBufferExtent bf ⟨extentBytes tid np body ++ rest, e⟩ =
        some (true, np, bf', ⟨rest, e⟩) ∧ At sites bf' cs ∧ bf'.tid = tid ∧
      bf'.stor.length = bf.stor.length := by
  have hr := readBufferExtent_ok bf np body rest e ht hc h32
  have hst : (overlay (extentBytes tid np body) bf.stor).length = bf.stor.length := by
    simp [overlay]; omega
  cases he with
  | nil =>
    rw [if_pos rfl] at hr
    exact ⟨_, hr, rfl, rfl, hst⟩
  | @cons _ junk c s cs bs ok hm hb =>
    have hne : ¬ msgOut junk 0 s c ++ bs = [] := by
      rw [(Encoded.cons (last := 0) (junk := junk) ok hm hb).nil_iff]; simp
    have hh := header_round_trip (last := 0) ok.id ok.ts
      (argsOut junk s.params c.args ++ (bs ++ bf.stor.drop
        (extentBytes tid np (msgOut junk 0 s c ++ bs)).length))
    have e1 : msgOut junk 0 s c ++ bs ++ bf.stor.drop
        (extentBytes tid np (msgOut junk 0 s c ++ bs)).length =
        compressLogHeader c.id c.ts 0 ++ (argsOut junk s.params c.args ++ (bs ++ bf.stor.drop
        (extentBytes tid np (msgOut junk 0 s c ++ bs)).length)) := by
      simp [msgOut]
    rw [if_neg hne, e1, hh] at hr
    refine ⟨_, hr, ⟨rfl, rfl, rfl, s, junk, bs, _, ok, hm, rfl, ?_, hb⟩, rfl, hst⟩
    simp only [msgOut, List.length_append]
    push_cast; omega

theorem decompressNext_at {sites : List Site} {ck : Checkpoint} {d : Dict} {bf : BufFrag}
    {c : LogCall} {cs : List LogCall} {m : OutMsg} (hd : Describes d sites)
    (ha : At sites bf (c :: cs)) (hp : Prints sites bf.tid ck c m) :
    ∃ bf', decompressNext ck d bf = some (some m, bf') ∧ At sites bf' cs ∧ bf'.tid = bf.tid ∧
      bf'.stor.length = bf.stor.length := by
  obtain ⟨hmore, hid, hts, s', junk, body, tail, ok', hm, hmem, hleft, henc⟩ := ha
  cases hp with
  | @mk s is ds ok sup pr =>
  have hss : s' = s := by
    have := ok.site; rw [ok'.site] at this; exact Option.some.inj this
  subst hss
  have hps : formatParams (pieces is) = s'.params := by rw [pieces_params, sup.params]
  have hsz : argAllocSize (formatParams (pieces is)) c.args < 2 ^ 32 := by
    have := ok.size; simp only [LogCall.size] at this; rw [hps]; omega
  have hdec : decodeArgs (numNibblesNeeded (itemParams is)) (formatFrags (pieces is))
      (argsOut junk s'.params c.args ++ (body ++ tail)) = some (ds, body ++ tail) := by
    have hv := items_valid (ps := formatParams (pieces is)) initPrecision ok.valid
    have hl := items_scalars_length pr.matches initPrecision
    obtain ⟨nb, h1, h2⟩ := NibAt.new (junk := junk)
      (itemStrs (items (formatParams (pieces is)) initPrecision c.args) ++ (body ++ tail)) hv
    have := decodeFrags_ok pr ok.valid initPrecision nb _ (body ++ tail) h2
    rw [hl, pieces_params] at h1
    rw [argsOut, ← hps, List.append_assoc]
    rw [pieces_params] at this ⊢
    simp only [decodeArgs, h1, Option.bind_eq_bind, Option.bind_some, this]
  have hlook : d.lookup bf.id = microOf s' := by rw [hid, hd.lookup ok.site]
  rw [microOf_supported sup] at hlook
  have hl0 : ¬ (bf.left < 0 ∨ bf.hasMore = false) := by simp [hmore, hleft]; omega
  have hle : bf.left - ((bf.mem.length : Int) - (body ++ tail).length) = body.length := by
    rw [hleft, hmem]; simp only [List.length_append]; push_cast; omega
  rw [decompressNext, if_neg hl0, hlook]
  simp only
  rw [hmem] at hle ⊢
  rw [hdec]
  simp only [hle, hid, hts]
  cases henc with
  | nil =>
    rw [if_pos (by simp)]
    exact ⟨_, rfl, by simp [At], rfl, rfl⟩
  | @cons _ junk2 c2 s2 cs2 bs2 ok2 hm2 ht2 =>
    have hpos := (msgOut_length ok2 hm2 junk2 c.ts).1
    have hh := header_round_trip (last := c.ts) ok2.id ok2.ts
      (argsOut junk2 s2.params c2.args ++ (bs2 ++ tail))
    have e1 : msgOut junk2 c.ts s2 c2 ++ bs2 ++ tail =
        compressLogHeader c2.id c2.ts c.ts ++
          (argsOut junk2 s2.params c2.args ++ (bs2 ++ tail)) := by simp [msgOut]
    rw [if_neg (by simp only [List.length_append]; push_cast; omega), e1, hh]
    refine ⟨_, rfl, ⟨rfl, rfl, rfl, s2, junk2, bs2, tail, ok2, hm2, rfl, ?_, ht2⟩, rfl, rfl⟩
    simp only [msgOut, List.length_append]
    push_cast; omega

theorem drain_at {sites : List Site} {ck : Checkpoint} {d : Dict} (hd : Describes d sites)
    {tid : Nat} {cs : List LogCall} {ms : List OutMsg}
    (hp : List.Forall₂ (Prints sites tid ck) cs ms) (fuel : Nat) (hf : cs.length ≤ fuel)
    (bf : BufFrag) (out : List OutMsg) (ha : At sites bf cs) (ht : bf.tid = tid) :
    ∃ bf', drain ck d fuel bf out = some (bf', out ++ ms) ∧ bf'.hasMore = false ∧
      bf'.stor.length = bf.stor.length := by
  induction hp generalizing fuel bf out with
  | nil =>
    have hm : bf.hasMore = false := ha
    exact ⟨bf, by cases fuel <;> simp [drain, hm], hm, rfl⟩
  | @cons c m cs ms h hrest ih =>
    cases fuel with
    | zero => simp at hf
    | succ fuel =>
      have hm : bf.hasMore = true := ha.1
      obtain ⟨bf', h1, h2, h3, h4⟩ := decompressNext_at hd ha (by rw [ht]; exact h)
      obtain ⟨bf'', h5, h6, h7⟩ := ih fuel (by simp at hf; omega) bf' (out ++ [m]) h2
        (by rw [h3, ht])
      refine ⟨bf'', ?_, h6, by rw [h7, h4]⟩
      simp only [drain, hm, if_true, h1, Option.toList_some, h5]
      simp

theorem Encoded.length_le {sites : List Site} {last : Nat} {cs : List LogCall} {bs : List Byte}
    (h : Encoded sites last cs bs) : cs.length ≤ bs.length := by
  induction h with
  | nil => simp
  | @cons last junk c s cs bs ok hm ht ih =>
    have := (msgOut_length ok hm junk last).1
    simp only [List.length_cons, List.length_append]; omega

theorem At.length_le {sites : List Site} {bf : BufFrag} {cs : List LogCall}
    (h : At sites bf cs) : cs.length ≤ bf.mem.length + 1 := by
  cases cs with
  | nil => simp
  | cons c cs =>
    obtain ⟨_, _, _, s, junk, body, tail, _, _, hmem, _, henc⟩ := h
    have := henc.length_le
    rw [hmem]; simp only [List.length_append, List.length_cons]; omega

end NanoLog
