import Verif.FileSpec
import Verif.DecLemmas

/-! Helper lemmas about whole log files. -/

namespace NanoLog

/-! ## Records -/

/-- The records of a log file. -/
inductive Rec where
  | ckpt (junk : Nat) (c : Checkpoint)
  | dict (total : Nat) (new : List Site)
  | ext (tid : Nat) (np : Bool) (cs : List LogCall) (body : List Byte)
  | pad (bs : List Byte)

/-- Bytes of a record. -/
def Rec.bytes : Rec → List Byte
  | .ckpt junk c => checkpointBytes junk c
  | .dict total new => dictBytes total new
  | .ext tid np _ body => extentBytes tid np body
  | .pad bs => bs

/-- Bytes of a sequence of records. -/
def recBytes (rs : List Rec) : List Byte := rs.flatMap Rec.bytes

/-- Well-formed records and the messages they hold, for a decoder with extent storage
`cap`, current checkpoint and known statements. -/
inductive Holds (cap : Nat) : Checkpoint → List Site → List Rec → List OutMsg → Prop where
  | nil {ck known} : Holds cap ck known [] []
  | ckpt {ck known junk c rs ms} (hc : c.Plain) (hj : junk < 2 ^ 62)
      (h : Holds cap c [] rs ms) : Holds cap ck known (.ckpt junk c :: rs) ms
  | dict {ck known total new rs ms} (hn : AllSupported new)
      (hl : (dictBytes total new).length < 2 ^ 30)
      (h : Holds cap ck (known ++ new) rs ms) : Holds cap ck known (.dict total new :: rs) ms
  | ext {ck known tid np cs body rs ms' ms} (he : Encoded known 0 cs body)
      (hp : List.Forall₂ (Prints known tid ck) cs ms') (ht : tid < 2 ^ 32)
      (hl : (extentBytes tid np body).length ≤ cap) (hcap : cap < 2 ^ 32)
      (h : Holds cap ck known rs ms) : Holds cap ck known (.ext tid np cs body :: rs) (ms' ++ ms)
  | pad {ck known bs rs ms} (hz : ∀ b ∈ bs, entryType b = .invalid)
      (h : Holds cap ck known rs ms) : Holds cap ck known (.pad bs :: rs) ms

/-! ## First bytes -/

theorem le_succ (n v : Nat) : le (n + 1) v = UInt8.ofNat (v % 256) :: le n (v / 256) := by
  have : UInt8.ofNat (v % 256) = UInt8.ofNat v := by
    apply UInt8.toNat_inj.1; simp
  simp [le, this]

theorem checkpointBytes_length {junk : Nat} {c : Checkpoint} (h : c.Valid) :
    (checkpointBytes junk c).length = 40 := by
  simp [checkpointBytes, le_length, h.2.2.1]

theorem checkpointBytes_head (junk : Nat) (c : Checkpoint) :
    ∃ b bs, checkpointBytes junk c = b :: bs ∧ entryType b = .checkpoint := by
  rw [checkpointBytes, le_succ]
  refine ⟨_, _, rfl, entryType_checkpoint ?_⟩
  rw [ofNat_toNat_lt (by omega)]; omega

theorem dictBytes_head (total : Nat) (new : List Site) :
    ∃ b bs, dictBytes total new = b :: bs ∧ entryType b = .dict := by
  rw [dictBytes, le_succ]
  refine ⟨_, _, rfl, entryType_dict ?_⟩
  rw [ofNat_toNat_lt (by omega)]; omega

theorem extentBytes_head (tid : Nat) (np : Bool) (body : List Byte) (ht : tid < 2 ^ 32) :
    ∃ b bs, extentBytes tid np body = b :: bs ∧ entryType b = .extent := by
  obtain ⟨b, hb, he, -⟩ := extent_first tid np ht
  exact ⟨b, _, hb body, he⟩

theorem parseCheckpoint_ok {junk : Nat} {c : Checkpoint} (h : c.Valid) :
    parseCheckpoint (checkpointBytes junk c) = some c := by
  obtain ⟨h1, h2, h3, h4, h5⟩ := h
  have e1 : unle (le 8 c.rdtsc) = c.rdtsc := unle_le_of_lt (by simpa using h1)
  have e2 : ITy.i64.cast (unle (le 8 (c.unixTime % 2 ^ 64).toNat)) = c.unixTime := by
    have hr : (c.unixTime % 2 ^ 64).toNat < 2 ^ 64 := by omega
    rw [unle_le_of_lt (by simpa using hr)]
    simp [ITy.InRange, ITy.lo, ITy.hi, ITy.signed, ITy.bytes] at h2
    simp [ITy.cast, ITy.signed, ITy.bytes]
    omega
  have e4 : unle (le 4 c.newBytes) = c.newBytes := unle_le_of_lt (by simpa using h4)
  have e5 : unle (le 4 c.total) = c.total := unle_le_of_lt (by simpa using h5)
  have e6 : takeN 4 (le 4 c.total) = some (le 4 c.total, []) := by
    have := takeN_le 4 c.total []
    simpa using this
  simp only [checkpointBytes, parseCheckpoint, List.append_assoc, takeN_le, Option.bind_eq_bind,
    Option.bind_some, takeN_append' _ _ h3, e6, e1, e2, e4, e5]

theorem readDictionary_ok {junk : Nat} {c : Checkpoint} (h : c.Plain) (ck : Checkpoint) (d : Dict)
    (rest : List Byte) (e : Bool) :
    readDictionary ck d ⟨checkpointBytes junk c ++ rest, e⟩ =
      some (true, c, Dict.empty, ⟨rest, e⟩) := by
  have hl := checkpointBytes_length (junk := junk) h.1
  obtain ⟨b, bs, hb, ht⟩ := checkpointBytes_head junk c
  rw [readDictionary, read_append' _ _ _ hl]
  simp only [hl, parseCheckpoint_ok h.1]
  simp [hb, ht, h.2.1, h.2.2]

/-! ## Fuel -/

/-- Progress measure of the reading loops: unread bytes, plus one until the end of file has
been noticed. -/
def FileSt.measure (f : FileSt) : Nat := f.inp.length + if f.eof then 0 else 1

theorem read_measure (n : Nat) (f : FileSt) : (f.read n).2.measure ≤ f.measure := by
  unfold FileSt.read FileSt.measure
  split
  · simp
  · simp only [List.length_nil, if_true]; split <;> omega

theorem read_measure_lt {n : Nat} (hn : 1 ≤ n) {f : FileSt} (hf : f.inp ≠ []) :
    (f.read n).2.measure < f.measure := by
  have hl : 1 ≤ f.inp.length := by
    rcases hi : f.inp with _ | ⟨b, bs⟩
    · exact absurd hi hf
    · simp
  unfold FileSt.read FileSt.measure
  split
  · simp only [List.length_drop]; omega
  · simp only [List.length_nil, if_true]; split <;> omega

theorem skipPad_measure (f : FileSt) : f.skipPad.measure ≤ f.measure := by
  unfold FileSt.skipPad
  split
  · exact Nat.le_refl _
  · rename_i he
    have hlen : (f.inp.dropWhile (fun b => decide (entryType b = .invalid))).length ≤ f.inp.length :=
      (List.dropWhile_suffix _).length_le
    split
    · simp [FileSt.measure]
    · rename_i h
      simp only [FileSt.measure] at *
      simp only [he, Bool.false_eq_true, if_false] at *
      omega

theorem readBufferExtent_measure {bf bf' : BufFrag} {f f' : FileSt} {ok np : Bool}
    (hf : f.inp ≠ []) (h : readBufferExtent bf f = some (ok, np, bf', f')) :
    f'.measure < f.measure := by
  have h1 := read_measure_lt (n := 5) (by omega) hf
  unfold readBufferExtent at h
  generalize hr : f.read 5 = r at h h1
  obtain ⟨hdr, f1⟩ := r
  simp only at h h1
  cases hdr with
  | nil => simp at h; rw [← h.2.2.2]; exact h1
  | cons b lenB =>
    simp only at h
    split at h
    · simp at h; rw [← h.2.2.2]; exact h1
    · split at h
      · simp at h
      · have h2 := read_measure (unle lenB - 5) f1
        split at h
        · simp at h; rw [← h.2.2.2]; omega
        · split at h
          · simp at h
          · simp at h; rw [← h.2.2.2]; omega

theorem readDictLoop_measure {fuel done total : Nat} {d d' : Dict} {f f' : FileSt} {ok : Bool}
    (h : readDictLoop fuel done total d f = some (ok, d', f')) : f'.measure ≤ f.measure := by
  induction fuel generalizing done d f with
  | zero => simp [readDictLoop] at h; rw [h.2.2]; exact Nat.le_refl _
  | succ fuel ih =>
    have hi : ∀ {f f1 : FileSt} {o}, readLogInfo f = some (o, f1) → f1.measure ≤ f.measure := by
      intro f f1 o h
      have m1 := read_measure 9 f
      unfold readLogInfo at h
      generalize f.read 9 = r at h m1
      obtain ⟨cli, g1⟩ := r
      simp only at h m1
      split at h
      · simp at h; rw [← h.2]; exact m1
      · have m2 := read_measure (unle ((cli.drop 5).take 2)) g1
        generalize g1.read (unle ((cli.drop 5).take 2)) = r at h m2
        obtain ⟨fb, g2⟩ := r
        have m3 := read_measure (unle (cli.drop 7)) g2
        simp only at h m2
        generalize g2.read (unle (cli.drop 7)) = r at h m3
        obtain ⟨mb, g3⟩ := r
        simp only at h m3
        split at h
        · simp at h; rw [← h.2]; omega
        · split at h
          · simp at h; rw [← h.2]; omega
          · simp at h
    simp only [readDictLoop] at h
    split at h
    · split at h
      · simp at h
      · rename_i f1 hr
        simp at h; rw [← h.2.2]; exact hi hr
      · rename_i i n f1 hr
        have := ih h
        have := hi hr
        omega
    · simp at h; rw [h.2.2]; exact Nat.le_refl _

theorem readDictionaryFragment_measure {d d' : Dict} {f f' : FileSt} {ok : Bool}
    (hf : f.inp ≠ []) (h : readDictionaryFragment d f = some (ok, d', f')) :
    f'.measure < f.measure := by
  have h1 := read_measure_lt (n := 8) (by omega) hf
  unfold readDictionaryFragment at h
  generalize f.read 8 = r at h h1
  obtain ⟨hdr, f1⟩ := r
  simp only at h h1
  split at h
  · simp at h; rw [← h.2.2]; exact h1
  · have := readDictLoop_measure h; omega

theorem readDictionary_measure {ck ck' : Checkpoint} {d d' : Dict} {f f' : FileSt} {ok : Bool}
    (hf : f.inp ≠ []) (h : readDictionary ck d f = some (ok, ck', d', f')) :
    f'.measure < f.measure := by
  have h1 := read_measure_lt (n := 40) (by omega) hf
  unfold readDictionary at h
  generalize f.read 40 = r at h h1
  obtain ⟨bs, f1⟩ := r
  simp only at h h1
  split at h
  · simp at h; rw [← h.2.2.2]; exact h1
  · split at h
    · split at h
      · simp at h
      · split at h
        · simp at h
        · split at h <;> (simp at h; rw [← h.2.2.2]; exact h1)
    · simp at h

theorem skipPad_measure_lt {f : FileSt} (he : f.eof = false)
    (h : (f.peek).1 = .invalid) : (f.peek).2.skipPad.measure < f.measure := by
  unfold FileSt.peek at *
  rcases f with ⟨inp, eof⟩
  simp only at he
  subst he
  cases inp with
  | nil => simp [FileSt.skipPad, FileSt.measure]
  | cons b bs =>
    simp only at h ⊢
    have hlen : (bs.dropWhile (fun b => decide (entryType b = .invalid))).length ≤ bs.length :=
      (List.dropWhile_suffix _).length_le
    unfold FileSt.skipPad
    simp only [Bool.false_eq_true, if_false, List.dropWhile_cons, h, decide_true, if_true]
    split
    · simp [FileSt.measure]
    · simp only [FileSt.measure, List.length_cons]; simp only [Bool.false_eq_true, if_false]; omega

theorem unorderedStep_measure {s s' : Dec} (he : s.file.eof = false)
    (h : unorderedStep s = some s') : s'.file.measure < s.file.measure := by
  unfold unorderedStep at h
  have hp := skipPad_measure_lt (f := s.file) he
  have hne : (s.file.peek).1 ≠ .invalid → s.file.inp ≠ [] ∧ (s.file.peek).2 = s.file := by
    unfold FileSt.peek
    cases hi : s.file.inp with
    | nil => simp
    | cons b bs => simp
  generalize s.file.peek = p at h hp hne
  obtain ⟨e, f⟩ := p
  simp only at h hp hne
  cases e with
  | extent =>
    obtain ⟨h1, h2⟩ := hne (by simp)
    subst h2
    simp only at h
    split at h
    · simp at h
    · rename_i hr; simp at h; rw [← h]; exact readBufferExtent_measure h1 hr
    · rename_i hr
      split at h
      · simp at h
      · simp at h; rw [← h]; exact readBufferExtent_measure h1 hr
  | checkpoint =>
    obtain ⟨h1, h2⟩ := hne (by simp)
    subst h2
    simp only at h
    split at h
    · simp at h
    · rename_i hr; simp at h; rw [← h]; exact readDictionary_measure h1 hr
  | dict =>
    obtain ⟨h1, h2⟩ := hne (by simp)
    subst h2
    simp only at h
    split at h
    · simp at h
    · rename_i hr; simp at h; rw [← h]; exact readDictionaryFragment_measure h1 hr
  | invalid =>
    simp at h; rw [← h]; exact hp rfl

/-- The fuel given to the unordered loop is always enough: more fuel changes nothing, and
the loop has really ended. -/
theorem unorderedLoop_fuel (n : Nat) (s : Dec) (hn : s.file.measure ≤ n) (k : Nat) :
    unorderedLoop (n + k) s = unorderedLoop n s ∧
    (∀ s', unorderedLoop n s = some s' → ¬ (s'.file.eof = false ∧ s'.good = true)) := by
  induction n generalizing s with
  | zero =>
    have he : s.file.eof = true := by
      unfold FileSt.measure at hn
      cases hh : s.file.eof <;> simp [hh] at hn ⊢
    refine ⟨?_, ?_⟩
    · cases k with
      | zero => rfl
      | succ k => simp [unorderedLoop, he]
    · intro s' h; simp [unorderedLoop] at h; subst h; simp [he]
  | succ n ih =>
    rw [Nat.succ_add]
    simp only [unorderedLoop]
    by_cases hc : s.file.eof = false ∧ s.good = true
    · simp only [hc, and_self, if_true]
      cases hs : unorderedStep s with
      | none => simp
      | some s1 =>
        have := unorderedStep_measure hc.1 hs
        simp only
        exact ih s1 (by omega)
    · rw [if_neg hc, if_neg hc]
      refine ⟨rfl, ?_⟩
      rintro s' h
      simp only [Option.some.injEq] at h; subst h; exact hc

/-- The loop started in `s` ends in `s'`. -/
def URuns (s s' : Dec) : Prop := ∃ n, ∀ k, unorderedLoop (n + k) s = some s'

theorem URuns.loop {s s' : Dec} (h : URuns s s') :
    unorderedLoop (s.file.inp.length + 1) s = some s' := by
  obtain ⟨n, h⟩ := h
  have hm : s.file.measure ≤ s.file.inp.length + 1 := by
    unfold FileSt.measure; split <;> omega
  have := (unorderedLoop_fuel _ s hm n).1
  rw [← this, Nat.add_comm]
  exact h _

theorem URuns.step {s s1 s' : Dec} (he : s.file.eof = false) (hg : s.good = true)
    (h1 : unorderedStep s = some s1) (h : URuns s1 s') : URuns s s' := by
  obtain ⟨n, h⟩ := h
  refine ⟨n + 1, fun k => ?_⟩
  rw [Nat.add_right_comm]
  simp [unorderedLoop, he, hg, h1, h]

theorem URuns.stop {s : Dec} (h : ¬ (s.file.eof = false ∧ s.good = true)) : URuns s s := by
  refine ⟨0, fun k => ?_⟩
  cases k with
  | zero => rfl
  | succ k => rw [Nat.zero_add, unorderedLoop, if_neg h]

theorem URuns.stop_iff {s s' : Dec} (h : ¬ (s.file.eof = false ∧ s.good = true))
    (hr : URuns s s') : s' = s := by
  obtain ⟨n, hr⟩ := hr
  have := hr 1
  rw [unorderedLoop, if_neg h] at this
  exact (Option.some.inj this).symm

theorem URuns.step_inv {s s' : Dec} (he : s.file.eof = false) (hg : s.good = true)
    (hr : URuns s s') : ∃ s1, unorderedStep s = some s1 ∧ URuns s1 s' := by
  obtain ⟨n, hr⟩ := hr
  have h0 := hr 1
  rw [unorderedLoop, if_pos ⟨he, hg⟩] at h0
  cases hs : unorderedStep s with
  | none => simp [hs] at h0
  | some s1 =>
    refine ⟨s1, rfl, n, fun k => ?_⟩
    have := hr (k + 1)
    rw [show n + (k + 1) = (n + k) + 1 by omega, unorderedLoop, if_pos ⟨he, hg⟩, hs] at this
    exact this

/-- Starting at `r` or after the padding in front of `r` makes no difference. -/
theorem URuns.skipPad {s s' : Dec} (he : s.file.eof = false) (hg : s.good = true)
    (hr : URuns s s') : URuns { s with file := s.file.skipPad } s' := by
  cases hi : s.file.inp with
  | nil =>
    obtain ⟨s1, h1, h2⟩ := hr.step_inv he hg
    have : s.file.skipPad = ⟨[], true⟩ := by simp [FileSt.skipPad, he, hi]
    rw [this]
    have e1 : s1 = { s with file := ⟨[], true⟩ } := by
      simp [unorderedStep, FileSt.peek, hi, FileSt.skipPad] at h1
      exact h1.symm
    rw [← e1]; exact h2
  | cons b bs =>
    by_cases hb : entryType b = .invalid
    · obtain ⟨s1, h1, h2⟩ := hr.step_inv he hg
      have e1 : s1 = { s with file := s.file.skipPad } := by
        simp [unorderedStep, FileSt.peek, hi, hb] at h1
        exact h1.symm
      rw [← e1]; exact h2
    · have : s.file.skipPad = s.file := by
        unfold FileSt.skipPad
        rw [hi, List.dropWhile_cons]
        simp only [hb, decide_false, Bool.false_eq_true, if_false, he]
        rw [← hi, ← he]
      rw [this]; exact hr

theorem skipPad_append {bs r : List Byte} (hz : ∀ b ∈ bs, entryType b = .invalid) :
    FileSt.skipPad ⟨bs ++ r, false⟩ = FileSt.skipPad ⟨r, false⟩ := by
  have : (bs ++ r).dropWhile (fun b => decide (entryType b = .invalid)) =
      r.dropWhile (fun b => decide (entryType b = .invalid)) := by
    rw [List.dropWhile_append_of_pos (by simpa using hz)]
  simp [FileSt.skipPad, this]

/-- Checkpoint and known statements after some records. -/
def after (ck : Checkpoint) (known : List Site) : List Rec → Checkpoint × List Site
  | [] => (ck, known)
  | .ckpt _ c :: rs => after c [] rs
  | .dict _ new :: rs => after ck (known ++ new) rs
  | _ :: rs => after ck known rs

/-- Decoding well-formed records followed by any bytes, unordered: the loop reaches the state
in front of these bytes, with the messages delivered. -/
theorem unordered_leads {cap : Nat} {ck : Checkpoint} {known : List Site} {rs : List Rec}
    {ms : List OutMsg} (h : Holds cap ck known rs ms) (tail : List Byte) (s : Dec)
    (hf : s.file = ⟨recBytes rs ++ tail, false⟩) (hg : s.good = true) (hck : s.ck = ck)
    (hd : Describes s.dict known) (hb : s.bf.stor.length = cap) :
    ∃ s1, (∀ s', URuns s1 s' → URuns s s') ∧ s1.out = s.out ++ ms ∧ s1.good = true ∧
      s1.file = ⟨tail, false⟩ ∧ s1.ck = (after ck known rs).1 ∧
      Describes s1.dict (after ck known rs).2 ∧ s1.bf.stor.length = cap := by
  induction h generalizing s with
  | nil => exact ⟨s, fun _ h => h, by simp, hg, by simpa [recBytes] using hf, hck, hd, hb⟩
  | @ckpt ck known junk c rs ms hc hj h ih =>
    have he : s.file.eof = false := by rw [hf]
    obtain ⟨b, bs, hbb, ht⟩ := checkpointBytes_head junk c
    have hfile : s.file = ⟨checkpointBytes junk c ++ (recBytes rs ++ tail), false⟩ := by
      rw [hf]; simp [recBytes, Rec.bytes]
    have hpk : s.file.peek = (.checkpoint, s.file) := by
      rw [hfile]; simp [FileSt.peek, hbb, ht]
    obtain ⟨s1, h1, h2⟩ := ih { s with file := ⟨recBytes rs ++ tail, false⟩, good := true
                                       ck := c, dict := Dict.empty } rfl rfl rfl
      describes_empty hb
    refine ⟨s1, fun s' hr => URuns.step he hg ?_ (h1 s' hr), h2⟩
    simp only [unorderedStep, hpk]
    rw [hfile, readDictionary_ok hc]
  | @dict ck known total new rs ms hn hl h ih =>
    have he : s.file.eof = false := by rw [hf]
    obtain ⟨b, bs, hbb, ht⟩ := dictBytes_head total new
    have hfile : s.file = ⟨dictBytes total new ++ (recBytes rs ++ tail), false⟩ := by
      rw [hf]; simp [recBytes, Rec.bytes]
    have hpk : s.file.peek = (.dict, s.file) := by
      rw [hfile]; simp [FileSt.peek, hbb, ht]
    obtain ⟨d', hd1, hd2⟩ := readDictionaryFragment_ok hn total hl s.dict hd (recBytes rs ++ tail)
    obtain ⟨s1, h1, h2⟩ := ih { s with file := ⟨recBytes rs ++ tail, false⟩, good := true
                                       dict := d' } rfl rfl hck hd2 hb
    refine ⟨s1, fun s' hr => URuns.step he hg ?_ (h1 s' hr), h2⟩
    simp only [unorderedStep, hpk]
    rw [hfile, hd1]
  | @ext ck known tid np cs body rs ms' ms hen hp ht hl hcap h ih =>
    have he : s.file.eof = false := by rw [hf]
    obtain ⟨b, bs, hbb, htp⟩ := extentBytes_head tid np body ht
    have hfile : s.file = ⟨extentBytes tid np body ++ (recBytes rs ++ tail), false⟩ := by
      rw [hf]; simp [recBytes, Rec.bytes]
    have hpk : s.file.peek = (.extent, s.file) := by
      rw [hfile]; simp [FileSt.peek, hbb, htp]
    obtain ⟨bf', r1, r2, r3, r4⟩ := readBufferExtent_at s.bf hen np (recBytes rs ++ tail) false ht
      (by omega) (by omega)
    obtain ⟨bf'', q1, q2, q3⟩ := drain_at (d := s.dict) hd hp (bf'.mem.length + 1) r2.length_le
      bf' s.out r2 r3
    obtain ⟨s1, h1, h2, h3⟩ := ih { s with file := ⟨recBytes rs ++ tail, false⟩, bf := bf''
                                           out := s.out ++ ms' } rfl hg hck hd (by simp; omega)
    refine ⟨s1, fun s' hr => URuns.step he hg ?_ (h1 s' hr), by rw [h2]; simp, h3⟩
    simp only [unorderedStep, hpk]
    rw [hfile, r1]
    simp only
    rw [hck, q1]
  | @pad ck known bs rs ms hz h ih =>
    have he : s.file.eof = false := by rw [hf]
    have hfile : s.file = ⟨bs ++ (recBytes rs ++ tail), false⟩ := by
      rw [hf]; simp [recBytes, Rec.bytes]
    obtain ⟨s1, h1, h2⟩ := ih { s with file := ⟨recBytes rs ++ tail, false⟩ } rfl hg hck hd hb
    refine ⟨s1, fun s' hr => ?_, h2⟩
    have h1 := h1 s' hr
    cases bs with
    | nil =>
      have : s = { s with file := ⟨recBytes rs ++ tail, false⟩ } := by
        rw [List.nil_append] at hfile; rw [← hfile]
      rw [this]; exact h1
    | cons b bs =>
      have hpk : s.file.peek = (.invalid, s.file) := by
        rw [hfile]; simp [FileSt.peek, hz b (by simp)]
      have hsk := URuns.skipPad (s := { s with file := ⟨recBytes rs ++ tail, false⟩ }) rfl hg h1
      simp only at hsk
      refine URuns.step he hg ?_ hsk
      simp only [unorderedStep, hpk]
      rw [hfile, skipPad_append hz]

/-- At the end of the file the unordered loop stops. -/
theorem URuns.end {s : Dec} (hf : s.file = ⟨[], false⟩) (hg : s.good = true) :
    URuns s { s with file := ⟨[], true⟩ } := by
  refine URuns.step (by rw [hf]) hg (s1 := { s with file := ⟨[], true⟩ }) ?_
    (URuns.stop (by simp))
  simp [unorderedStep, hf, FileSt.peek, FileSt.skipPad]

/-- Decoding well-formed records, unordered. -/
theorem unordered_holds {cap : Nat} {ck : Checkpoint} {known : List Site} {rs : List Rec}
    {ms : List OutMsg} (h : Holds cap ck known rs ms) (s : Dec)
    (hf : s.file = ⟨recBytes rs, false⟩) (hg : s.good = true) (hck : s.ck = ck)
    (hd : Describes s.dict known) (hb : s.bf.stor.length = cap) :
    ∃ s', URuns s s' ∧ s'.out = s.out ++ ms ∧ s'.good = true ∧ s'.file = ⟨[], true⟩ := by
  obtain ⟨s1, h1, h2, h3, h4, -⟩ := unordered_leads h [] s (by simpa using hf) hg hck hd hb
  exact ⟨_, h1 _ (URuns.end h4 h3), h2, h3, rfl⟩

end NanoLog
