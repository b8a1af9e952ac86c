import Verif.PackerSpec

/-! Helper lemmas about the packed encoding. -/

namespace NanoLog

theorem numBytes_pos (v : Nat) : 1 ≤ numBytes v := by unfold numBytes; grind
theorem numBytes_le8 (v : Nat) : numBytes v ≤ 8 := by unfold numBytes; grind

theorem lt_numBytes {v : Nat} (h : v < 2 ^ 64) : v < 256 ^ numBytes v := by
  unfold numBytes
  repeat' split
  all_goals simp at *
  all_goals omega

theorem numBytes_le_of_lt {v k : Nat} (hk : 1 ≤ k) (hk8 : k ≤ 8) (h : v < 256 ^ k) :
    numBytes v ≤ k := by
  have : k = 1 ∨ k = 2 ∨ k = 3 ∨ k = 4 ∨ k = 5 ∨ k = 6 ∨ k = 7 ∨ k = 8 := by omega
  unfold numBytes
  rcases this with h' | h' | h' | h' | h' | h' | h' | h' <;> subst h' <;> simp at h ⊢ <;>
    repeat' split
  all_goals omega

theorem packU_bytes {sz v : Nat} (h : v < 256 ^ sz) (h1 : 1 ≤ sz) (h8 : sz ≤ 8) :
    (packU sz v).2 = le (numBytes v) v :=
  le_take _ _ _ (numBytes_le_of_lt h1 h8 h)

theorem packU_length {sz v : Nat} (h : v < 256 ^ sz) (h1 : 1 ≤ sz) (h8 : sz ≤ 8) :
    (packU sz v).2.length = numBytes v := by
  rw [packU_bytes h h1 h8, le_length]

theorem unpackInt_small {t : ITy} {nib : Nat} {a rest : List Byte} (h8 : nib ≤ 8)
    (h : a.length = nib) :
    unpackInt t nib (a ++ rest) = some (t.cast (ITy.i64.cast (unle a)), rest) := by
  simp [unpackInt, h8, takeN_append' a rest h]

theorem unpackInt_neg {t : ITy} {n : Nat} {a rest : List Byte} (h1 : 1 ≤ n) (h7 : n ≤ 7)
    (h : a.length = n) :
    unpackInt t (8 + n) (a ++ rest) = some (t.cast (-(ITy.i64.cast (unle a))), rest) := by
  have h3 : ¬ (8 + n ≤ 8) := by omega
  have h4 : n % 16 = n := by omega
  simp [unpackInt, h3, h4, takeN_append' a rest h]

theorem unpackInt_packU {sz v : Nat} (t : ITy) (rest : List Byte) (h : v < 256 ^ sz)
    (h1 : 1 ≤ sz) (h8 : sz ≤ 8) :
    unpackInt t (packU sz v).1 ((packU sz v).2 ++ rest)
      = some (t.cast (ITy.i64.cast v), rest) := by
  have hv : v < 2 ^ 64 :=
    Nat.lt_of_lt_of_le h (by
      have := Nat.pow_le_pow_right (n := 256) (by omega) h8
      simpa using this)
  rw [packU_bytes h h1 h8]
  show unpackInt t (numBytes v) _ = _
  rw [unpackInt_small (numBytes_le8 v) (le_length _ _), unle_le_of_lt (lt_numBytes hv)]

theorem unpackInt_packU_neg {sz v : Nat} (t : ITy) (rest : List Byte) (h : v < 256 ^ sz)
    (h1 : 1 ≤ sz) (h8 : sz ≤ 8) (hv7 : v < 2 ^ 56) :
    unpackInt t (8 + (packU sz v).1) ((packU sz v).2 ++ rest)
      = some (t.cast (-(v : Int)), rest) := by
  rw [packU_bytes h h1 h8]
  show unpackInt t (8 + numBytes v) _ = _
  have h7 : numBytes v ≤ 7 := numBytes_le_of_lt (by omega) (by omega) (by simpa using hv7)
  rw [unpackInt_neg (numBytes_pos v) h7 (le_length _ _),
    unle_le_of_lt (lt_numBytes (by omega))]
  have : ITy.i64.cast (v : Int) = v := by
    apply ITy.cast_of_inRange
    simp [ITy.InRange, ITy.lo, ITy.hi, ITy.signed, ITy.bytes]; omega
  rw [this]

/-- Read-back of a packed integer at any integer type, with the exact 64-bit view of the
packed value. -/
theorem packInt_unpack {t t' : ITy} {v : Int} (hv : t.InRange v)
    (hw : t'.bytes ≤ t.promotedBytes ∨ -(2 ^ 24) < v) (rest : List Byte) :
    unpackInt t' (packInt t v).1 ((packInt t v).2 ++ rest) = some (t'.cast v, rest) := by
  have hU : ∀ sz, 1 ≤ sz → sz ≤ 8 → 0 ≤ v → v < 256 ^ sz →
      unpackInt t' (packU sz v.toNat).1 ((packU sz v.toNat).2 ++ rest)
        = some (t'.cast (ITy.i64.cast v), rest) := by
    intro sz h1 h8 h0 hlt
    have := unpackInt_packU (sz := sz) (v := v.toNat) t' rest (by
      have e : ((v.toNat : Nat) : Int) < ((256 ^ sz : Nat) : Int) := by
        rw [Int.toNat_of_nonneg h0]; simpa using hlt
      exact_mod_cast e) h1 h8
    rwa [Int.toNat_of_nonneg h0] at this
  have h64 : ∀ x : Int, t'.cast (ITy.i64.cast x) = t'.cast x := by
    intro x
    cases t' <;> simp [ITy.cast, ITy.signed, ITy.bytes] <;> omega
  have h32 : ∀ (_ : t'.bytes ≤ 4) (x : Int), t'.cast (ITy.i64.cast (ITy.u32.cast x)) = t'.cast x := by
    intro hb x
    cases t' <;> simp [ITy.cast, ITy.signed, ITy.bytes] at hb ⊢ <;> omega
  have h64' : ∀ x : Int, t'.cast (ITy.i64.cast (ITy.u64.cast x)) = t'.cast x := by
    intro x
    cases t' <;> simp [ITy.cast, ITy.signed, ITy.bytes] <;> omega
  have hP32 : (∀ (_ : -(2^31) ≤ v) (_ : v < 2^31) (_ : t'.bytes ≤ 4 ∨ -(2 ^ 24) < v),
      unpackInt t' (packI32 v).1 ((packI32 v).2 ++ rest) = some (t'.cast v, rest)) := by
    intro hlo hhi hb
    unfold packI32
    split
    · have := unpackInt_packU (sz := 4) (v := (ITy.u32.cast v).toNat) t' rest (by
        simp [ITy.cast, ITy.signed, ITy.bytes]; omega) (by omega) (by omega)
      rw [this, Int.toNat_of_nonneg (by simp [ITy.cast, ITy.signed, ITy.bytes]; omega)]
      rcases hb with hb | hb
      · rw [h32 hb]
      · have e : ITy.u32.cast v = v := by
          simp [ITy.cast, ITy.signed, ITy.bytes]; omega
        rw [e, h64]
    · rename_i hn
      have e : (ITy.u32.cast (-v)).toNat = (-v).toNat := by
        simp [ITy.cast, ITy.signed, ITy.bytes]; omega
      have := unpackInt_packU_neg (sz := 4) (v := (ITy.u32.cast (-v)).toNat) t' rest (by
        rw [e]; simp; omega) (by omega) (by omega) (by rw [e]; omega)
      refine this.trans ?_
      rw [e]
      congr 3; omega
  cases t
  case u8 | u16 | u32 | u64 =>
    simp only [ITy.InRange, ITy.lo, ITy.hi, ITy.signed, ITy.bytes] at hv
    simp only [packInt, ITy.bytes]
    rw [hU _ (by omega) (by omega) (by simp at hv; omega) (by simp at hv ⊢; omega), h64]
  case i64 =>
    simp [ITy.InRange, ITy.lo, ITy.hi, ITy.signed, ITy.bytes] at hv
    simp only [packInt]
    unfold packI64
    split
    · have := unpackInt_packU (sz := 8) (v := (ITy.u64.cast v).toNat) t' rest (by
        simp [ITy.cast, ITy.signed, ITy.bytes]; omega) (by omega) (by omega)
      rw [this, Int.toNat_of_nonneg (by simp [ITy.cast, ITy.signed, ITy.bytes]; omega), h64']
    · rename_i hn
      have e : (ITy.u64.cast (-v)).toNat = (-v).toNat := by
        simp [ITy.cast, ITy.signed, ITy.bytes]; omega
      have := unpackInt_packU_neg (sz := 8) (v := (ITy.u64.cast (-v)).toNat) t' rest (by
        rw [e]; simp; omega) (by omega) (by omega) (by rw [e]; omega)
      refine this.trans ?_
      rw [e]
      congr 3; omega
  all_goals
    simp [ITy.InRange, ITy.lo, ITy.hi, ITy.signed, ITy.bytes] at hv
    simp only [packInt]
    exact hP32 (by omega) (by omega) hw

/-- Number of bytes and tag of a packed integer. -/
theorem packInt_facts {t : ITy} {v : Int} (hv : t.InRange v) :
    (packInt t v).1 < 16 ∧ 1 ≤ (packInt t v).2.length ∧
    (packInt t v).2.length ≤ t.bytes ∧
    nibbleSize (packInt t v).1 = (packInt t v).2.length ∧ (packInt t v).1 ≠ 0 := by
  have hU : ∀ sz (n : Nat), 1 ≤ sz → sz ≤ 8 → n < 256 ^ sz →
      (packU sz n).1 = numBytes n ∧ (packU sz n).2.length = numBytes n ∧ numBytes n ≤ sz := by
    intro sz n h1 h8 hlt
    exact ⟨rfl, packU_length hlt h1 h8, numBytes_le_of_lt h1 h8 hlt⟩
  have hS : ∀ n, 1 ≤ n → n ≤ 8 → nibbleSize n = n := by
    intro n h1 h8; unfold nibbleSize; split <;> split <;> omega
  have hS8 : ∀ n, 1 ≤ n → n ≤ 7 → nibbleSize (8 + n) = n := by
    intro n h1 h8; unfold nibbleSize; split <;> split <;> omega
  have hP32 : ∀ (sz : Nat), 1 ≤ sz → sz ≤ 4 → (v < 256 ^ sz) → (-v < 256 ^ sz) →
      (sz < 4 → -(2 ^ 24) < v) → -(2 ^ 31) ≤ v →
      (packI32 v).1 < 16 ∧ 1 ≤ (packI32 v).2.length ∧
      (packI32 v).2.length ≤ sz ∧
      nibbleSize (packI32 v).1 = (packI32 v).2.length ∧ (packI32 v).1 ≠ 0 := by
    intro sz h1 h4 hpos hneg hsmall hlo
    unfold packI32
    split
    · rename_i hc
      have hlt : (ITy.u32.cast v).toNat < 256 ^ 4 := by
        simp [ITy.cast, ITy.signed, ITy.bytes]; omega
      obtain ⟨e1, e2, e3⟩ := hU 4 _ (by omega) (by omega) hlt
      have hle : numBytes (ITy.u32.cast v).toNat ≤ sz := by
        by_cases hs : sz = 4
        · subst hs; exact e3
        · have h0 : 0 ≤ v := by omega
          have hv2 : v < 2 ^ 32 := by
            rcases (by omega : sz = 1 ∨ sz = 2 ∨ sz = 3) with h | h | h <;> subst h <;>
              simp at hpos <;> omega
          have ec : (ITy.u32.cast v).toNat = v.toNat := by
            simp [ITy.cast, ITy.signed, ITy.bytes]; omega
          rw [ec]
          apply numBytes_le_of_lt h1 (by omega)
          have e : ((v.toNat : Nat) : Int) < ((256 ^ sz : Nat) : Int) := by
            rw [Int.toNat_of_nonneg h0]; simpa using hpos
          exact_mod_cast e
      have := numBytes_pos (ITy.u32.cast v).toNat
      have := numBytes_le8 (ITy.u32.cast v).toNat
      rw [e1, e2, hS _ (by omega) (by omega)]
      omega
    · have hv24 : -v < 2 ^ 24 := by omega
      have h0 : 0 ≤ -v := by omega
      have ec : (ITy.u32.cast (-v)).toNat = (-v).toNat := by
        simp [ITy.cast, ITy.signed, ITy.bytes]; omega
      have hlt : (-v).toNat < 256 ^ 4 := by simp; omega
      obtain ⟨e1, e2, e3⟩ := hU 4 _ (by omega) (by omega) hlt
      have hle : numBytes (-v).toNat ≤ sz := by
        apply numBytes_le_of_lt h1 (by omega)
        have e : (((-v).toNat : Nat) : Int) < ((256 ^ sz : Nat) : Int) := by
          rw [Int.toNat_of_nonneg h0]; simpa using hneg
        exact_mod_cast e
      have := numBytes_pos (-v).toNat
      simp only [ec, e1, e2]
      rw [hS8 _ (by omega) (by omega)]
      omega
  cases t
  case u8 | u16 | u32 | u64 =>
    simp [ITy.InRange, ITy.lo, ITy.hi, ITy.signed, ITy.bytes] at hv
    simp only [packInt, ITy.bytes]
    have hb : ∀ sz, 1 ≤ sz → sz ≤ 8 → v.toNat < 256 ^ sz → (packU sz v.toNat).1 < 16 ∧
        1 ≤ (packU sz v.toNat).2.length ∧ (packU sz v.toNat).2.length ≤ sz ∧
        nibbleSize (packU sz v.toNat).1 = (packU sz v.toNat).2.length ∧
        (packU sz v.toNat).1 ≠ 0 := by
      intro sz h1 h8 hlt
      obtain ⟨e1, e2, e3⟩ := hU sz v.toNat h1 h8 hlt
      have := numBytes_pos v.toNat
      have := numBytes_le8 v.toNat
      rw [e1, e2, hS _ (by omega) (by omega)]
      omega
    exact hb _ (by omega) (by omega) (by simp; omega)
  case i64 =>
    simp [ITy.InRange, ITy.lo, ITy.hi, ITy.signed, ITy.bytes] at hv
    simp only [packInt, ITy.bytes]
    unfold packI64
    split
    · obtain ⟨e1, e2, e3⟩ := hU 8 (ITy.u64.cast v).toNat (by omega) (by omega) (by
        simp [ITy.cast, ITy.signed, ITy.bytes]; omega)
      have := numBytes_pos (ITy.u64.cast v).toNat
      rw [e1, e2, hS _ (by omega) (by omega)]
      omega
    · have ec : (ITy.u64.cast (-v)).toNat = (-v).toNat := by
        simp [ITy.cast, ITy.signed, ITy.bytes]; omega
      obtain ⟨e1, e2, e3⟩ := hU 8 (-v).toNat (by omega) (by omega) (by simp; omega)
      have := numBytes_pos (-v).toNat
      have h7 : numBytes (-v).toNat ≤ 7 :=
        numBytes_le_of_lt (by omega) (by omega) (by simp; omega)
      simp only [ec, e1, e2]
      rw [hS8 _ (by omega) (by omega)]
      omega
  all_goals
    simp [ITy.InRange, ITy.lo, ITy.hi, ITy.signed, ITy.bytes] at hv
    simp only [packInt, ITy.bytes]
    exact hP32 _ (by omega) (by omega) (by simp; omega) (by simp; omega) (by omega) (by omega)

/-- Facts about any packed scalar: the masked tag determines its length. -/
theorem Scalar.pack_facts {s : Scalar} (hs : s.Valid) :
    1 ≤ s.pack.2.length ∧ s.pack.2.length ≤ s.size ∧
    nibbleSize (s.pack.1 % 16) = s.pack.2.length := by
  cases s with
  | int t v =>
    obtain ⟨h1, h2, h3, h4, h5⟩ := packInt_facts (t := t) (v := v) hs
    simp only [Scalar.pack, Scalar.size]
    rw [Nat.mod_eq_of_lt h1]
    exact ⟨h2, h3, h4⟩
  | ptr v =>
    simp only [Scalar.Valid] at hs
    obtain ⟨h1, h2, h3, h4, h5⟩ := packInt_facts (t := .u64) (v := v) (by
      simp [ITy.InRange, ITy.lo, ITy.hi, ITy.signed, ITy.bytes]; omega)
    simp only [packInt, ITy.bytes, Int.toNat_natCast] at h1 h2 h3 h4 h5
    simp only [Scalar.pack, Scalar.size, packPtr]
    rw [Nat.mod_eq_of_lt h1]
    exact ⟨h2, h3, h4⟩
  | f32 b => simp only [Scalar.Valid] at hs; simp [Scalar.pack, packFloat, Scalar.size, hs, nibbleSize]
  | f64 b => simp only [Scalar.Valid] at hs; simp [Scalar.pack, packFloat, Scalar.size, hs, nibbleSize]
  | f80 b => simp only [Scalar.Valid] at hs; simp [Scalar.pack, packFloat, Scalar.size, hs, nibbleSize]

/-- Reading back a packed scalar with its masked tag gives what the specification says. -/
theorem Scalar.unpack_pack {s : Scalar} {r : RTy} {v : RVal} (hs : s.Valid) (hr : Reads s r v)
    (rest : List Byte) :
    unpackAs r (s.pack.1 % 16) (s.pack.2 ++ rest) = some (v, rest) := by
  cases hr with
  | int t t' v h =>
    have h1 := (packInt_facts (t := t) (v := v) hs).1
    simp only [Scalar.pack, unpackAs, Nat.mod_eq_of_lt h1, packInt_unpack hs h]
    rfl
  | ptr v =>
    simp only [Scalar.Valid] at hs
    have hin : ITy.u64.InRange (v : Int) := by
      simp [ITy.InRange, ITy.lo, ITy.hi, ITy.signed, ITy.bytes]; omega
    have h1 := (packInt_facts (t := .u64) (v := v) hin).1
    have h2 := packInt_unpack (t := .u64) (t' := .u64) hin (.inl (by decide)) rest
    rw [ITy.cast_of_inRange hin] at h2
    simp only [packInt, ITy.bytes, Int.toNat_natCast] at h1 h2
    simp only [Scalar.pack, unpackAs, packPtr, Nat.mod_eq_of_lt h1, unpackPtr, h2]
    rfl
  | f32d b => simp only [Scalar.Valid] at hs
              simp [Scalar.pack, packFloat, hs, unpackAs, unpackFloat, takeN_append' b rest hs]
  | f32l b => simp only [Scalar.Valid] at hs
              simp [Scalar.pack, packFloat, hs, unpackAs, unpackFloat, takeN_append' b rest hs]
  | f64 b => simp only [Scalar.Valid] at hs
             simp [Scalar.pack, packFloat, hs, unpackAs, unpackFloat, takeN_append' b rest hs]
  | f80 b => simp only [Scalar.Valid] at hs
             simp [Scalar.pack, packFloat, hs, unpackAs, unpackFloat, takeN_append' b rest hs]

/-! ### Nibble arrays -/

theorem nibFirst_two (a b : Nat) : nibFirst (twoNibbles a b) = a % 16 := by
  unfold nibFirst twoNibbles
  rw [UInt8.toNat_ofNat']; omega

theorem nibSecond_two (a b : Nat) : nibSecond (twoNibbles a b) = b % 16 := by
  unfold nibSecond twoNibbles
  rw [UInt8.toNat_ofNat']; omega

theorem writeNibbles_length (junk : Nat) (ns : List Nat) :
    (writeNibbles junk ns).length = (ns.length + 1) / 2 := by
  fun_induction writeNibbles junk ns <;> simp_all <;> omega

theorem getSize_writeNibbles (junk : Nat) (ns : List Nat) (more : List Byte) :
    getSizeOfPackedValues (writeNibbles junk ns ++ more) ns.length
      = some ((ns.map fun n => nibbleSize (n % 16)).sum) := by
  fun_induction writeNibbles junk ns with
  | case1 => simp [getSizeOfPackedValues]
  | case2 a => simp [getSizeOfPackedValues, nibFirst_two]
  | case3 a b rest ih =>
    simp [getSizeOfPackedValues, nibFirst_two, nibSecond_two, ih]; omega

theorem packedLength {ss : List Scalar} (h : ∀ s ∈ ss, s.Valid) :
    ((ss.map fun s => nibbleSize (s.pack.1 % 16)).sum)
      = (ss.map fun s => s.pack.2).flatten.length := by
  induction ss with
  | nil => rfl
  | cons s ss ih =>
    simp only [List.map_cons, List.sum_cons, List.flatten_cons, List.length_append]
    rw [ih (fun x hx => h x (by simp [hx])), (Scalar.pack_facts (h s (by simp))).2.2]

theorem encodeScalars_length {ss : List Scalar} (junk : Nat) :
    (encodeScalars junk ss).length
      = (ss.length + 1) / 2 + (ss.map fun s => s.pack.2).flatten.length := by
  simp [encodeScalars, writeNibbles_length]

theorem Nibbler.new_encode {ss : List Scalar} (junk : Nat) (rest : List Byte)
    (h : ∀ s ∈ ss, s.Valid) :
    Nibbler.new (encodeScalars junk ss ++ rest) ss.length =
      some ({ nibs := encodeScalars junk ss ++ rest, onFirst := true,
              cur := (ss.map fun s => s.pack.2).flatten ++ rest,
              left := (ss.map fun s => s.pack.2).flatten.length }, rest) := by
  have h1 := getSize_writeNibbles junk (ss.map fun s => s.pack.1)
    ((ss.map fun s => s.pack.2).flatten ++ rest)
  simp only [List.length_map, List.map_map] at h1
  have h2 := packedLength h
  unfold Nibbler.new encodeScalars
  rw [List.append_assoc, takeN_append' _ _ (by rw [writeNibbles_length]; simp)]
  simp only [Option.bind_eq_bind, Option.bind_some]
  rw [h1]
  simp only [Option.bind_some]
  have h3 : (List.map ((fun n => nibbleSize (n % 16)) ∘ fun s => Scalar.pack s |>.1) ss).sum
      = (ss.map fun s => s.pack.2).flatten.length := by
    rw [← h2]; rfl
  rw [h3, takeN_append]
  rfl

theorem Nibbler.getNext_ok {s : Scalar} {r : RTy} {v : RVal} (hs : s.Valid) (hr : Reads s r v)
    (b : Byte) (bs rest : List Byte) (onFirst : Bool) (left : Int)
    (hn : (if onFirst then nibFirst b else nibSecond b) = s.pack.1 % 16)
    (hl : (s.pack.2.length : Int) ≤ left) :
    Nibbler.getNext { nibs := b :: bs, onFirst := onFirst, cur := s.pack.2 ++ rest, left := left } r
      = some (v, { nibs := if onFirst then b :: bs else bs, onFirst := !onFirst,
                   cur := rest, left := left - s.pack.2.length }) := by
  have hf := Scalar.pack_facts hs
  have h0 : ¬ left ≤ 0 := by omega
  unfold Nibbler.getNext
  simp only [h0, if_false, hn]
  rw [Scalar.unpack_pack hs hr]
  simp only [Option.bind_eq_bind, Option.bind_some, List.length_append]
  congr 3
  push_cast; omega

theorem Nibbler.getMany_ok (junk : Nat) {ss : List Scalar} {rs : List RTy} {vs : List RVal}
    (hs : ∀ s ∈ ss, s.Valid) (hr : ReadsAll ss rs vs) (more rest : List Byte) :
    ∃ nb' : Nibbler, Nibbler.getMany
        { nibs := writeNibbles junk (ss.map fun s => s.pack.1) ++ more,
          onFirst := true,
          cur := (ss.map fun s => s.pack.2).flatten ++ rest,
          left := (ss.map fun s => s.pack.2).flatten.length } rs
      = some (vs, nb') ∧ nb'.cur = rest ∧ nb'.left = 0 := by
  match ss, rs, vs, hr with
  | [], [], [], .nil => exact ⟨_, rfl, by simp, by simp⟩
  | [s], [r], [v], .cons h1 .nil =>
    have hv := hs s (by simp)
    have := Nibbler.getNext_ok hv h1 (twoNibbles s.pack.1 junk) more rest true s.pack.2.length
      (by simp [nibFirst_two]) (by omega)
    refine ⟨{ nibs := twoNibbles s.pack.1 junk :: more, onFirst := false, cur := rest,
              left := (s.pack.2.length : Int) - s.pack.2.length }, ?_, rfl, by simp⟩
    simp only [List.map_cons, List.map_nil, writeNibbles, List.flatten_cons, List.flatten_nil,
      List.append_nil, List.cons_append, List.nil_append, Nibbler.getMany, this,
      Option.bind_eq_bind, Option.bind_some]
    rfl
  | s1 :: s2 :: ss, r1 :: r2 :: rs, v1 :: v2 :: vs, .cons h1 (.cons h2 hrest) =>
    have hv1 := hs s1 (by simp)
    have hv2 := hs s2 (by simp)
    obtain ⟨nb', hm, hc, hl⟩ := Nibbler.getMany_ok junk (fun s h => hs s (by simp [h])) hrest more rest
    have g1 := Nibbler.getNext_ok hv1 h1 (twoNibbles s1.pack.1 s2.pack.1)
      (writeNibbles junk (ss.map fun s => s.pack.1) ++ more)
      (s2.pack.2 ++ ((ss.map fun s => s.pack.2).flatten ++ rest)) true
      ((((s1 :: s2 :: ss).map fun s => s.pack.2).flatten.length : Nat) : Int)
      (by simp [nibFirst_two]) (by simp; omega)
    have g2 := Nibbler.getNext_ok hv2 h2 (twoNibbles s1.pack.1 s2.pack.1)
      (writeNibbles junk (ss.map fun s => s.pack.1) ++ more)
      ((ss.map fun s => s.pack.2).flatten ++ rest) false
      (((((s1 :: s2 :: ss).map fun s => s.pack.2).flatten.length : Nat) : Int) - s1.pack.2.length)
      (by simp [nibSecond_two]) (by simp; omega)
    refine ⟨nb', ?_, hc, hl⟩
    have e : ((s1 :: s2 :: ss).map fun s => s.pack.2).flatten ++ rest
        = s1.pack.2 ++ (s2.pack.2 ++ ((ss.map fun s => s.pack.2).flatten ++ rest)) := by simp
    rw [e]
    simp only [List.map_cons, writeNibbles, List.cons_append]
    simp only [List.map_cons] at g1 g2
    simp only [Nibbler.getMany, g1, Option.bind_eq_bind, Option.bind_some, if_true, Bool.not_true, g2,
      Bool.false_eq_true, if_false, Bool.not_false]
    have el : ((((s1.pack.2 :: s2.pack.2 :: ss.map fun s => s.pack.2).flatten.length : Nat) : Int)
        - s1.pack.2.length - s2.pack.2.length) = ((ss.map fun s => s.pack.2).flatten.length : Nat) := by
      simp; omega
    rw [el, hm]
    rfl

end NanoLog
