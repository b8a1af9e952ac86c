import Verif.PreMode
import Verif.FileLemmas

/-!
# The dictionary of preprocessor mode: specification and lemmas
-/

namespace NanoLog

/-- Static information that the fields of the dictionary can hold: counters and lengths in range,
strings without null characters, and a file name whose literal has as many characters as its source. -/
structure PEntry.Fits (e : PEntry) : Prop where
  nibbles : e.nibbles < 256
  count : e.frags.length < 256
  level : e.level < 256
  line : e.line < 2 ^ 32
  nameLen : e.nameLen = e.name.length + 1
  name16 : e.name.length + 1 < 2 ^ 16
  nameNul : 0 ∉ e.name
  frags : ∀ f ∈ e.frags, f.text.length + 1 < 2 ^ 16 ∧ 0 ∉ f.text

/-- What the decoder has to know about a statement. -/
def PEntry.info (e : PEntry) : Meta :=
  { file := e.name, line := e.line, level := e.level, numNibbles := e.nibbles, frags := e.frags }

/-! ## Print fragments -/

theorem cstr_of {l : List Byte} (h : 0 ∉ l) : cstr l = l := by
  induction l with
  | nil => rfl
  | cons b l ih =>
    simp only [List.mem_cons, not_or] at h
    have hb : b ≠ 0 := Ne.symm h.1
    simp only [cstr] at ih ⊢
    rw [List.takeWhile_cons_of_pos (by simpa using hb), ih h.2]

theorem cstr_length_le (l : List Byte) : (cstr l).length ≤ l.length :=
  (List.takeWhile_prefix _).length_le

theorem typeOfCode_typeCode (t : Option FormatType) : typeOfCode (typeCode t) = some t ∧ typeCode t < 32 := by
  cases t with
  | none => decide
  | some t => cases t <;> decide

theorem fragBytes_eq {junk : Nat} {f : Frag} (h : 0 ∉ f.text) : ∃ t : Byte,
    fragBytes junk f = t :: (le 2 (f.text.length + 1) ++ (f.text ++ [0])) ∧ t.toNat % 32 = typeCode f.ty ∧
      (t.toNat / 32 % 2 = 1 ↔ f.dynW = true) ∧ (t.toNat / 64 % 2 = 1 ↔ f.dynP = true) := by
  have hc := (typeOfCode_typeCode f.ty).2
  have hj : junk % 2 < 2 := Nat.mod_lt _ (by omega)
  refine ⟨_, by rw [fragBytes, cstr_of h], ?_⟩
  have hlt : typeCode f.ty + (if f.dynW then 32 else 0) + (if f.dynP then 64 else 0) + 128 * (junk % 2) < 256 := by
    split <;> split <;> omega
  rw [ofNat_toNat_lt hlt]
  cases hw : f.dynW <;> cases hp : f.dynP <;> simp <;> omega

theorem unle_two {v : Nat} (h : v < 2 ^ 16) : ∃ a b, le 2 v = [a, b] ∧ unle [a, b] = v := by
  have hl := le_length 2 v
  match hle : le 2 v, hl with
  | [a, b], _ => exact ⟨a, b, rfl, by rw [← hle]; exact unle_le_of_lt (by simpa using h)⟩

theorem notMem_ne {s : List Byte} (h : 0 ∉ s) : ∀ b ∈ s, b ≠ 0 := fun _ hb h0 => h (h0 ▸ hb)

/-- What `writeFrags` writes is read back. -/
theorem writeFrags_ok (junk : Nat → Nat) (fs : List Frag)
    (hf : ∀ f ∈ fs, f.text.length + 1 < 2 ^ 16 ∧ 0 ∉ f.text) (space : Nat) (bs : List Byte)
    (h : writeFrags junk space fs = some bs) (rest : List Byte) :
    fragsAt fs.length (bs ++ rest) = some fs ∧
    ∀ (raw : List Byte) (pos newEnd : Nat), raw.drop pos = bs ++ rest → pos + bs.length ≤ newEnd →
      skipFrags raw newEnd fs.length pos = some (pos + bs.length) := by
  induction fs generalizing space bs with
  | nil =>
    cases h
    exact ⟨rfl, fun _ _ _ _ _ => rfl⟩
  | cons f fs ih =>
    rw [writeFrags] at h
    split at h
    · cases h
    · obtain ⟨h16, h0⟩ := hf f List.mem_cons_self
      obtain ⟨t, ht, t1, t2, t3⟩ := fragBytes_eq (junk := junk space) h0
      obtain ⟨a, b, hab, hu⟩ := unle_two h16
      dsimp only at h
      cases hw : writeFrags junk (space - (fragBytes (junk space) f).length) fs with
      | none => rw [hw] at h; cases h
      | some bs' =>
        rw [hw] at h
        simp only [Option.map_some, Option.some.injEq] at h
        subst h
        obtain ⟨i1, i2⟩ := ih (fun g hg => hf g (List.mem_cons_of_mem _ hg)) _ _ hw
        have hmem : fragBytes (junk space) f ++ bs' ++ rest = t :: a :: b :: (f.text ++ 0 :: (bs' ++ rest)) := by
          rw [ht, hab]; simp
        have hlen : (fragBytes (junk space) f).length = f.text.length + 4 := by
          rw [ht, hab]; simp
        have hc := takeCStr_append (notMem_ne h0) (bs' ++ rest)
        have hdrop : (f.text ++ 0 :: (bs' ++ rest)).drop (f.text.length + 1) = bs' ++ rest := by
          rw [show f.text ++ 0 :: (bs' ++ rest) = (f.text ++ [0]) ++ (bs' ++ rest) by simp]
          exact List.drop_left' (by simp)
        constructor
        · rw [hmem, List.length_cons, fragsAt, t1, (typeOfCode_typeCode f.ty).1, hc]
          simp only [hu, hdrop, i1, Option.map_some, Option.some.injEq, List.cons.injEq, and_true]
          cases f
          simp only [Frag.mk.injEq, true_and, and_true]
          constructor
          · simp only at t2; simp [t2]
          · simp only at t3; simp [t3]
        · intro raw pos newEnd hr hle
          rw [hmem] at hr
          simp only [List.length_append, hlen] at hle
          rw [List.length_cons, skipFrags, if_pos (by omega), hr]
          simp only [hc, hu]
          rw [i2 raw (pos + 3 + (f.text.length + 1)) newEnd ?_ (by omega)]
          · simp only [List.length_append, hlen, Option.some.injEq]; omega
          · have e3 : raw.drop (pos + 3) = f.text ++ 0 :: (bs' ++ rest) := by
              rw [← List.drop_drop, hr]; rfl
            rw [← hdrop, ← e3, List.drop_drop]

/-! ## Entries -/

theorem entryHead_eq {e : PEntry} (h : e.Fits) : entryHead e =
    (le 1 e.nibbles ++ le 1 e.frags.length ++ le 1 e.level ++ le 4 e.line ++ le 2 (e.name.length + 1))
      ++ (e.name ++ [0]) := by
  rw [entryHead, cstr_of h.nameNul, h.nameLen]

theorem entryFields (a b c d : Nat) (n : Nat) (ha : a < 256) (hb : b < 256) (hc : c < 256)
    (hd : d < 2 ^ 32) (hn : n < 2 ^ 16) :
    let fm := le 1 a ++ le 1 b ++ le 1 c ++ le 4 d ++ le 2 n
    fm.length = 9 ∧ unle (fm.take 1) = a ∧ unle ((fm.drop 1).take 1) = b ∧ unle ((fm.drop 2).take 1) = c ∧
      unle ((fm.drop 3).take 4) = d ∧ unle (fm.drop 7) = n := by
  have e1 : unle (le 1 a) = a := unle_le_of_lt (by simpa using ha)
  have e2 : unle (le 1 b) = b := unle_le_of_lt (by simpa using hb)
  have e3 : unle (le 1 c) = c := unle_le_of_lt (by simpa using hc)
  have e4 : unle (le 4 d) = d := unle_le_of_lt (by simpa using hd)
  have e5 : unle (le 2 n) = n := unle_le_of_lt (by simpa using hn)
  intro fm
  refine ⟨by simp [fm], ?_, ?_, ?_, ?_, ?_⟩
  · simp only [fm, List.append_assoc]
    rw [List.take_left' (by simp), e1]
  · simp only [fm, List.append_assoc]
    rw [List.drop_left' (by simp), List.take_left' (by simp), e2]
  · simp only [fm, List.append_assoc]
    rw [← List.append_assoc, List.drop_left' (by simp), List.take_left' (by simp), e3]
  · simp only [fm, List.append_assoc]
    rw [← List.append_assoc, ← List.append_assoc, List.drop_left' (by simp), List.take_left' (by simp), e4]
  · simp only [fm]
    rw [List.drop_left' (by simp), e5]

/-- What `writeDict` writes is indexed and read back. -/
theorem writeDict_ok (junk : Nat → Nat) (es : List PEntry) (hf : ∀ e ∈ es, e.Fits) (space : Nat)
    (bs : List Byte) (h : writeDict junk space es = some bs) (rest raw : List Byte) (pos newEnd : Nat)
    (hr : raw.drop pos = bs ++ rest) (he : newEnd = pos + bs.length) (fuel : Nat) (hfu : es.length < fuel)
    (ptrs : List Nat) :
    ∃ ps, indexLoop raw newEnd fuel pos ptrs = some (newEnd, ptrs ++ ps) ∧
      ps.map (fun p => metaAt (raw.drop p)) = es.map fun e => some e.info := by
  induction es generalizing space bs pos fuel ptrs with
  | nil =>
    cases h
    cases fuel with
    | zero => simp at hfu
    | succ fuel =>
      refine ⟨[], ?_, rfl⟩
      rw [indexLoop, if_neg (by simp at he; omega)]
      simp at he
      simp [he]
  | cons e es ih =>
    cases fuel with
    | zero => simp at hfu
    | succ fuel =>
    rw [writeDict] at h
    split at h
    · cases h
    · have hfe := hf e List.mem_cons_self
      cases hw : writeFrags junk (space - (entryHead e).length) e.frags with
      | none => rw [hw] at h; cases h
      | some fb =>
        rw [hw] at h
        dsimp only at h
        cases hd : writeDict junk (space - (entryHead e).length - fb.length) es with
        | none => rw [hd] at h; cases h
        | some bs' =>
          rw [hd] at h
          simp only [Option.map_some, Option.some.injEq] at h
          subst h
          obtain ⟨l9, f1, f2, f3, f4, f5⟩ := entryFields e.nibbles e.frags.length e.level e.line
            (e.name.length + 1) hfe.nibbles hfe.count hfe.level hfe.line hfe.name16
          generalize hfm : le 1 e.nibbles ++ le 1 e.frags.length ++ le 1 e.level ++ le 4 e.line ++
            le 2 (e.name.length + 1) = fm at l9 f1 f2 f3 f4 f5
          have hhead : entryHead e = fm ++ (e.name ++ [0]) := by rw [entryHead_eq hfe, hfm]
          have hhl : (entryHead e).length = 9 + (e.name.length + 1) := by rw [hhead]; simp [l9]
          have hmem : raw.drop pos = fm ++ ((e.name ++ [0]) ++ (fb ++ (bs' ++ rest))) := by
            rw [hr, hhead]; simp
          have hlen : (entryHead e ++ fb ++ bs').length = 9 + (e.name.length + 1) + fb.length + bs'.length := by
            simp only [List.length_append, hhl]
          rw [hlen] at he
          obtain ⟨w1, w2⟩ := writeFrags_ok junk e.frags hfe.frags _ _ hw (bs' ++ rest)
          have hd1 : raw.drop (pos + 9 + (e.name.length + 1)) = fb ++ (bs' ++ rest) := by
            rw [Nat.add_assoc, ← List.drop_drop, hmem, ← List.append_assoc]
            exact List.drop_left' (by simp [l9])
          have hd2 : raw.drop (pos + 9 + (e.name.length + 1) + fb.length) = bs' ++ rest := by
            rw [← List.drop_drop, hd1]; simp
          have hmeta : metaAt (raw.drop pos) = some e.info := by
            rw [metaAt, hmem, takeN_append' _ _ l9]
            have hc : takeCStr ((e.name ++ [0]) ++ (fb ++ (bs' ++ rest))) = some (e.name, fb ++ (bs' ++ rest)) := by
              have := takeCStr_append (notMem_ne hfe.nameNul) (fb ++ (bs' ++ rest))
              simpa using this
            have hdr : ((e.name ++ [0]) ++ (fb ++ (bs' ++ rest))).drop (e.name.length + 1) = fb ++ (bs' ++ rest) :=
              List.drop_left' (by simp)
            simp only [hc, f1, f2, f3, f4, f5, hdr, w1]
            rfl
          obtain ⟨ps, i1, i2⟩ := ih (fun x hx => hf x (List.mem_cons_of_mem _ hx)) _ _ hd _ hd2
            (by omega) fuel (by simpa using hfu) (ptrs ++ [pos])
          refine ⟨pos :: ps, ?_, by simp [hmeta, i2]⟩
          rw [indexLoop, if_pos (by omega), hmem, takeN_append' _ _ l9]
          simp only [f2, f5]
          rw [w2 raw _ newEnd hd1 (by omega)]
          simp only
          rw [i1]
          simp

theorem writeDict_length (junk : Nat → Nat) (es : List PEntry) (space : Nat)
    (bs : List Byte) (h : writeDict junk space es = some bs) : 9 * es.length ≤ bs.length := by
  induction es generalizing space bs with
  | nil => simp
  | cons e es ih =>
    rw [writeDict] at h
    split at h
    · cases h
    · cases hw : writeFrags junk (space - (entryHead e).length) e.frags with
      | none => rw [hw] at h; cases h
      | some fb =>
        rw [hw] at h
        dsimp only at h
        cases hd : writeDict junk (space - (entryHead e).length - fb.length) es with
        | none => rw [hd] at h; cases h
        | some bs' =>
          rw [hd] at h
          simp only [Option.map_some, Option.some.injEq] at h
          subst h
          have := ih _ _ hd
          simp [entryHead]; omega

end NanoLog
