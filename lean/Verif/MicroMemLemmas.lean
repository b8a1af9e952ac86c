import Verif.MicroMem
import Verif.FmtRegex

/-!
# Micro code in memory: lemmas
-/

namespace NanoLog

/-! ## Writes -/

theorem writeAt_split {pos : Nat} {A X B bs : List Byte} (hA : A.length = pos) (hX : X.length = bs.length) :
    writeAt pos bs (A ++ (X ++ B)) = some (A ++ (bs ++ B)) := by
  subst hA
  rw [writeAt, if_pos (by simp [hX]), pokeAt, List.take_left, ← hX]
  have : (A ++ (X ++ B)).drop (A.length + X.length) = B := by
    rw [← List.append_assoc]; exact List.drop_left' (by simp)
  rw [this, List.append_assoc]

theorem writeAt_some {pos : Nat} {bs raw r : List Byte} (h : writeAt pos bs raw = some r) :
    r.length = raw.length ∧ pos + bs.length ≤ raw.length ∧ ∀ n ≤ pos, r.take n = raw.take n := by
  unfold writeAt at h
  split at h
  · next hle =>
    obtain rfl := Option.some.inj h
    refine ⟨by simp [pokeAt]; omega, hle, fun n hn => ?_⟩
    rw [pokeAt, List.append_assoc, List.take_append_of_le_length (by simp; omega), List.take_take,
      Nat.min_eq_left hn]
  · cases h

theorem bumpAt_split {pos n k : Nat} {A B : List Byte} (hA : A.length = pos) :
    bumpAt pos k (A ++ (le 1 n ++ B)) = some (A ++ (le 1 (n + k) ++ B)) := by
  have : (A ++ (le 1 n ++ B))[pos]? = some (UInt8.ofNat n) := by
    rw [List.getElem?_append_right (by omega), hA]; simp [le]
  rw [bumpAt, this]
  have e : le 1 ((UInt8.ofNat n).toNat + k) = le 1 (n + k) := by
    simp only [le, UInt8.toNat_ofNat', List.cons.injEq, and_true]
    apply UInt8.toNat_inj.1
    simp
  simp only [e]
  exact writeAt_split hA (by simp)

theorem setBits_split {pos : Nat} {A B : List Byte} {b : Byte} (ty : Option FormatType) (dw dp : Bool)
    (hA : A.length = pos) :
    setBits pos ty dw dp (A ++ (b :: B)) =
      some (A ++ (UInt8.ofNat (typeCode ty + (if dw then 32 else 0) + (if dp then 64 else 0)
        + 128 * (b.toNat / 128 % 2)) :: B)) := by
  have : (A ++ (b :: B))[pos]? = some b := by
    rw [List.getElem?_append_right (by omega), hA]; simp
  have hb := b.toNat_lt
  have e : b.toNat / 128 % 2 = b.toNat / 128 := Nat.mod_eq_of_lt (by omega)
  rw [setBits, this, e]
  exact writeAt_split (X := [b]) hA rfl

theorem split_at {l : List Byte} {n : Nat} (h : n ≤ l.length) : ∃ a b, l = a ++ b ∧ a.length = n :=
  ⟨l.take n, l.drop n, (List.take_append_drop n l).symm, by simp; omega⟩

/-! ## Images of fragments -/

/-- The bytes of a sequence of fragments; the unused bits are arbitrary. -/
inductive FragImg : List Frag → List Byte → Prop where
  | nil : FragImg [] []
  | cons {f : Frag} {fs : List Frag} {b : List Byte} (j : Nat) : f.text.length + 1 < 2 ^ 16 → 0 ∉ f.text →
      FragImg fs b → FragImg (f :: fs) (fragBytes j f ++ b)

theorem FragImg.append {a b : List Frag} {x y : List Byte} (h : FragImg a x) (h' : FragImg b y) :
    FragImg (a ++ b) (x ++ y) := by
  induction h with
  | nil => exact h'
  | cons j h1 h2 _ ih => rw [List.append_assoc]; exact .cons j h1 h2 ih

theorem fragBytes_length {j : Nat} {f : Frag} (h : 0 ∉ f.text) : (fragBytes j f).length = f.text.length + 4 := by
  rw [fragBytes, cstr_of h]; simp; omega

/-- Reading fragments back. -/
theorem FragImg.read {fs : List Frag} {b : List Byte} (h : FragImg fs b) (rest : List Byte) :
    ∀ n ≤ fs.length, fragsAt n (b ++ rest) = some (fs.take n) := by
  induction h with
  | nil => intro n hn; obtain rfl : n = 0 := by simpa using hn
           rfl
  | @cons f fs b j h16 h0 _ ih =>
    intro n hn
    cases n with
    | zero => rfl
    | succ n =>
      obtain ⟨t, ht, t1, t2, t3⟩ := fragBytes_eq (junk := j) h0
      obtain ⟨a, c, hab, hu⟩ := unle_two h16
      have hmem : fragBytes j f ++ b ++ rest = t :: a :: c :: (f.text ++ 0 :: (b ++ rest)) := by
        rw [ht, hab]; simp
      have hc := takeCStr_append (notMem_ne h0) (b ++ rest)
      have hdrop : (f.text ++ 0 :: (b ++ rest)).drop (f.text.length + 1) = b ++ rest := by
        rw [show f.text ++ 0 :: (b ++ rest) = (f.text ++ [0]) ++ (b ++ rest) by simp]
        exact List.drop_left' (by simp)
      rw [hmem, fragsAt, t1, (typeOfCode_typeCode f.ty).1, hc]
      simp only [hu, hdrop, ih n (by simpa using hn), Option.map_some, List.take_succ_cons,
        Option.some.injEq, List.cons.injEq, and_true]
      cases f
      simp only [Frag.mk.injEq, true_and, and_true]
      constructor
      · simp only at t2; simp [t2]
      · simp only at t3; simp [t3]

/-! ## One fragment -/

/-- `emitFrag` on memory with known parts. -/
theorem emitFrag_split {s A H body tail : List Byte} {p n k : Nat} {st : MicroSt} {i : Nat} {m : RMatch}
    {ty : FormatType} {f : Frag} (hA : A.length = p)
    (hraw : st.raw = A ++ (le 1 n ++ (le 1 k ++ (H ++ (body ++ tail)))))
    (hw : st.w = p + 2 + H.length + body.length) (hsi : st.start ≤ i) (his : i < s.length)
    (h16 : i - st.start + 1 < 2 ^ 16) (hroom : i - st.start + 4 ≤ tail.length)
    (h0 : 0 ∉ (s.drop st.start).take (i - st.start))
    (hf : f = ⟨some ty, decide (m.width.head? = some (ch '*')), decide (m.prec.head? = some (ch '*')),
      (s.drop st.start).take (i - st.start)⟩) :
    ∃ j, emitFrag s p st i m ty = some
      ⟨A ++ (le 1 (n + ((if m.spec ≠ ch 's' then 1 else 0) + (if f.dynW then 1 else 0)
          + (if f.dynP then 1 else 0))) ++ (le 1 (k + 1) ++ (H ++ ((body ++ fragBytes j f)
          ++ tail.drop (i - st.start + 4))))), st.w + (i - st.start + 4), i, 0, i, some st.w⟩ := by
  obtain ⟨raw, w, i0, pct, start, pf⟩ := st
  simp only at hraw hw hsi h16 hroom h0 hf
  obtain ⟨L, hL⟩ : ∃ L, L = i - start := ⟨_, rfl⟩
  dsimp only
  rw [← hL] at h16 hroom h0 hf ⊢
  obtain ⟨hd, tail', rfl, hhd⟩ := split_at hroom
  obtain ⟨b0, hd, rfl⟩ : ∃ b0 l, hd = b0 :: l := by
    cases hd with
    | nil => simp at hhd
    | cons b l => exact ⟨b, l, rfl⟩
  obtain ⟨l2, hd, rfl, hl2⟩ := split_at (l := hd) (n := 2) (by simp at hhd; omega)
  obtain ⟨x, hd, rfl, hx⟩ := split_at (l := hd) (n := L + 1) (by simp at hhd; omega)
  obtain rfl : hd = [] := by
    simp at hhd
    exact List.length_eq_zero_iff.1 (by omega)
  refine ⟨b0.toNat / 128, ?_⟩
  have hmod : (L + 1) % 2 ^ 16 = L + 1 := Nat.mod_eq_of_lt h16
  have htxt : ((s.drop start).take L).length = L := by simp; omega
  obtain ⟨z, hz⟩ : ∃ z, (s.drop start).take (L + 1) = (s.drop start).take L ++ [z] := by
    rw [List.take_add_one]
    have : L < (s.drop start).length := by simp; omega
    rw [List.getElem?_eq_getElem this]
    exact ⟨_, rfl⟩
  rw [emitFrag]
  simp only [← hL, hmod]
  rw [if_neg (by omega)]
  subst hraw
  have e1 : A ++ (le 1 n ++ (le 1 k ++ (H ++ (body ++ (b0 :: (l2 ++ (x ++ [])) ++ tail'))))) =
      (A ++ (le 1 n ++ (le 1 k ++ (H ++ body)))) ++ (b0 :: (l2 ++ (x ++ tail'))) := by simp
  have hlen : (A ++ (le 1 n ++ (le 1 k ++ (H ++ body)))).length = w := by simp; omega
  rw [e1, setBits_split _ _ _ hlen]
  simp only [Option.bind_some]
  generalize hy : UInt8.ofNat _ = y
  rw [show ∀ P : List Byte, P ++ (y :: (l2 ++ (x ++ tail'))) = (P ++ [y]) ++ (l2 ++ (x ++ tail')) by simp,
    writeAt_split (by simp; omega) (by simp [hl2])]
  simp only [Option.bind_some]
  rw [show ∀ P Q : List Byte, P ++ (Q ++ (x ++ tail')) = (P ++ Q) ++ (x ++ tail') by simp, hz,
    writeAt_split (by simp; omega) (by simp [hx]; omega)]
  simp only [Option.bind_some]
  rw [show ∀ P Q : List Byte, P ++ ((Q ++ [z]) ++ tail') = (P ++ Q) ++ ([z] ++ tail') by simp,
    writeAt_split (X := [z]) (bs := [0])
      (by simp only [List.length_append, htxt, le_length] at hlen ⊢; simp; omega) rfl]
  simp only [Option.bind_some]
  simp only [List.append_assoc]
  rw [bumpAt_split hA]
  simp only [Option.bind_some]
  rw [← List.append_assoc A, bumpAt_split (by simp [hA])]
  subst hf
  simp only [Option.map_some, Option.some.injEq, MicroSt.mk.injEq, and_true]
  refine ⟨?_, by omega⟩
  rw [fragBytes, cstr_of h0, htxt, ← hy]
  have hd : (l2 ++ (x ++ tail')).drop (L + 3) = tail' := by
    rw [← List.append_assoc]
    exact List.drop_left' (by simp; omega)
  simp [hd]

/-! ## The loop -/

/-- Memory while the micro code of `fmt` is built at `p`: `A` before it, `H` the rest of the header. -/
structure MicroInv (fmt A H raw0 : List Byte) (p : Nat) (st : MicroSt) (a : MState) (body : List Byte) :
    Prop where
  raw : st.raw = A ++ (le 1 a.nibbles ++ (le 1 a.frags.length ++ (H ++ (body ++ raw0.drop st.w))))
  w : st.w = p + 2 + H.length + body.length
  room : st.w + 3 * (fmt.length - st.start) ≤ p + 2 + H.length + 3 * fmt.length
  cap : p + 2 + H.length + 3 * fmt.length + 4 ≤ raw0.length
  start : st.start ≤ fmt.length
  last : (a.frags = [] ∧ st.pf = none ∧ body = []) ∨
    ∃ fs f b0 j, a.frags = fs ++ [f] ∧ FragImg fs b0 ∧ body = b0 ++ fragBytes j f ∧ 0 ∉ f.text ∧
      f.text.length ≤ st.start ∧ st.pf = some (p + 2 + H.length + b0.length)

theorem MicroInv.img {fmt A H raw0 : List Byte} {p : Nat} {st : MicroSt} {a : MState} {body : List Byte}
    (h : MicroInv fmt A H raw0 p st a body) (h16 : fmt.length + 1 < 2 ^ 16) : FragImg a.frags body := by
  rcases h.last with ⟨h1, -, h2⟩ | ⟨fs, f, b0, j, h1, h2, h3, h4, h5, -⟩
  · rw [h1, h2]; exact .nil
  · rw [h1, h3]
    have := h.start
    refine h2.append ?_
    have h6 := FragImg.cons (f := f) j (by omega) h4 .nil
    simpa using h6

theorem MicroInv.len {fmt A H raw0 : List Byte} {p : Nat} {st : MicroSt} {a : MState} {body : List Byte}
    (h : MicroInv fmt A H raw0 p st a body) (hA : A.length = p) : st.raw.length = raw0.length := by
  have := h.w
  have := h.room
  have := h.cap
  rw [h.raw]; simp; omega

theorem cstr_drop {fmt : List Byte} (h0 : 0 ∉ fmt) {i : Nat} (hi : i ≤ fmt.length) :
    cstr ((fmt ++ [0]).drop i) = fmt.drop i := by
  rw [List.drop_append_of_le_length hi, cstr, List.takeWhile_append_of_pos]
  · simp
  · intro b hb
    have := List.mem_of_mem_drop hb
    simp only [decide_eq_true_eq, ne_eq]
    rintro rfl
    exact h0 this

theorem take_drop_nul {fmt : List Byte} {a i : Nat} (h : a ≤ i) (hi : i ≤ fmt.length) :
    ((fmt ++ [0]).drop a).take (i - a) = (fmt.drop a).take (i - a) := by
  rw [List.drop_append_of_le_length (by omega), List.take_append_of_le_length (by simp; omega)]

theorem microMemLoop_sim {fmt A H raw0 : List Byte} {p : Nat} (hA : A.length = p) (h0 : 0 ∉ fmt)
    (h16 : fmt.length + 1 < 2 ^ 16) (fuel : Nat) : ∀ (st : MicroSt) (a : MState) (body : List Byte),
    MicroInv fmt A H raw0 p st a body → st.start ≤ st.i → st.i ≤ fmt.length →
    a.text = (fmt.drop st.start).take (st.i - st.start) → fmt.length - st.i ≤ fuel →
    match microLoop fuel (fmt.drop st.i) st.pct a with
    | some a' => ∃ st' body', microMemLoop (fmt ++ [0]) p (fuel + 1) st = some (true, st') ∧
        MicroInv fmt A H raw0 p st' a' body' ∧ a'.text = fmt.drop st'.start
    | none => ∃ st' X, microMemLoop (fmt ++ [0]) p (fuel + 1) st = some (false, st') ∧ st'.w = p ∧
        st'.raw = A ++ X ∧ st'.raw.length = raw0.length := by
  induction fuel with
  | zero =>
    intro st a body hinv hsi hi ht hf
    have hi' : st.i = fmt.length := by omega
    have hc : (fmt ++ [0])[st.i]? = some 0 := by rw [hi']; simp
    have hd : fmt.drop st.i = [] := by rw [hi']; simp
    rw [hd]
    simp only [microLoop, List.append_nil]
    refine ⟨_, body, by rw [microMemLoop, hc]; simp only; rw [if_neg (by decide), if_pos (by decide)]; rfl, ?_, ?_⟩
    · exact ⟨hinv.raw, hinv.w, hinv.room, hinv.cap, hinv.start, hinv.last⟩
    · simp only; rw [ht, hi', List.take_of_length_le (by simp)]
  | succ fuel ih =>
    intro st a body hinv hsi hi ht hf
    by_cases hi' : st.i = fmt.length
    · have hc : (fmt ++ [0])[st.i]? = some 0 := by rw [hi']; simp
      have hc2 : (fmt ++ [0])[st.i + 1]? = none := by rw [hi']; simp
      have hd : fmt.drop st.i = [] := by rw [hi']; simp
      rw [hd]
      simp only [microLoop]
      refine ⟨{ st with i := st.i + 1, pct := 0 }, body, ?_, ?_, ?_⟩
      · rw [microMemLoop, hc]; simp only; rw [if_neg (by decide), if_pos (by decide), microMemLoop]
        simp only [hc2]
      · exact ⟨hinv.raw, hinv.w, hinv.room, hinv.cap, hinv.start, hinv.last⟩
      · simp only; rw [ht, hi', List.take_of_length_le (by simp)]
    · have hlt : st.i < fmt.length := by omega
      obtain ⟨c, hc⟩ : ∃ c, fmt[st.i]? = some c := ⟨_, List.getElem?_eq_getElem hlt⟩
      have hcs : (fmt ++ [0])[st.i]? = some c := by rw [List.getElem?_append_left hlt]; exact hc
      have hcons : fmt.drop st.i = c :: fmt.drop (st.i + 1) := by
        rw [List.drop_eq_getElem_cons hlt]
        rw [List.getElem?_eq_getElem hlt] at hc
        rw [Option.some.inj hc]
      have hstep : ∀ k, st.i + k ≤ fmt.length → a.text ++ (fmt.drop st.i).take k =
          (fmt.drop st.start).take (st.i + k - st.start) := by
        intro k hk
        rw [ht, show st.i + k - st.start = (st.i - st.start) + k by omega, List.take_add, List.drop_drop,
          show st.start + (st.i - st.start) = st.i by omega]
      rw [hcons, microMemLoop, hcs]
      simp only [microLoop]
      by_cases hb : c = ch '\\'
      · simp only [hb, if_true]
        by_cases h1 : st.i + 1 = fmt.length
        · have hd : fmt.drop (st.i + 1) = [] := by rw [h1]; simp
          have hn : (fmt ++ [0])[st.i + 2]? = none := by simp; omega
          rw [hd]
          simp only
          refine ⟨{ st with i := st.i + 2 }, body, by rw [microMemLoop]; simp only [hn], ?_, ?_⟩
          · exact ⟨hinv.raw, hinv.w, hinv.room, hinv.cap, hinv.start, hinv.last⟩
          · have := hstep 1 (by omega)
            rw [hcons, hb] at this
            simp only [List.take_succ_cons, List.take_zero] at this
            simp only
            rw [this, List.take_of_length_le (by simp; omega)]
        · obtain ⟨d, hd⟩ : ∃ d, fmt.drop (st.i + 1) = d :: fmt.drop (st.i + 2) :=
            ⟨_, List.drop_eq_getElem_cons (by omega)⟩
          rw [hd]
          simp only
          have := hstep 2 (by omega)
          rw [hcons, hb, hd] at this
          simp only [List.take_succ_cons, List.take_zero] at this
          exact ih { st with i := st.i + 2 } { a with text := a.text ++ [ch '\\', d] } body
            ⟨hinv.raw, hinv.w, hinv.room, hinv.cap, hinv.start, hinv.last⟩ (by simp only; omega) (by simp only; omega)
            (by simp only; exact this) (by simp only; omega)
      · have h1 := hstep 1 (by omega)
        rw [hcons] at h1
        simp only [List.take_succ_cons, List.take_zero] at h1
        rw [if_neg hb, if_neg hb]
        by_cases hp : c = ch '%'
        · simp only [hp, ne_eq, not_true_eq_false, if_false]
          rw [cstr_drop h0 hi, hcons, hp]
          rw [hp] at h1
          cases hm : (if (st.pct + 1) % 2 = 0 then none else regexMatch (ch '%' :: fmt.drop (st.i + 1))) with
          | none =>
            simp only
            exact ih { st with i := st.i + 1, pct := st.pct + 1 } { a with text := a.text ++ [ch '%'] } body
              ⟨hinv.raw, hinv.w, hinv.room, hinv.cap, hinv.start, hinv.last⟩ (by simp only; omega) (by simp only; omega)
              (by simp only; exact h1) (by simp only; omega)
          | some m =>
            simp only
            cases hty : getFormatType m.len m.spec with
            | none =>
              simp only
              exact ⟨_, _, rfl, rfl, hinv.raw, hinv.len hA⟩
            | some ty =>
              simp only
              have hm' : regexMatch (ch '%' :: fmt.drop (st.i + 1)) = some m := by
                split at hm
                · cases hm
                · exact hm
              obtain ⟨cv, -, hcv, -⟩ := regexMatch_inv hm'
              obtain ⟨k, hk⟩ : ∃ k, k = cv.bytes.length := ⟨_, rfl⟩
              have hk2 : 2 ≤ k := by rw [hk]; simp [RawConv.bytes, RawConv.tail]; omega
              have hlen := congrArg List.length hcv
              rw [List.length_append, ← hk] at hlen
              have hkl : (ch '%' :: fmt.drop (st.i + 1)).length - m.rest.length = k := by omega
              have hlen2 : fmt.length - st.i = k + m.rest.length := by
                rw [← hlen]; simp; omega
              have hrest : m.rest = fmt.drop (st.i + k) := by
                rw [← List.drop_drop, hcons, hp, hcv]
                exact (List.drop_left' hk.symm).symm
              have htk := hstep k (by omega)
              rw [hcons, hp] at htk
              rw [hkl]
              have hroom := hinv.room
              have hcap := hinv.cap
              have hw := hinv.w
              have hst := hinv.start
              have htxt := take_drop_nul (fmt := fmt) (a := st.start) (i := st.i + k) (by omega) (by omega)
              have hn0 : 0 ∉ ((fmt ++ [0]).drop st.start).take (st.i + k - st.start) := by
                rw [htxt]
                intro hmem
                exact h0 (List.mem_of_mem_drop (List.mem_of_mem_take hmem))
              obtain ⟨j, hj⟩ := emitFrag_split (s := fmt ++ [0]) (i := st.i + k) (m := m) (ty := ty) hA
                hinv.raw hw (by omega) (by simp; omega) (by omega) (by simp; omega) hn0 rfl
              rw [hj]
              simp only [decide_eq_true_eq, ne_eq]
              rw [hrest, htxt, ← htk]
              have htl : (a.text ++ (ch '%' :: fmt.drop (st.i + 1)).take k).length = st.i + k - st.start := by
                rw [htk]; simp; omega
              have ht0 : 0 ∉ a.text ++ (ch '%' :: fmt.drop (st.i + 1)).take k := by rw [htk, ← htxt]; exact hn0
              generalize a.text ++ (ch '%' :: fmt.drop (st.i + 1)).take k = ft at htl ht0 ⊢
              refine ih ⟨_, _, st.i + k, 0, st.i + k, some st.w⟩ _ (body ++ fragBytes j _)
                ⟨?_, ?_, ?_, hcap, ?_, .inr ⟨_, _, body, j, rfl, hinv.img h16, rfl, ht0, ?_, ?_⟩⟩ ?_ ?_ ?_ ?_
              · simp only [List.drop_drop, List.length_append, List.length_cons, List.length_nil]
                simp [Nat.add_assoc]
              · simp only [List.length_append, fragBytes_length (f := ⟨_, _, _, ft⟩) ht0]; omega
              · simp only; omega
              · simp only; omega
              · simp only; omega
              · simp only [hw]
              · simp only; omega
              · simp only; omega
              · simp
              · simp only; omega
        · rw [if_pos hp, if_pos hp]
          exact ih { st with i := st.i + 1, pct := 0 } { a with text := a.text ++ [c] } body
            ⟨hinv.raw, hinv.w, hinv.room, hinv.cap, hinv.start, hinv.last⟩ (by simp only; omega) (by simp only; omega)
            (by simp only; exact h1) (by simp only; omega)

/-! ## The whole record -/

theorem extendLast_snoc (fs : List Frag) (f : Frag) (t : List Byte) :
    extendLast (fs ++ [f]) t = fs ++ [{ f with text := f.text ++ t }] := by
  induction fs with
  | nil => rfl
  | cons g gs ih =>
    cases gs with
    | nil => rfl
    | cons h hs => exact congrArg (g :: ·) ih

theorem le_one_mod (n : Nat) : le 1 n = le 1 (n % 256) := by
  simp only [le, List.cons.injEq, and_true]
  apply UInt8.toNat_inj.1
  simp

/-- The bytes of a record, read back. -/
theorem metaAt_record {file body : List Byte} {level line n k : Nat} {frags : List Frag}
    (hfile : 0 ∉ file) (hf16 : file.length + 1 < 2 ^ 16) (hlev : level < 256) (hline : line < 2 ^ 32)
    (himg : FragImg frags body) (hk : k % 256 ≤ frags.length) (rest : List Byte) :
    metaAt (le 1 n ++ (le 1 k ++ ((le 1 level ++ le 4 line ++ le 2 (file.length + 1) ++ (file ++ [0])) ++
      (body ++ rest)))) = some ⟨file, line, level, n % 256, frags.take (k % 256)⟩ := by
  obtain ⟨e0, e1, e2, e3, e4, e5⟩ := entryFields (n % 256) (k % 256) level line (file.length + 1)
    (Nat.mod_lt _ (by omega)) (Nat.mod_lt _ (by omega)) hlev hline hf16
  rw [le_one_mod n, le_one_mod k]
  have e : le 1 (n % 256) ++ (le 1 (k % 256) ++ ((le 1 level ++ le 4 line ++ le 2 (file.length + 1) ++
      (file ++ [0])) ++ (body ++ rest))) = (le 1 (n % 256) ++ le 1 (k % 256) ++ le 1 level ++ le 4 line ++
      le 2 (file.length + 1)) ++ (file ++ 0 :: (body ++ rest)) := by simp
  rw [e, metaAt, takeN_append' _ _ e0]
  simp only [e1, e2, e3, e4, e5]
  have hd : (file ++ 0 :: (body ++ rest)).drop (file.length + 1) = body ++ rest := by
    rw [show file ++ 0 :: (body ++ rest) = (file ++ [0]) ++ (body ++ rest) by simp]
    exact List.drop_left' (by simp)
  rw [takeCStr_append (notMem_ne hfile), hd, himg.read rest _ hk]

/-- What `createMicroCode` leaves in memory. -/
theorem microMem_ok {raw fmt file : List Byte} {p line level : Nat} (h0 : 0 ∉ fmt)
    (h16 : fmt.length + 1 < 2 ^ 16) (hfile : 0 ∉ file) (hf16 : file.length + 1 < 2 ^ 16) (hlev : level < 256)
    (hline : line < 2 ^ 32) (hroom : p + file.length + 3 * fmt.length + 14 ≤ raw.length) :
    ∃ ok raw' p', microMem raw p fmt file line level = some (ok, raw', p') ∧
      match createMicroCode fmt file line level with
      | some m => ok = true ∧ ∃ rec, raw' = raw.take p ++ (rec ++ raw.drop p') ∧ p' = p + rec.length ∧
          0 < rec.length ∧ rec.length ≤ file.length + 3 * fmt.length + 14 ∧
          ∀ rest, metaAt (rec ++ rest) = some m
      | none => ok = false ∧ p' = p ∧ raw'.take p = raw.take p ∧ raw'.length = raw.length := by
  obtain ⟨A, hAdef⟩ : ∃ A, A = raw.take p := ⟨_, rfl⟩
  have hA : A.length = p := by rw [hAdef]; simp; omega
  obtain ⟨H, hH⟩ : ∃ H, H = le 1 level ++ le 4 line ++ le 2 (file.length + 1) ++ (file ++ [0]) := ⟨_, rfl⟩
  have hHl : H.length = file.length + 8 := by rw [hH]; simp; omega
  have hhead : le 1 0 ++ le 1 0 ++ le 1 level ++ le 4 line ++ le 2 (file.length + 1) ++ (file ++ [0]) =
      le 1 0 ++ (le 1 0 ++ H) := by rw [hH]; simp
  have hwr : writeAt p (le 1 0 ++ (le 1 0 ++ H)) raw =
      some (A ++ (le 1 0 ++ (le 1 0 ++ (H ++ ([] ++ raw.drop (p + 2 + H.length)))))) := by
    rw [writeAt, if_pos (by simp; omega), pokeAt, hAdef]
    have : p + (le 1 0 ++ (le 1 0 ++ H)).length = p + 2 + H.length := by simp; omega
    rw [this]; simp
  have hinv : MicroInv fmt A H raw p
      ⟨A ++ (le 1 0 ++ (le 1 0 ++ (H ++ ([] ++ raw.drop (p + 2 + H.length))))), p + 2 + H.length, 0, 0, 0, none⟩
      ⟨[], [], 0⟩ [] :=
    ⟨rfl, by simp, by simp only; omega, by omega, by simp, .inl ⟨rfl, rfl, rfl⟩⟩
  have hsim := microMemLoop_sim hA h0 h16 fmt.length _ _ _ hinv (by simp) (by simp) (by simp) (by simp)
  simp only [List.drop_zero] at hsim
  have hl : p + (le 1 0 ++ (le 1 0 ++ H)).length = p + 2 + H.length := by simp; omega
  rw [microMem]
  simp only [hhead, hwr, hl]
  rw [show (fmt ++ [(0 : Byte)]).length = fmt.length + 1 by simp]
  rw [createMicroCode]
  cases hm : microLoop fmt.length fmt 0 ⟨[], [], 0⟩ with
  | none =>
    rw [hm] at hsim
    obtain ⟨st', X, s1, s2, s3, s4⟩ := hsim
    simp only [s1, Option.bind_eq_bind, Option.bind_none]
    refine ⟨_, _, _, rfl, rfl, s2, ?_, s4⟩
    rw [s3, List.take_left' hA, hAdef]
  | some a =>
    rw [hm] at hsim
    obtain ⟨st', body, s1, s2, s3⟩ := hsim
    simp only [s1, Option.bind_eq_bind, Option.bind_some]
    have hw := s2.w
    have hr := s2.room
    have hcap := s2.cap
    have hst := s2.start
    rcases s2.last with ⟨l1, l2, l3⟩ | ⟨fs, f, b0, j, l1, l2, l3, l4, l5, l6⟩
    · -- no conversion
      have hraw := s2.raw
      rw [l1, l3] at hraw
      rw [l3] at hw
      simp only [List.length_nil, Nat.add_zero, List.nil_append] at hraw hw
      obtain ⟨d, t0, hdt, hd⟩ := split_at (l := raw.drop st'.w) (n := fmt.length + 4) (by simp; omega)
      have ht0 : t0 = raw.drop (st'.w + 3 + (fmt.length + 1)) := by
        have := congrArg (List.drop (fmt.length + 4)) hdt
        rw [List.drop_left' hd, List.drop_drop] at this
        rw [← this]; congr 1; omega
      obtain ⟨b, d, rfl⟩ : ∃ b0 l, d = b0 :: l := by
        cases d with
        | nil => simp at hd
        | cons b l => exact ⟨b, l, rfl⟩
      obtain ⟨d2, x, rfl, hd2⟩ := split_at (l := d) (n := 2) (by simp at hd; omega)
      have hx : x.length = fmt.length + 1 := by simp at hd; omega
      rw [hdt] at hraw
      rw [finishMicro, l2]
      simp only [List.length_append, List.length_cons, List.length_nil, Nat.zero_add]
      rw [if_neg (by omega), hraw, ← List.append_assoc A, writeAt_split (by simp [hA]) (by simp)]
      simp only [Option.bind_some]
      rw [show ∀ P Q R S T: List Byte, (P ++ Q) ++ (R ++ (S ++ (b :: T ++ t0))) =
        ((P ++ Q) ++ (R ++ S)) ++ (b :: (T ++ t0)) by simp, setBits_split _ _ _ (by simp; omega)]
      simp only [Option.bind_some]
      generalize hy : UInt8.ofNat _ = y
      rw [show ∀ P Q R : List Byte, P ++ (y :: (Q ++ R ++ t0)) = (P ++ [y]) ++ (Q ++ (R ++ t0)) by simp,
        writeAt_split (by simp; omega) (by simp [hd2])]
      simp only [Option.bind_some]
      rw [show ∀ P Q : List Byte, P ++ (Q ++ (x ++ t0)) = (P ++ Q) ++ (x ++ t0) by simp,
        writeAt_split (by simp; omega) (by simp [hx])]
      simp only [Option.map_some, l1, if_true]
      have himg : FragImg [⟨none, false, false, fmt⟩]
          (fragBytes (b.toNat / 128) ⟨none, false, false, fmt⟩ ++ []) := .cons _ h16 h0 .nil
      have hfb : fragBytes (b.toNat / 128) ⟨none, false, false, fmt⟩ = [y] ++ (le 2 (fmt.length + 1) ++ (fmt ++ [0])) := by
        rw [fragBytes, cstr_of h0, ← hy]; rfl
      refine ⟨_, _, _, rfl, rfl, le 1 a.nibbles ++ (le 1 1 ++ (H ++
        (fragBytes (b.toNat / 128) ⟨none, false, false, fmt⟩ ++ []))), ?_, ?_, by simp; omega, ?_, fun rest => ?_⟩
      · rw [hfb, ← hAdef, ht0]; simp
      · rw [hfb]; simp; omega
      · rw [hfb]; simp; omega
      · have := metaAt_record (n := a.nibbles) (k := 1) hfile hf16 hlev hline himg (by simp) rest
        rw [← hH] at this
        simpa using this
    · -- the last fragment is extended
      obtain ⟨t, q1, -⟩ := fragBytes_eq (junk := j) l4
      have q1' : ∀ x : List Byte, 0 ∉ x → fragBytes j { f with text := x } =
          t :: (le 2 (x.length + 1) ++ (x ++ [0])) := by
        intro x hx
        rw [fragBytes, cstr_of l4] at q1
        rw [fragBytes, cstr_of hx]
        simp only [List.cons.injEq] at q1 ⊢
        exact ⟨q1.1, trivial⟩
      have hfl : (fragBytes j f).length = f.text.length + 4 := fragBytes_length l4
      rw [l3, List.length_append, hfl] at hw
      have hraw := s2.raw
      rw [l3, q1] at hraw
      have htx : 0 ∉ fmt.drop st'.start := fun h => h0 (List.mem_of_mem_drop h)
      obtain ⟨e, he⟩ : ∃ e, e = fmt.length - st'.start := ⟨_, rfl⟩
      obtain ⟨x, t0, hdt, hx⟩ := split_at (l := raw.drop st'.w) (n := e) (by simp; omega)
      have ht0 : t0 = raw.drop (st'.w + e) := by
        have := congrArg (List.drop e) hdt
        rw [List.drop_left' hx, List.drop_drop] at this
        exact this.symm
      obtain ⟨z, hz⟩ : ∃ z, t0 = z :: raw.drop (st'.w + (e + 1)) := by
        rw [ht0]
        exact ⟨_, List.drop_eq_getElem_cons (by omega)⟩
      have hlen2 : unle ((st'.raw.drop (p + 2 + H.length + b0.length + 1)).take 2) = f.text.length + 1 := by
        rw [hraw, show A ++ (le 1 a.nibbles ++ (le 1 a.frags.length ++ (H ++ (b0 ++ t :: (le 2 (f.text.length + 1)
            ++ (f.text ++ [0])) ++ raw.drop st'.w)))) = (A ++ (le 1 a.nibbles ++ (le 1 a.frags.length ++ (H ++
            (b0 ++ [t]))))) ++ (le 2 (f.text.length + 1) ++ ((f.text ++ [0]) ++ raw.drop st'.w)) by simp,
          List.drop_left' (by simp; omega), List.take_left' (by simp)]
        exact unle_le_of_lt (by simp; omega)
      rw [finishMicro, l6]
      simp only [hlen2, List.length_append, List.length_cons, List.length_nil, Nat.zero_add]
      rw [if_neg (by omega), List.drop_append_of_le_length hst, hraw, hdt,
        show A ++ (le 1 a.nibbles ++ (le 1 a.frags.length ++ (H ++ (b0 ++ t :: (le 2 (f.text.length + 1)
          ++ (f.text ++ [0])) ++ (x ++ t0))))) = (A ++ (le 1 a.nibbles ++ (le 1 a.frags.length ++ (H ++
          (b0 ++ [t] ++ (le 2 (f.text.length + 1) ++ f.text)))))) ++ (([0] ++ x) ++ t0) by simp,
        writeAt_split (by simp; omega) (by simp; omega)]
      simp only [Option.bind_some]
      rw [show A ++ (le 1 a.nibbles ++ (le 1 a.frags.length ++ (H ++
          (b0 ++ [t] ++ (le 2 (f.text.length + 1) ++ f.text))))) ++ (fmt.drop st'.start ++ [0] ++ t0) =
          (A ++ (le 1 a.nibbles ++ (le 1 a.frags.length ++ (H ++ (b0 ++ [t]))))) ++
          (le 2 (f.text.length + 1) ++ (f.text ++ (fmt.drop st'.start ++ [0] ++ t0))) by simp,
        writeAt_split (by simp; omega) (by simp)]
      have hfne : a.frags ≠ [] := by rw [l1]; simp
      simp only [Option.map_some, hfne, if_false]
      have h0' : 0 ∉ f.text ++ fmt.drop st'.start := by
        rw [List.mem_append]; exact fun h => h.elim l4 htx
      have himg : FragImg (fs ++ [{ f with text := f.text ++ fmt.drop st'.start }])
          (b0 ++ (fragBytes j { f with text := f.text ++ fmt.drop st'.start } ++ [])) :=
        l2.append (.cons j (by simp; omega) h0' .nil)
      have hfb := q1' _ h0'
      refine ⟨_, _, _, rfl, rfl, (le 1 a.nibbles ++ (le 1 a.frags.length ++ (H ++
        ((b0 ++ (fragBytes j { f with text := f.text ++ fmt.drop st'.start } ++ [])) ++ [z])))), ?_, ?_, by simp; omega,
        ?_, fun rest => ?_⟩
      · rw [hfb, ← hAdef, hz]
        simp only [List.length_append, List.length_drop, List.append_assoc, List.cons_append, List.nil_append,
          List.append_nil]
        rw [show f.text.length + 1 + (fmt.length + 1 - st'.start) - 1 = f.text.length + (fmt.length - st'.start) + 1
          by omega, show st'.w + (fmt.length + 1 - st'.start) = st'.w + (e + 1) by omega]
      · rw [hfb]; simp; omega
      · rw [hfb]; simp; omega
      · have := metaAt_record (n := a.nibbles) (k := a.frags.length) hfile hf16 hlev hline himg
          (by rw [l1]; simp; exact Nat.mod_le _ _) ([z] ++ rest)
        rw [← hH] at this
        rw [s3, l1, extendLast_snoc, ← l1]
        simpa using this

end NanoLog
