import Verif.ArgsSpec
import Verif.PackerLemmas

/-! # Lemmas about storing, compressing and decoding arguments -/

namespace NanoLog

/-- Tags of a scalar list. -/
abbrev tags (ss : List Scalar) : List Nat := ss.map fun s => s.pack.1
/-- Packed bytes of a scalar list. -/
abbrev pks (ss : List Scalar) : List Byte := (ss.map fun s => s.pack.2).flatten

theorem pks_cons (s : Scalar) (ss : List Scalar) : pks (s :: ss) = s.pack.2 ++ pks ss := by
  simp [pks]

theorem tags_cons (s : Scalar) (ss : List Scalar) : tags (s :: ss) = s.pack.1 :: tags ss := rfl

theorem truncLen_strDyn (prev len : Nat) :
    truncLen .strDyn prev len = if len > prev then prev else len := by
  simp [truncLen, ParamType.code]

theorem truncLen_strNo (prev len : Nat) : truncLen .strNo prev len = len := by
  simp [truncLen, ParamType.code]

theorem truncLen_strPrec (n prev len : Nat) :
    truncLen (.strPrec n) prev len = if len > n then n else len := by
  simp [truncLen, ParamType.code]

theorem code_nonString_iff (p : ParamType) :
    p.code ≤ -3 ↔ (p = .nonString ∨ p = .dynPrec ∨ p = .dynWidth) := by
  cases p <;> simp [ParamType.code]; omega

theorem Arg.toScalar_valid {a : Arg} (h : a.Valid) : a.toScalar.Valid := by
  cases a <;> simp_all [Arg.Valid, Arg.toScalar, Scalar.Valid]

theorem Scalar.repr_length {s : Scalar} (h : s.Valid) : s.repr.length = s.size := by
  cases s <;> simp_all [Scalar.Valid, Scalar.repr, Scalar.size]

theorem Arg.toScalar_size (a : Arg) : a.toScalar.size = a.ty.size := by
  cases a <;> rfl

theorem readScalar_repr {a : Arg} (h : a.Valid) :
    readScalar a.ty a.toScalar.repr = a.toScalar := by
  cases a with
  | int t v =>
    simp only [Arg.ty, Arg.toScalar, Scalar.repr, readScalar]
    congr 1
    have hv : t.InRange v := h
    rw [unle_le]
    cases t <;> simp [ITy.InRange, ITy.lo, ITy.hi, ITy.signed, ITy.bytes, ITy.cast] at * <;> omega
  | ptr k v =>
    simp only [Arg.ty, Arg.toScalar, Scalar.repr, readScalar]
    rw [unle_le_of_lt]
    have hv : v < 2 ^ 64 := h
    simpa using hv
  | f32 b => rfl
  | f64 b => rfl
  | f80 b => rfl
  | cstr a s =>
    simp only [Arg.ty, Arg.toScalar, Scalar.repr, readScalar]
    rw [unle_le_of_lt]
    have hv : a < 2 ^ 64 := h.1
    simpa using hv
  | wstr a s =>
    simp only [Arg.ty, Arg.toScalar, Scalar.repr, readScalar]
    rw [unle_le_of_lt]
    have hv : a < 2 ^ 64 := h.1
    simpa using hv

theorem truncLen_le (p : ParamType) (prev len : Nat) : truncLen p prev len ≤ len := by
  unfold truncLen
  split
  · omega
  · split <;> omega

@[simp] theorem wbytes_length (s : List Nat) : (wbytes s).length = 4 * s.length := by
  induction s with
  | nil => rfl
  | cons w ws ih =>
    simp only [wbytes, List.flatMap_cons, List.length_append, le_length, List.length_cons] at *
    omega

/-- Bytes copied for a string argument. -/
def strBody (a : Arg) (n : Nat) : List Byte :=
  match a with
  | .cstr _ s => s.take n
  | .wstr _ s => (wbytes s).take n
  | _ => []

/-- The argument is a character or wide string. -/
def Arg.isStr : Arg → Prop
  | .cstr .. | .wstr .. => True
  | _ => False

theorem getArgSize_scalar {p : ParamType} (prev : Nat) (a : Arg) (h : p.code ≤ -3) :
    (getArgSize p prev a).1 = a.ty.size ∧ (getArgSize p prev a).2.1 = 0 := by
  cases a with
  | ptr k v => cases k <;> simp [getArgSize, Arg.ty, ATy.size]
  | _ => simp [getArgSize, Arg.ty, ATy.size, h]

theorem getArgSize_str {p : ParamType} (prev : Nat) {a : Arg} (h : ¬ p.code ≤ -3) (hs : a.isStr) :
    (getArgSize p prev a).1 = (getArgSize p prev a).2.1 + 4 ∧
    (strBody a (getArgSize p prev a).2.1).length = (getArgSize p prev a).2.1 := by
  cases a with
  | cstr _ s =>
    have := truncLen_le p prev s.length
    simp [getArgSize, h, strBody]; omega
  | wstr _ s =>
    have := truncLen_le p prev s.length
    simp [getArgSize, h, strBody]; omega
  | _ => exact absurd hs (by simp [Arg.isStr])

theorem getArgSize_other {p : ParamType} (prev : Nat) {a : Arg} (hs : ¬ a.isStr) :
    (getArgSize p prev a).1 = a.ty.size := by
  cases a with
  | ptr k v => cases k <;> simp [getArgSize, Arg.ty, ATy.size]
  | cstr _ s => exact absurd trivial hs
  | wstr _ s => exact absurd trivial hs
  | _ => simp [getArgSize, Arg.ty, ATy.size]

theorem storeArgument_scalar {p : ParamType} (n : Nat) (a : Arg) (h : p.code ≤ -3) :
    storeArgument p n a = a.toScalar.repr := by
  cases a <;> simp [storeArgument, h]

theorem storeArgument_str {p : ParamType} (n : Nat) {a : Arg} (h : ¬ p.code ≤ -3) (hs : a.isStr) :
    storeArgument p n a = le 4 n ++ strBody a n := by
  cases a with
  | cstr _ s => simp [storeArgument, h, strBody]
  | wstr _ s => simp [storeArgument, h, strBody]
  | _ => exact absurd hs (by simp [Arg.isStr])

theorem storeArgument_other {p : ParamType} (n : Nat) {a : Arg} (hs : ¬ a.isStr) :
    storeArgument p n a = a.toScalar.repr := by
  cases a with
  | cstr _ s => exact absurd trivial hs
  | wstr _ s => exact absurd trivial hs
  | _ => simp [storeArgument]

theorem storeArgument_length (p : ParamType) (prev : Nat) {a : Arg} (ha : a.Valid) :
    (storeArgument p (getArgSize p prev a).2.1 a).length = (getArgSize p prev a).1 := by
  have hr := Scalar.repr_length (Arg.toScalar_valid ha)
  rw [Arg.toScalar_size] at hr
  by_cases h : p.code ≤ -3
  · rw [storeArgument_scalar _ _ h, (getArgSize_scalar prev a h).1, hr]
  · by_cases hs : a.isStr
    · rw [storeArgument_str _ h hs]
      have := getArgSize_str prev h hs
      simp [this.2, this.1]; omega
    · rw [storeArgument_other _ hs, getArgSize_other prev hs, hr]

theorem storeArguments_length (ps : List ParamType) (prev : Nat) (as : List Arg)
    (hl : ps.length = as.length) (ha : ∀ a ∈ as, a.Valid) :
    (storeArguments ps (getArgSizes ps prev as).2 as).length = (getArgSizes ps prev as).1 := by
  induction ps generalizing prev as with
  | nil => cases as <;> simp [getArgSizes, storeArguments]
  | cons p ps ih =>
    cases as with
    | nil => simp at hl
    | cons a as =>
      simp only [getArgSizes, storeArguments, List.length_append]
      rw [storeArgument_length p prev (ha a (by simp)),
        ih _ as (by simpa using hl) (fun b hb => ha b (by simp [hb]))]

/-- The compressed item for each argument: a scalar to pack or string bytes with their
terminator. -/
def items : List ParamType → Nat → List Arg → List (Scalar ⊕ List Byte)
  | p :: ps, prev, a :: as =>
    (if p.code ≤ -3 then .inl a.toScalar
     else .inr (strBody a (getArgSize p prev a).2.1 ++ List.replicate a.ty.charWidth 0)) ::
      items ps (getArgSize p prev a).2.2 as
  | _, _, _ => []

/-- Scalars among the items. -/
def itemScalars : List (Scalar ⊕ List Byte) → List Scalar
  | [] => []
  | .inl s :: is => s :: itemScalars is
  | .inr _ :: is => itemScalars is

/-- String bytes among the items. -/
def itemStrs : List (Scalar ⊕ List Byte) → List Byte
  | [] => []
  | .inl _ :: is => itemStrs is
  | .inr b :: is => b ++ itemStrs is

/-- Parameters and arguments correspond: string parameters have string arguments. -/
inductive Matches : List ParamType → List Arg → Prop where
  | nil : Matches [] []
  | cons {p a ps as} (h : p.code ≤ -3 ∨ a.isStr) (ht : Matches ps as) :
      Matches (p :: ps) (a :: as)

theorem compressSingle_scalar {p : ParamType} {a : Arg} (h : p.code ≤ -3) (ha : a.Valid)
    (so : Bool) (rest : List Byte) :
    compressSingle a.ty p so (a.toScalar.repr ++ rest) =
      some (if so then (none, [], rest)
            else (some a.toScalar.pack.1, a.toScalar.pack.2, rest)) := by
  have hr := Scalar.repr_length (Arg.toScalar_valid ha)
  rw [Arg.toScalar_size] at hr
  have h' : ¬ p.code > -3 := by omega
  simp only [compressSingle, h', if_false, takeN_append' _ rest hr, readScalar_repr ha,
    Option.bind_eq_bind, Option.bind_some]
  cases so <;> rfl

theorem compressSingle_str {p : ParamType} {a : Arg} {n : Nat} (h : ¬ p.code ≤ -3)
    (hn : n < 2 ^ 32) (hb : (strBody a n).length = n) (so : Bool) (rest : List Byte) :
    compressSingle a.ty p so (le 4 n ++ strBody a n ++ rest) =
      some (none, if so then strBody a n ++ List.replicate a.ty.charWidth 0 else [], rest) := by
  have h' : p.code > -3 := by omega
  have e : unle (le 4 n) = n := unle_le_of_lt (by simpa using hn)
  simp only [compressSingle, h', if_true, List.append_assoc, takeN_le,
    Option.bind_eq_bind, Option.bind_some, e, takeN_append' _ rest hb]
  cases so <;> rfl

theorem compressPass_items {ps : List ParamType} {as : List Arg} (hm : Matches ps as)
    (prev : Nat) (ha : ∀ a ∈ as, a.Valid) (hsz : (getArgSizes ps prev as).1 < 2 ^ 32)
    (rest : List Byte) :
    compressPass false (as.map Arg.ty) ps (storeArguments ps (getArgSizes ps prev as).2 as ++ rest)
      = some (tags (itemScalars (items ps prev as)), pks (itemScalars (items ps prev as)), rest) ∧
    compressPass true (as.map Arg.ty) ps (storeArguments ps (getArgSizes ps prev as).2 as ++ rest)
      = some ([], itemStrs (items ps prev as), rest) := by
  induction hm generalizing prev with
  | nil => simp [compressPass, storeArguments, items, itemScalars, itemStrs]
  | @cons p a ps as h ht ih =>
    have hsz : (getArgSize p prev a).1 + (getArgSizes ps (getArgSize p prev a).2.2 as).1 < 2 ^ 32 :=
      hsz
    have ih' := ih (getArgSize p prev a).2.2 (fun b hb => ha b (by simp [hb])) (by omega)
    simp only [List.map_cons, getArgSizes, storeArguments, List.append_assoc, compressPass, items]
    by_cases hp : p.code ≤ -3
    · simp only [storeArgument_scalar _ _ hp, compressSingle_scalar hp (ha a (by simp)),
        Option.bind_eq_bind, Option.bind_some, Bool.false_eq_true, if_false, if_true,
        ih'.1, ih'.2, hp]
      simp [itemScalars, itemStrs, pks_cons]
    · have hs : a.isStr := by rcases h with h | h; exact absurd h hp; exact h
      have hg := getArgSize_str prev hp hs
      have := compressSingle_str (a := a) hp (n := (getArgSize p prev a).2.1) (by omega) hg.2
      simp only [storeArgument_str _ hp hs, this,
        Option.bind_eq_bind, Option.bind_some, Bool.false_eq_true, if_false, if_true,
        ih'.1, ih'.2, hp]
      simp [itemScalars, itemStrs]

theorem items_scalars_length {ps : List ParamType} {as : List Arg} (hm : Matches ps as)
    (prev : Nat) : (itemScalars (items ps prev as)).length = numNibblesNeeded ps := by
  induction hm generalizing prev with
  | nil => rfl
  | @cons p a ps as h ht ih =>
    have ih' := ih (getArgSize p prev a).2.2
    unfold numNibblesNeeded at *
    by_cases hp : p.code ≤ -3
    · have hc := (code_nonString_iff p).1 hp
      simp only [items, hp, if_true, itemScalars, List.length_cons]
      rw [List.filter_cons_of_pos (by rcases hc with h | h | h <;> simp [h])]
      simp [ih']
    · have hc := mt (code_nonString_iff p).2 hp
      simp only [items, hp, if_false, itemScalars]
      rw [List.filter_cons_of_neg (by simp_all)]
      simp [ih']

/-- Compression of what the log call stored, in closed form. -/
theorem compress_eq {ps : List ParamType} {as : List Arg} (hm : Matches ps as)
    (ha : ∀ a ∈ as, a.Valid) (hsz : argAllocSize ps as < 2 ^ 32) (junk : Nat)
    (rest : List Byte) :
    compress junk (numNibblesNeeded ps) (as.map Arg.ty) ps (storedArgs ps as ++ rest) =
      some (encodeScalars junk (itemScalars (items ps initPrecision as)) ++
        itemStrs (items ps initPrecision as), rest) := by
  have h := compressPass_items hm initPrecision ha hsz rest
  have hl := items_scalars_length hm initPrecision
  simp only [compress, storedArgs, h.1, h.2, Option.bind_eq_bind, Option.bind_some]
  rw [if_pos (by simpa using hl)]
  rfl

theorem items_valid {ps : List ParamType} {as : List Arg} (prev : Nat) (ha : ∀ a ∈ as, a.Valid) :
    ∀ s ∈ itemScalars (items ps prev as), s.Valid := by
  induction ps generalizing as prev with
  | nil => simp [items, itemScalars]
  | cons p ps ih =>
    cases as with
    | nil => simp [items, itemScalars]
    | cons a as =>
      have ih' := ih (as := as) (getArgSize p prev a).2.2 (fun b hb => ha b (by simp [hb]))
      by_cases hp : p.code ≤ -3
      · simp only [items, hp, if_true, itemScalars]
        intro s hs
        rcases List.mem_cons.1 hs with rfl | hs
        · exact Arg.toScalar_valid (ha a (by simp))
        · exact ih' s hs
      · simpa only [items, hp, if_false, itemScalars] using ih'

/-! ## Decoding -/

/-- The nibbler is positioned before the scalars `ss`, with memory `rest` after them. -/
def NibAt (junk : Nat) (nb : Nibbler) (ss : List Scalar) (rest : List Byte) : Prop :=
  nb.cur = pks ss ++ rest ∧ nb.left = (pks ss).length ∧ ∃ more : List Byte,
    (nb.onFirst = true → nb.nibs = writeNibbles junk (tags ss) ++ more) ∧
    (nb.onFirst = false → ∃ b bs, nb.nibs = b :: bs ∧ ∀ s ss', ss = s :: ss' →
      nibSecond b = s.pack.1 % 16 ∧ bs = writeNibbles junk (tags ss') ++ more)

theorem NibAt.new {junk : Nat} {ss : List Scalar} (rest : List Byte) (h : ∀ s ∈ ss, s.Valid) :
    ∃ nb, Nibbler.new (encodeScalars junk ss ++ rest) ss.length = some (nb, rest) ∧
      NibAt junk nb ss rest := by
  refine ⟨_, Nibbler.new_encode junk rest h, rfl, rfl, pks ss ++ rest, ?_, ?_⟩
  · intro _; simp [encodeScalars]
  · intro h; simp at h

theorem NibAt.next {junk : Nat} {nb : Nibbler} {s : Scalar} {ss : List Scalar}
    {rest : List Byte} (h : NibAt junk nb (s :: ss) rest) (hs : s.Valid) {r : RTy} {v : RVal}
    (hr : Reads s r v) :
    ∃ nb', nb.getNext r = some (v, nb') ∧ NibAt junk nb' ss rest := by
  obtain ⟨h1, h2, more, h3, h4⟩ := h
  obtain ⟨nibs, onFirst, cur, left⟩ := nb
  simp only at h1 h2 h3 h4
  subst h1 h2
  have e : pks (s :: ss) ++ rest = s.pack.2 ++ (pks ss ++ rest) := by simp [pks_cons]
  have el : ((pks (s :: ss)).length : Int) = s.pack.2.length + (pks ss).length := by
    simp [pks_cons]
  cases onFirst with
  | true =>
    have h3 := h3 rfl
    cases ss with
    | nil =>
      subst h3
      simp only [List.map_cons, List.map_nil, writeNibbles, List.cons_append, List.nil_append]
      rw [e]
      refine ⟨_, Nibbler.getNext_ok hs hr _ _ _ true _ (by simp [nibFirst_two]) (by omega),
        rfl, ?_, more, ?_, ?_⟩
      · simp
      · intro h; simp at h
      · intro _; exact ⟨_, _, rfl, fun s ss' h => by simp at h⟩
    | cons s' ss' =>
      subst h3
      simp only [List.map_cons, writeNibbles, List.cons_append] at e el ⊢
      rw [e]
      refine ⟨_, Nibbler.getNext_ok hs hr _ _ _ true _ (by simp [nibFirst_two]) (by omega),
        rfl, ?_, more, ?_, ?_⟩
      · simp only; omega
      · intro h; simp at h
      · intro _
        refine ⟨_, _, rfl, fun t tt h => ?_⟩
        injection h with h5 h6
        subst h5 h6
        exact ⟨nibSecond_two _ _, rfl⟩
  | false =>
    obtain ⟨b, bs, rfl, h5⟩ := h4 rfl
    obtain ⟨h6, h7⟩ := h5 s ss rfl
    rw [e]
    refine ⟨_, Nibbler.getNext_ok hs hr _ _ _ false _ (by simpa using h6) (by omega),
        rfl, ?_, more, ?_, ?_⟩
    · simp only; omega
    · intro _; simpa using h7
    · intro h; simp at h

theorem takeCStr_append {s : List Byte} (h : ∀ b ∈ s, b ≠ 0) (rest : List Byte) :
    takeCStr (s ++ 0 :: rest) = some (s, rest) := by
  induction s with
  | nil => simp [takeCStr]
  | cons b bs ih =>
    have := h b (by simp)
    simp [takeCStr, this, ih (fun c hc => h c (by simp [hc]))]

theorem takeWStr_append {s : List Nat} (h : ∀ w ∈ s, 0 < w ∧ w < 2 ^ 32) (rest : List Byte) :
    takeWStr (wbytes s ++ 0 :: 0 :: 0 :: 0 :: rest) = some (s, rest) := by
  induction s with
  | nil => simp [wbytes, takeWStr, unle]
  | cons w ws ih =>
    have hw := h w (by simp)
    have e := unle_le_of_lt (k := 4) (n := w) (by simpa using hw.2)
    have ih' := ih (fun c hc => h c (by simp [hc]))
    simp only [wbytes, List.flatMap_cons, List.append_assoc] at ih' ⊢
    have : ∃ a b c d, le 4 w = [a, b, c, d] := ⟨_, _, _, _, rfl⟩
    obtain ⟨a, b, c, d, he⟩ := this
    rw [he] at e ⊢
    have hne : ¬ unle [a, b, c, d] = 0 := by omega
    simp only [List.cons_append, List.nil_append, takeWStr, hne, if_false, ih']
    simp [e]

theorem wbytes_take (s : List Nat) (n : Nat) : (wbytes s).take (n * 4) = wbytes (s.take n) := by
  induction s generalizing n with
  | nil => simp [wbytes]
  | cons w ws ih =>
    cases n with
    | zero => simp [wbytes]
    | succ n =>
      have := ih n
      simp only [wbytes, List.flatMap_cons, List.take_succ_cons] at this ⊢
      rw [List.take_append, List.take_of_length_le (by simp; omega), ← this]
      congr 2
      simp; omega

/-- Effective precision and the truncated length agree. -/
theorem take_truncLen {α : Type} {c : Conv} {pv : Option Int} (prev : Nat) (s : List α)
    (hty : c.ty.rty = none) (hl : s.length < 2 ^ 63)
    (hprev : ∀ x, pv = some x → c.dynP = true → prev = (ITy.u64.cast x).toNat ∧
      -(2 ^ 63) ≤ x ∧ x < 2 ^ 64)
    (hp : c.dynP = true → ∃ x, pv = some x) (p : ParamType)
    (hpar : c.params.getLast? = some p) :
    s.take (truncLen p prev s.length) =
      truncate (if c.dynP then pv else c.prec.map Int.ofNat) s := by
  have hlast : p = (if c.dynP then .strDyn
      else match c.prec with
        | some n => .strPrec n
        | none => .strNo) := by
    simp only [Conv.params, hty] at hpar
    simp at hpar
    exact hpar.symm
  subst hlast
  cases hd : c.dynP with
  | true =>
    obtain ⟨x, rfl⟩ := hp hd
    obtain ⟨h1, h2, h3⟩ := hprev x rfl hd
    simp only [if_true, truncate, truncLen_strDyn]
    have hc : (ITy.u64.cast x) = x % 2 ^ 64 := by simp [ITy.cast, ITy.signed, ITy.bytes]
    rw [hc] at h1
    by_cases hx : x < 0
    · rw [if_pos hx, if_neg (by omega)]; simp
    · rw [if_neg hx]
      have : prev = x.toNat := by omega
      subst this
      split
      · rfl
      · rw [List.take_of_length_le (by simp), List.take_of_length_le (by omega)]
  | false =>
    simp only [Bool.false_eq_true, if_false]
    cases hc : c.prec with
    | none => simp [truncate, truncLen_strNo]
    | some n =>
      simp only [Option.map_some, truncate, truncLen_strPrec, Int.ofNat_eq_natCast,
        Int.toNat_natCast]
      rw [if_neg (by omega : ¬ ((n : Int) < 0))]
      split
      · rfl
      · rw [List.take_of_length_le (by simp), List.take_of_length_le (by omega)]

/-- Last parameter of a conversion. -/
def Conv.last (c : Conv) : ParamType :=
  if c.ty.rty.isSome then .nonString
  else if c.dynP then .strDyn
  else match c.prec with
    | some n => .strPrec n
    | none => .strNo

/-- The item a value argument compresses to. -/
def valItem (p : ParamType) (prev : Nat) (a : Arg) : Scalar ⊕ List Byte :=
  if p.code ≤ -3 then .inl a.toScalar
  else .inr (strBody a (getArgSize p prev a).2.1 ++ List.replicate a.ty.charWidth 0)

theorem items_conv {c : Conv} {ws pA : List Arg} {a : Arg} {wv pv wd pd : Option Int}
    (hw : StarArg c.dynW ws wv wd) (hp : StarArg c.dynP pA pv pd)
    (ps : List ParamType) (as' : List Arg) (prev : Nat) :
    ∃ prev1 prev2,
      items (c.params ++ ps) prev (ws ++ pA ++ [a] ++ as') =
        (ws ++ pA).map (fun b => .inl b.toScalar) ++ valItem c.last prev1 a ::
          items ps prev2 as' ∧
      (∀ x, pv = some x → prev1 = (ITy.u64.cast x).toNat) := by
  have e : c.params = (if c.dynW then [.dynWidth] else []) ++
      (if c.dynP then [.dynPrec] else []) ++ [c.last] := rfl
  rw [e]
  generalize c.last = p
  generalize c.dynW = w at *
  generalize c.dynP = d at *
  cases hw <;> cases hp
  · exact ⟨prev, _, rfl, by simp⟩
  · rename_i t x h
    exact ⟨(ITy.u64.cast x).toNat, _, rfl, by simp⟩
  · rename_i t x h
    exact ⟨prev, _, rfl, by simp⟩
  · rename_i t x h t' x' h'
    exact ⟨(ITy.u64.cast x').toNat, _, rfl, by simp⟩

theorem takeStar_ok {junk : Nat} {has : Bool} {as : List Arg} {v d : Option Int}
    (h : StarArg has as v d) (ha : ∀ a ∈ as, a.Valid) {nb : Nibbler} {ss : List Scalar}
    {rest : List Byte} (hn : NibAt junk nb (as.map Arg.toScalar ++ ss) rest) :
    ∃ nb', takeStar has nb = some (d, nb') ∧ NibAt junk nb' ss rest := by
  cases h with
  | absent => exact ⟨nb, rfl, hn⟩
  | present t x h =>
    obtain ⟨nb', h1, h2⟩ := NibAt.next hn (Arg.toScalar_valid (ha _ (by simp)))
      (Reads.int t .i32 x h)
    exact ⟨nb', by simp only [takeStar, if_true, h1], h2⟩

theorem itemScalars_append (x y : List (Scalar ⊕ List Byte)) :
    itemScalars (x ++ y) = itemScalars x ++ itemScalars y := by
  induction x with
  | nil => rfl
  | cons i x ih => cases i <;> simp [itemScalars, ih]

theorem itemStrs_append (x y : List (Scalar ⊕ List Byte)) :
    itemStrs (x ++ y) = itemStrs x ++ itemStrs y := by
  induction x with
  | nil => rfl
  | cons i x ih => cases i <;> simp [itemStrs, ih]

theorem itemScalars_inl (x : List Arg) :
    itemScalars (x.map fun b => .inl b.toScalar) = x.map Arg.toScalar := by
  induction x with
  | nil => rfl
  | cons i x ih => simp [itemScalars, ih]

theorem itemStrs_inl (x : List Arg) :
    itemStrs (x.map fun b => .inl b.toScalar) = [] := by
  induction x with
  | nil => rfl
  | cons i x ih => simp [itemStrs, ih]

theorem Conv.last_str {c : Conv} (h : c.ty.rty = none) : ¬ c.last.code ≤ -3 := by
  unfold Conv.last
  simp only [h, Option.isSome_none, Bool.false_eq_true, if_false]
  split
  · simp [ParamType.code]
  · split <;> simp [ParamType.code]; omega

theorem Conv.last_scalar {c : Conv} {r : RTy} (h : c.ty.rty = some r) : c.last.code ≤ -3 := by
  simp [Conv.last, h, ParamType.code]

theorem Conv.last_eq (c : Conv) : c.params.getLast? = some c.last := by
  unfold Conv.params Conv.last
  simp
  rfl

theorem StarArg.range {has : Bool} {as : List Arg} {v d : Option Int}
    (h : StarArg has as v d) (ha : ∀ a ∈ as, a.Valid) :
    (∀ x, v = some x → -(2 ^ 63) ≤ x ∧ x < 2 ^ 64) ∧ (has = true → ∃ x, v = some x) := by
  cases h with
  | absent => simp
  | present t x h =>
    refine ⟨fun y hy => ?_, fun _ => ⟨x, rfl⟩⟩
    injection hy with hy
    subst hy
    have : t.InRange x := ha (.int t x) (by simp)
    cases t <;> simp [ITy.InRange, ITy.lo, ITy.hi, ITy.signed, ITy.bytes] at this <;> omega

/-- Decoding one conversion. -/
theorem decodeFrag_conv {junk : Nat} {c : Conv} {as : List Arg} {text : List Byte} {d : Decoded}
    (h : ConvPrints c as text d) (ha : ∀ a ∈ as, a.Valid) (ps : List ParamType)
    (as' : List Arg) (prev : Nat) :
    ∃ prev2, ∀ (nb : Nibbler) (rest rest' : List Byte),
      NibAt junk nb (itemScalars (items (c.params ++ ps) prev (as ++ as'))) rest →
      ∃ nb', decodeFrag nb (itemStrs (items (c.params ++ ps) prev (as ++ as')) ++ rest')
            (Piece.frag (some c, text)) =
          some (d, nb', itemStrs (items ps prev2 as') ++ rest') ∧
        NibAt junk nb' (itemScalars (items ps prev2 as')) rest := by
  cases h with
  | @mk ws pA a wv pv wd pd x _ hw hp hv =>
  obtain ⟨prev1, prev2, he, hpr⟩ := items_conv (a := a) hw hp ps as' prev
  refine ⟨prev2, fun nb rest rest' hn => ?_⟩
  rw [he] at hn ⊢
  have haw : ∀ b ∈ ws, b.Valid := fun b hb => ha b (by simp [hb])
  have hap : ∀ b ∈ pA, b.Valid := fun b hb => ha b (by simp [hb])
  have haa : a.Valid := ha a (by simp)
  rw [itemScalars_append, itemScalars_inl, List.map_append, List.append_assoc] at hn
  rw [itemStrs_append, itemStrs_inl, List.nil_append]
  obtain ⟨nb1, h1, hn1⟩ := takeStar_ok hw haw hn
  obtain ⟨nb2, h2, hn2⟩ := takeStar_ok hp hap hn1
  obtain ⟨hrange, hex⟩ := hp.range hap
  simp only [decodeFrag, Piece.frag, h1, h2, Option.bind_eq_bind, Option.bind_some]
  have htr : ∀ {α : Type} (s : List α), c.ty.rty = none → s.length < 2 ^ 63 →
      s.take (truncLen c.last prev1 s.length) =
      truncate (if c.dynP then pv else c.prec.map Int.ofNat) s := fun s hty hl =>
    take_truncLen prev1 s hty hl (fun x hx _ => ⟨hpr x hx, hrange x hx⟩) hex _ c.last_eq
  generalize hty : c.ty = ty at hv htr ⊢
  cases hv with
  | @scalar _ r _ v _ hr hread =>
    have hl : c.last.code ≤ -3 := Conv.last_scalar (by rw [hty]; exact hr)
    simp only [valItem, hl, if_true, itemScalars, itemStrs] at hn2 ⊢
    obtain ⟨nb3, h3, hn3⟩ := NibAt.next hn2 (Arg.toScalar_valid haa) hread
    refine ⟨nb3, ?_, hn3⟩
    cases ty <;> simp only [FormatType.rty, reduceCtorEq] at hr <;>
      simp [FormatType.rty, hr, h3]
  | str _ addr s =>
    have hl : ¬ c.last.code ≤ -3 := Conv.last_str (by rw [hty]; rfl)
    simp only [valItem, hl, if_false, itemScalars, itemStrs] at hn2 ⊢
    refine ⟨nb2, ?_, hn2⟩
    have hb : strBody (.cstr addr s) (getArgSize c.last prev1 (.cstr addr s)).2.1 =
        truncate (if c.dynP then pv else c.prec.map Int.ofNat) s := by
      simp only [getArgSize, hl, if_false, strBody]
      exact htr s rfl haa.2.1
    rw [hb]
    have hz : ∀ b ∈ truncate (if c.dynP then pv else c.prec.map Int.ofNat) s, b ≠ 0 := by
      intro b hb
      apply haa.2.2 b
      unfold truncate at hb
      split at hb
      · exact hb
      · split at hb
        · exact hb
        · exact List.mem_of_mem_take hb
    simp [Arg.ty, ATy.charWidth, takeCStr_append hz]
  | wstr _ addr s =>
    have hl : ¬ c.last.code ≤ -3 := Conv.last_str (by rw [hty]; rfl)
    simp only [valItem, hl, if_false, itemScalars, itemStrs] at hn2 ⊢
    refine ⟨nb2, ?_, hn2⟩
    have hb : strBody (.wstr addr s) (getArgSize c.last prev1 (.wstr addr s)).2.1 =
        wbytes (truncate (if c.dynP then pv else c.prec.map Int.ofNat) s) := by
      simp only [getArgSize, hl, if_false, strBody]
      rw [wbytes_take]
      rw [htr s rfl (by have := haa.2.1; omega)]
    rw [hb]
    have hz : ∀ b ∈ truncate (if c.dynP then pv else c.prec.map Int.ofNat) s,
        0 < b ∧ b < 2 ^ 32 := by
      intro b hb
      apply haa.2.2 b
      unfold truncate at hb
      split at hb
      · exact hb
      · split at hb
        · exact hb
        · exact List.mem_of_mem_take hb
    simp [Arg.ty, ATy.charWidth, List.replicate, takeWStr_append hz]

theorem decodeFrags_ok {junk : Nat} {cs : List Piece} {as : List Arg} {ds : List Decoded}
    (h : FormatPrints cs as ds) (ha : ∀ a ∈ as, a.Valid) (prev : Nat) (nb : Nibbler)
    (rest rest' : List Byte)
    (hn : NibAt junk nb (itemScalars (items (formatParams cs) prev as)) rest) :
    decodeFrags nb (itemStrs (items (formatParams cs) prev as) ++ rest') (formatFrags cs) =
      some (ds, rest') := by
  induction h generalizing prev nb with
  | nil => simp [formatParams, formatFrags, items, itemStrs, decodeFrags]
  | @text text cs as ds ht ih =>
    have := ih ha prev nb hn
    simp only [formatFrags, List.map_cons, decodeFrags, decodeFrag, Piece.frag, takeStar,
      Option.bind_eq_bind, Option.bind_some, Bool.false_eq_true, if_false]
    have e : formatParams ((none, text) :: cs) = formatParams cs := by
      simp [formatParams, Piece.params]
    rw [e]
    simp only [formatFrags] at this
    simp [this]
  | @conv c text as d cs as' ds h ht ih =>
    have e : formatParams ((some c, text) :: cs) = c.params ++ formatParams cs := by
      simp [formatParams, Piece.params]
    rw [e] at hn ⊢
    obtain ⟨prev2, h2⟩ := decodeFrag_conv (junk := junk) h (fun a ha' => ha a (by simp [ha']))
      (formatParams cs) as' prev
    obtain ⟨nb', h3, h4⟩ := h2 nb rest rest' hn
    have := ih (fun a ha' => ha a (by simp [ha'])) prev2 nb' h4
    simp only [formatFrags, List.map_cons, decodeFrags, h3,
      Option.bind_eq_bind, Option.bind_some]
    simp only [formatFrags] at this
    simp [this]

theorem FormatPrints.matches {cs : List Piece} {as : List Arg} {ds : List Decoded}
    (h : FormatPrints cs as ds) : Matches (formatParams cs) as := by
  induction h with
  | nil => exact .nil
  | text ht ih => simpa [formatParams, Piece.params] using ih
  | @conv c text as d cs as' ds h ht ih =>
    have e : formatParams ((some c, text) :: cs) = c.params ++ formatParams cs := by
      simp [formatParams, Piece.params]
    rw [e]
    cases h with
    | @mk ws pA a wv pv wd pd x _ hw hp hv =>
    have e2 : c.params = (if c.dynW then [.dynWidth] else []) ++
      (if c.dynP then [.dynPrec] else []) ++ [c.last] := rfl
    have hl : c.last.code ≤ -3 ∨ a.isStr := by
      generalize hty : c.ty = ty at hv
      cases hv with
      | scalar _ hr _ => exact .inl (Conv.last_scalar (by rw [hty]; exact hr))
      | str => exact .inr trivial
      | wstr => exact .inr trivial
    rw [e2]
    generalize c.dynW = w at *
    generalize c.dynP = d at *
    cases hw <;> cases hp <;>
      simp only [if_true, if_false, Bool.false_eq_true, List.nil_append, List.cons_append] <;>
      first
        | exact .cons hl ih
        | exact .cons (.inl (by simp [ParamType.code])) (.cons hl ih)
        | exact .cons (.inl (by simp [ParamType.code]))
            (.cons (.inl (by simp [ParamType.code])) (.cons hl ih))

end NanoLog
