import Verif.Args

/-! Helper lemmas: decoding the arguments of a message does not depend on what follows them in memory. -/

namespace NanoLog

theorem takeN_app {n : Nat} {l a r : List Byte} (h : takeN n l = some (a, r)) (t : List Byte) :
    takeN n (l ++ t) = some (a, r ++ t) := by
  unfold takeN at h ⊢
  split at h
  · rename_i hn
    simp only [Option.some.injEq, Prod.mk.injEq] at h
    obtain ⟨rfl, rfl⟩ := h
    rw [if_pos (by simp; omega), List.take_append_of_le_length hn, List.drop_append_of_le_length hn]
  · cases h

theorem takeCStr_app {l a r : List Byte} (h : takeCStr l = some (a, r)) (t : List Byte) :
    takeCStr (l ++ t) = some (a, r ++ t) := by
  induction l generalizing a r with
  | nil => cases h
  | cons b l ih =>
    rw [List.cons_append, takeCStr] at *
    split at h
    · rename_i hb
      rw [if_pos hb]
      simp only [Option.some.injEq, Prod.mk.injEq] at h
      obtain ⟨rfl, rfl⟩ := h
      rfl
    · rename_i hb
      rw [if_neg hb]
      cases hl : takeCStr l with
      | none => rw [hl] at h; cases h
      | some p =>
        rw [hl] at h
        simp only [Option.map_some, Option.some.injEq, Prod.mk.injEq] at h
        obtain ⟨rfl, rfl⟩ := h
        rw [ih hl]; rfl

theorem takeWStr_app {l : List Byte} {a : List Nat} {r : List Byte} (h : takeWStr l = some (a, r)) (t : List Byte) :
    takeWStr (l ++ t) = some (a, r ++ t) := by
  induction l using takeWStr.induct generalizing a r with
  | case1 b1 b2 b3 b4 bs =>
    rename_i hw
    simp only [takeWStr] at h
    rw [if_pos hw] at h
    simp only [Option.some.injEq, Prod.mk.injEq] at h
    obtain ⟨rfl, rfl⟩ := h
    simp only [List.cons_append, takeWStr]
    rw [if_pos hw]
  | case2 b1 b2 b3 b4 bs =>
    rename_i hw ih
    simp only [takeWStr] at h
    rw [if_neg hw] at h
    simp only [List.cons_append, takeWStr]
    rw [if_neg hw]
    cases hl : takeWStr bs with
    | none => rw [hl] at h; cases h
    | some p =>
      rw [hl] at h
      simp only [Option.map_some, Option.some.injEq, Prod.mk.injEq] at h
      obtain ⟨rfl, rfl⟩ := h
      rw [ih hl]; rfl
  | case3 l hl => rw [takeWStr] at h; cases h; exact hl

theorem unpackInt_app {ty : ITy} {nib : Nat} {l : List Byte} {v : Int} {r : List Byte}
    (h : unpackInt ty nib l = some (v, r)) (t : List Byte) : unpackInt ty nib (l ++ t) = some (v, r ++ t) := by
  unfold unpackInt at h ⊢
  split at h
  · rename_i hn
    rw [if_pos hn]
    cases hl : takeN nib l with
    | none => simp [hl] at h
    | some p =>
      simp only [hl, Option.bind_eq_bind, Option.bind_some, Option.some.injEq, Prod.mk.injEq] at h
      obtain ⟨rfl, rfl⟩ := h
      simp [takeN_app hl t]
  · rename_i hn
    rw [if_neg hn]
    cases hl : takeN ((nib - 8) % 16) l with
    | none => simp [hl] at h
    | some p =>
      simp only [hl, Option.bind_eq_bind, Option.bind_some, Option.some.injEq, Prod.mk.injEq] at h
      obtain ⟨rfl, rfl⟩ := h
      simp [takeN_app hl t]

theorem unpackFloat_app {sz nib : Nat} {l : List Byte} {v : FVal} {r : List Byte}
    (h : unpackFloat sz nib l = some (v, r)) (t : List Byte) : unpackFloat sz nib (l ++ t) = some (v, r ++ t) := by
  unfold unpackFloat at h ⊢
  by_cases hn : nib = 4
  · rw [if_pos hn] at h ⊢
    cases hl : takeN 4 l with
    | none => simp [hl] at h
    | some p =>
      simp only [hl, Option.bind_eq_bind, Option.bind_some, Option.some.injEq, Prod.mk.injEq] at h
      obtain ⟨rfl, rfl⟩ := h
      simp [takeN_app hl t]
  · rw [if_neg hn] at h ⊢
    generalize (if nib = 0 then 16 else nib) = b at h ⊢
    simp only at h ⊢
    by_cases hb : b = sz
    · rw [if_pos hb] at h ⊢
      cases hl : takeN b l with
      | none => simp [hl] at h
      | some p =>
        simp only [hl, Option.bind_eq_bind, Option.bind_some, Option.some.injEq, Prod.mk.injEq] at h
        obtain ⟨rfl, rfl⟩ := h
        simp [takeN_app hl t]
    · rw [if_neg hb] at h; cases h

theorem unpackAs_app {ty : RTy} {nib : Nat} {l : List Byte} {v : RVal} {r : List Byte}
    (h : unpackAs ty nib l = some (v, r)) (t : List Byte) : unpackAs ty nib (l ++ t) = some (v, r ++ t) := by
  unfold unpackAs at h ⊢
  cases ty with
  | int ty =>
    cases hl : unpackInt ty nib l with
    | none => simp [hl] at h
    | some p =>
      simp only [hl, Option.map_some, Option.some.injEq, Prod.mk.injEq] at h
      obtain ⟨rfl, rfl⟩ := h
      simp [unpackInt_app hl t]
  | ptr =>
    simp only [unpackPtr] at h ⊢
    cases hl : unpackInt .u64 nib l with
    | none => simp [hl] at h
    | some p =>
      simp only [hl, Option.bind_eq_bind, Option.bind_some, Option.map_some, Option.some.injEq, Prod.mk.injEq] at h
      obtain ⟨rfl, rfl⟩ := h
      simp [unpackInt_app hl t]
  | dbl =>
    cases hl : unpackFloat 8 nib l with
    | none => simp [hl] at h
    | some p =>
      simp only [hl, Option.map_some, Option.some.injEq, Prod.mk.injEq] at h
      obtain ⟨rfl, rfl⟩ := h
      simp [unpackFloat_app hl t]
  | ldbl =>
    cases hl : unpackFloat 16 nib l with
    | none => simp [hl] at h
    | some p =>
      simp only [hl, Option.map_some, Option.some.injEq, Prod.mk.injEq] at h
      obtain ⟨rfl, rfl⟩ := h
      simp [unpackFloat_app hl t]

theorem sizeOfPacked_app {l : List Byte} {n k : Nat} (h : getSizeOfPackedValues l n = some k) (t : List Byte) :
    getSizeOfPackedValues (l ++ t) n = some k := by
  fun_induction getSizeOfPackedValues l n generalizing k with
  | case1 l => simpa [getSizeOfPackedValues] using h
  | case2 b l => simpa [getSizeOfPackedValues] using h
  | case3 b bs n ih =>
    simp only [List.cons_append, getSizeOfPackedValues]
    cases hl : getSizeOfPackedValues bs n with
    | none => rw [hl] at h; cases h
    | some p => rw [ih hl]; rwa [hl] at h
  | case4 => cases h

/-- The same position with more memory behind it. -/
def Nibbler.app (nb : Nibbler) (t : List Byte) : Nibbler := { nb with nibs := nb.nibs ++ t, cur := nb.cur ++ t }

theorem nibblerNew_app {l : List Byte} {n : Nat} {nb : Nibbler} {r : List Byte} (h : Nibbler.new l n = some (nb, r))
    (t : List Byte) : Nibbler.new (l ++ t) n = some (nb.app t, r ++ t) := by
  unfold Nibbler.new at h ⊢
  cases h1 : takeN ((n + 1) / 2) l with
  | none => simp [h1] at h
  | some p =>
    cases h2 : getSizeOfPackedValues l n with
    | none => simp [h1, h2] at h
    | some k =>
      cases h3 : takeN k p.2 with
      | none => simp [h1, h2, h3] at h
      | some q =>
        simp only [h1, h2, h3, Option.bind_eq_bind, Option.bind_some, Option.some.injEq, Prod.mk.injEq] at h
        obtain ⟨rfl, rfl⟩ := h
        simp [takeN_app h1 t, sizeOfPacked_app h2 t, takeN_app h3 t, Nibbler.app]

theorem getNext_app {nb nb' : Nibbler} {ty : RTy} {v : RVal} (h : nb.getNext ty = some (v, nb')) (t : List Byte) :
    (nb.app t).getNext ty = some (v, nb'.app t) := by
  unfold Nibbler.getNext at h ⊢
  by_cases hl : nb.left ≤ 0
  · rw [if_pos hl] at h; cases h
  · rw [if_neg hl] at h
    rw [if_neg (show ¬ (nb.app t).left ≤ 0 from hl)]
    cases hn : nb.nibs with
    | nil => rw [hn] at h; cases h
    | cons b bs =>
      rw [hn] at h
      simp only [Nibbler.app, hn, List.cons_append] at h ⊢
      cases hu : unpackAs ty (if nb.onFirst then nibFirst b else nibSecond b) nb.cur with
      | none => simp [hu] at h
      | some p =>
        simp only [hu, Option.bind_eq_bind, Option.bind_some, Option.some.injEq, Prod.mk.injEq] at h
        obtain ⟨rfl, rfl⟩ := h
        simp only [unpackAs_app hu t, Option.bind_eq_bind, Option.bind_some, Option.some.injEq, Prod.mk.injEq, true_and]
        cases nb.onFirst <;> simp <;> omega

theorem takeStar_app {has : Bool} {nb nb' : Nibbler} {w : Option Int} (h : takeStar has nb = some (w, nb'))
    (t : List Byte) : takeStar has (nb.app t) = some (w, nb'.app t) := by
  unfold takeStar at h ⊢
  cases has with
  | false =>
    simp only [Bool.false_eq_true, if_false, Option.some.injEq, Prod.mk.injEq] at h ⊢
    obtain ⟨rfl, rfl⟩ := h
    exact ⟨rfl, rfl⟩
  | true =>
    simp only [if_true] at h ⊢
    cases hn : nb.getNext (.int .i32) with
    | none => rw [hn] at h; cases h
    | some p =>
      obtain ⟨v, nb1⟩ := p
      rw [hn] at h
      rw [getNext_app hn t]
      cases v with
      | int v =>
        simp only [Option.some.injEq, Prod.mk.injEq] at h ⊢
        obtain ⟨rfl, rfl⟩ := h
        exact ⟨rfl, rfl⟩
      | ptr v => cases h
      | flt v => cases h

theorem decodeFrag_app {nb nb' : Nibbler} {strs r : List Byte} {f : Frag} {d : Decoded}
    (h : decodeFrag nb strs f = some (d, nb', r)) (t : List Byte) :
    decodeFrag (nb.app t) (strs ++ t) f = some (d, nb'.app t, r ++ t) := by
  unfold decodeFrag at h ⊢
  cases h1 : takeStar f.dynW nb with
  | none => simp [h1] at h
  | some p1 =>
    obtain ⟨w, nb1⟩ := p1
    cases h2 : takeStar f.dynP nb1 with
    | none => simp [h1, h2] at h
    | some p2 =>
      obtain ⟨p, nb2⟩ := p2
      simp only [h1, h2, takeStar_app h1 t, takeStar_app h2 t, Option.bind_eq_bind, Option.bind_some] at h ⊢
      cases hty : f.ty with
      | none =>
        simp only [hty, Option.some.injEq, Prod.mk.injEq] at h ⊢
        obtain ⟨rfl, rfl, rfl⟩ := h
        exact ⟨rfl, rfl, rfl⟩
      | some ty =>
        rw [hty] at h
        by_cases hc : ty = .charPtr
        · subst hc
          simp only at h ⊢
          cases hs : takeCStr strs with
          | none => simp [hs] at h
          | some q =>
            simp only [hs, Option.bind_some, Option.some.injEq, Prod.mk.injEq] at h
            obtain ⟨rfl, rfl, rfl⟩ := h
            simp [takeCStr_app hs t]
        · by_cases hwc : ty = .wcharPtr
          · subst hwc
            simp only at h ⊢
            cases hs : takeWStr strs with
            | none => simp [hs] at h
            | some q =>
              simp only [hs, Option.bind_some, Option.some.injEq, Prod.mk.injEq] at h
              obtain ⟨rfl, rfl, rfl⟩ := h
              simp [takeWStr_app hs t]
          · have key : ((ty.rty).bind fun rt => (nb2.getNext rt).bind fun x =>
                some ((⟨f.text, w, p, some (.scalar x.1)⟩ : Decoded), x.2, strs)) = some (d, nb', r) := by
              cases ty <;> first | exact h | exact absurd rfl hc | exact absurd rfl hwc
            have goal : ((ty.rty).bind fun rt => ((nb2.app t).getNext rt).bind fun x =>
                some ((⟨f.text, w, p, some (.scalar x.1)⟩ : Decoded), x.2, strs ++ t)) = some (d, nb'.app t, r ++ t) := by
              cases hr : ty.rty with
              | none => simp [hr] at key
              | some rt =>
                cases hg : nb2.getNext rt with
                | none => simp [hr, hg] at key
                | some x =>
                  simp only [hr, hg, Option.bind_some, Option.some.injEq, Prod.mk.injEq] at key
                  obtain ⟨rfl, rfl, rfl⟩ := key
                  simp [getNext_app hg t]
            cases ty <;> first | exact goal | exact absurd rfl hc | exact absurd rfl hwc

theorem decodeFrags_app {fs : List Frag} {nb : Nibbler} {strs r : List Byte} {ds : List Decoded}
    (h : decodeFrags nb strs fs = some (ds, r)) (t : List Byte) :
    decodeFrags (nb.app t) (strs ++ t) fs = some (ds, r ++ t) := by
  induction fs generalizing nb strs ds with
  | nil =>
    simp only [decodeFrags, Option.some.injEq, Prod.mk.injEq] at h ⊢
    obtain ⟨rfl, rfl⟩ := h
    exact ⟨rfl, rfl⟩
  | cons f fs ih =>
    simp only [decodeFrags, Option.bind_eq_bind] at h ⊢
    cases h1 : decodeFrag nb strs f with
    | none => simp [h1] at h
    | some p =>
      cases h2 : decodeFrags p.2.1 p.2.2 fs with
      | none => simp [h1, h2] at h
      | some q =>
        simp only [h1, h2, Option.bind_some, Option.some.injEq, Prod.mk.injEq] at h
        obtain ⟨rfl, rfl⟩ := h
        simp [decodeFrag_app h1 t, ih h2]

theorem decodeArgs_app {n : Nat} {fs : List Frag} {l r : List Byte} {ds : List Decoded}
    (h : decodeArgs n fs l = some (ds, r)) (t : List Byte) : decodeArgs n fs (l ++ t) = some (ds, r ++ t) := by
  unfold decodeArgs at h ⊢
  cases h1 : Nibbler.new l n with
  | none => simp [h1] at h
  | some p =>
    simp only [h1, Option.bind_eq_bind, Option.bind_some] at h
    simp only [nibblerNew_app h1 t, Option.bind_eq_bind, Option.bind_some]
    exact decodeFrags_app h t

end NanoLog
