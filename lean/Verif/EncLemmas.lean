import Verif.EncodeSpec
import Verif.ArgsLemmas
import Verif.HdrLemmas
import Verif.FmtLemmas

/-! Helper lemmas about the encoder. -/

namespace NanoLog

theorem Site.Supported.params {s : Site} {is : List FItem} (h : s.Supported is) :
    s.params = itemParams is := by
  have h1 := h.parsed
  rw [h.fmt, analyze_items h.wf] at h1
  exact (Option.some.inj h1).symm

/-- Compressed arguments of a call, in closed form. -/
def argsOut (junk : Nat) (ps : List ParamType) (as : List Arg) : List Byte :=
  encodeScalars junk (itemScalars (items ps initPrecision as)) ++
    itemStrs (items ps initPrecision as)

theorem passScalars_items {ps : List ParamType} {as : List Arg} (hm : Matches ps as)
    (prev : Nat) (ha : ∀ a ∈ as, a.Valid) (hsz : (getArgSizes ps prev as).1 < 2 ^ 32)
    (rest : List Byte) :
    passScalars (as.map Arg.ty) ps (storeArguments ps (getArgSizes ps prev as).2 as ++ rest) =
      some (itemScalars (items ps prev as)) := by
  induction hm generalizing prev with
  | nil => simp [passScalars, items, itemScalars]
  | @cons p a ps as h ht ih =>
    have hsz : (getArgSize p prev a).1 + (getArgSizes ps (getArgSize p prev a).2.2 as).1 < 2 ^ 32 :=
      hsz
    have ih' := ih (getArgSize p prev a).2.2 (fun b hb => ha b (by simp [hb])) (by omega)
    simp only [List.map_cons, getArgSizes, storeArguments, List.append_assoc, passScalars, items]
    by_cases hp : p.code ≤ -3
    · have h' : ¬ p.code > -3 := by omega
      have hr := Scalar.repr_length (Arg.toScalar_valid (ha a (by simp)))
      rw [Arg.toScalar_size] at hr
      simp only [storeArgument_scalar _ _ hp, h', if_false, takeN_append' _ _ hr,
        Option.bind_eq_bind, Option.bind_some, ih', hp, if_true, itemScalars,
        readScalar_repr (ha a (by simp))]
    · have hs : a.isStr := by rcases h with h | h; exact absurd h hp; exact h
      have hg := getArgSize_str prev hp hs
      have h' : p.code > -3 := by omega
      have e : unle (le 4 (getArgSize p prev a).2.1) = (getArgSize p prev a).2.1 :=
        unle_le_of_lt (by have := hg.1; simp; omega)
      simp only [storeArgument_str _ hp hs, h', if_true, List.append_assoc, takeN_le,
        Option.bind_eq_bind, Option.bind_some, e, takeN_append' _ _ hg.2, ih', hp, if_false,
        itemScalars]

theorem getArgSizes_fst (p : ParamType) (ps : List ParamType) (prev : Nat) (a : Arg)
    (as : List Arg) : (getArgSizes (p :: ps) prev (a :: as)).1 =
      (getArgSize p prev a).1 + (getArgSizes ps (getArgSize p prev a).2.2 as).1 := rfl

/-- Sizes: packed scalars and strings need no more than the stored arguments, and there are
no more scalars than bytes. -/
theorem items_sizes {ps : List ParamType} {as : List Arg} (hm : Matches ps as)
    (prev : Nat) (ha : ∀ a ∈ as, a.Valid) :
    (pks (itemScalars (items ps prev as))).length + (itemStrs (items ps prev as)).length
      ≤ (getArgSizes ps prev as).1 ∧
    (itemScalars (items ps prev as)).length ≤ (getArgSizes ps prev as).1 := by
  induction hm generalizing prev with
  | nil => simp [items, itemScalars, itemStrs, pks]
  | @cons p a ps as h ht ih =>
    obtain ⟨i1, i2⟩ := ih (getArgSize p prev a).2.2 (fun b hb => ha b (by simp [hb]))
    have va := Arg.toScalar_valid (ha a (by simp))
    by_cases hp : p.code ≤ -3
    · have hf := Scalar.pack_facts va
      rw [Arg.toScalar_size] at hf
      have hg := getArgSize_scalar (p := p) prev a hp
      simp only [items, hp, if_true, itemScalars, itemStrs, getArgSizes_fst, pks_cons,
        List.length_append, List.length_cons]
      rw [hg.1]
      omega
    · have hs : a.isStr := by rcases h with h | h; exact absurd h hp; exact h
      have hg := getArgSize_str prev hp hs
      have hc : a.ty.charWidth ≤ 4 := by
        cases a <;> simp [Arg.isStr, Arg.ty, ATy.charWidth] at hs ⊢
      simp only [items, hp, if_false, itemScalars, itemStrs, getArgSizes_fst,
        List.length_append, List.length_replicate]
      omega

theorem scalarsTouch_le {ss : List Scalar} (h : ∀ s ∈ ss, s.Valid) (pos : Nat) :
    scalarsTouch pos ss ≤ pos + (pks ss).length + 7 := by
  induction ss generalizing pos with
  | nil => simp [scalarsTouch, pks]
  | cons s ss ih =>
    have i := ih (fun x hx => h x (by simp [hx])) (pos + s.pack.2.length)
    have hs := h s (by simp)
    have hf := Scalar.pack_facts hs
    have hw : s.writes ≤ s.pack.2.length + 7 := by
      cases s with
      | int t v => cases t <;> simp [Scalar.writes, packIntWrites, ITy.bytes] <;> grind
      | ptr v => simp [Scalar.writes]; omega
      | f32 b => simp only [Scalar.Valid] at hs; simp [Scalar.writes, Scalar.pack, packFloat]
      | f64 b => simp only [Scalar.Valid] at hs; simp [Scalar.writes, Scalar.pack, packFloat]; omega
      | f80 b => simp only [Scalar.Valid] at hs; simp [Scalar.writes, Scalar.pack, packFloat]; omega
    simp only [scalarsTouch, pks_cons, List.length_append]
    omega

theorem compressLogHeaderWrites_le {id : Nat} (h : id < 2 ^ 32) :
    compressLogHeaderWrites id ≤ 13 := by
  have h3 := numBytes_le4 h
  have h4 := numBytes_pos id
  have : (packU 4 id).2.length ≤ 4 := by simp [packU]; omega
  simp only [compressLogHeaderWrites]
  omega

theorem argsOut_length {ps : List ParamType} {as : List Arg} (hm : Matches ps as)
    (ha : ∀ a ∈ as, a.Valid) (junk : Nat) :
    (argsOut junk ps as).length ≤ argAllocSize ps as + (numNibblesNeeded ps + 1) / 2 ∧
      numNibblesNeeded ps ≤ argAllocSize ps as := by
  obtain ⟨h1, h2⟩ := items_sizes hm initPrecision ha
  have hl := items_scalars_length hm initPrecision
  have he := encodeScalars_length (ss := itemScalars (items ps initPrecision as)) junk
  simp only [argsOut, List.length_append, argAllocSize]
  simp only [pks, List.length_flatten, List.map_map] at *
  omega

/-- Bytes of an encoded message. -/
def msgOut (junk last : Nat) (s : Site) (c : LogCall) : List Byte :=
  compressLogHeader c.id c.ts last ++ argsOut junk s.params c.args

theorem touch_le {s : Site} {c : LogCall} {last junk : Nat} (hid : c.id < 2 ^ 32)
    (hm : Matches s.params c.args) (ha : ∀ a ∈ c.args, a.Valid)
    (hsz : argAllocSize s.params c.args < 2 ^ 32) (hty : c.args.map Arg.ty = s.tys)
    (more : List Byte) :
    ∃ n, encodeTouch s c.id c.ts last (storedArgs s.params c.args ++ more)
        (msgOut junk last s c) = some n ∧ n ≤ 2 * c.size s - 11 := by
  have hp := passScalars_items hm initPrecision ha hsz more
  have hv := items_valid (ps := s.params) initPrecision ha
  obtain ⟨h1, h2⟩ := items_sizes hm initPrecision ha
  have hl := items_scalars_length hm initPrecision
  have hh := compressLogHeader_length (ts := c.ts) (last := last) hid
  have hw := compressLogHeaderWrites_le hid
  have hao := argsOut_length hm ha junk
  have ht := scalarsTouch_le hv
    ((compressLogHeader c.id c.ts last).length + (s.numNibbles + 1) / 2)
  refine ⟨_, by rw [encodeTouch, storedArgs, ← hty, hp]; rfl, ?_⟩
  simp only [msgOut, List.length_append, LogCall.size, argAllocSize, Site.numNibbles] at *
  omega

/-- Messages one after the other, time stamps relative to `last`; any content of unused half
bytes. -/
inductive Encoded (sites : List Site) : Nat → List LogCall → List Byte → Prop where
  | nil {last} : Encoded sites last [] []
  | cons {last junk : Nat} {c : LogCall} {s : Site} {cs : List LogCall} {bs : List Byte}
      (ok : c.OK sites s) (hm : Matches s.params c.args) (ht : Encoded sites c.ts cs bs) :
      Encoded sites last (c :: cs) (msgOut junk last s c ++ bs)

theorem parseEntry_entryBytes {sites : List Site} {c : LogCall} {s : Site} (ok : c.OK sites s)
    (rest : List Byte) :
    parseEntry (entryBytes s c ++ rest) =
      some (c.id, c.size s, c.ts, storedArgs s.params c.args ++ rest) := by
  have h1 : unle (le 4 c.id) = c.id := unle_le_of_lt (by simpa using ok.id)
  have h2 : unle (le 4 (c.size s)) = c.size s :=
    unle_le_of_lt (by have := ok.size; simp; omega)
  have h3 : unle (le 8 c.ts) = c.ts := unle_le_of_lt (by simpa using ok.ts)
  simp [parseEntry, entryBytes, takeN_le, h1, h2, h3]

theorem Matches.length {ps : List ParamType} {as : List Arg} (h : Matches ps as) :
    ps.length = as.length := by
  induction h with
  | nil => rfl
  | cons _ _ ih => simp [ih]

theorem entryBytes_length {sites : List Site} {c : LogCall} {s : Site} (ok : c.OK sites s)
    (hm : Matches s.params c.args) : (entryBytes s c).length = c.size s := by
  have := storeArguments_length s.params initPrecision c.args hm.length ok.valid
  simp only [entryBytes, List.length_append, le_length, LogCall.size, argAllocSize, storedArgs,
    this]

theorem prefix_getElem? {α : Type} {l m : List α} (h : l <+: m) {i : Nat} {x : α}
    (hi : m[i]? = some x) : l[i]? = if i < l.length then some x else none := by
  obtain ⟨t, rfl⟩ := h
  by_cases hl : i < l.length
  · simp only [hl, if_true]
    rw [List.getElem?_append_left hl] at hi
    exact hi
  · simp [hl]

/-- One iteration of the loop on a queued message: why it stops, or what it writes. -/
theorem encodeStep_entry (cfg : Config) (junk : Nat → Nat) {all sites : List Site}
    (hpre : sites <+: all) {c : LogCall} {s : Site} (ok : c.OK all s)
    (hm : Matches s.params c.args) (remaining : Int) (space last : Nat) (rest : List Byte) :
    encodeStep cfg junk sites remaining space last (entryBytes s c ++ rest) =
      some (if sites.length ≤ c.id ∨ ((c.size s : Int) > remaining ∧ c.size s < cfg.staging / 2) ∨
          2 * c.size s + 16 > space then none
        else some (msgOut (junk space) last s c, c.size s, c.ts)) := by
  have hsz := ok.size
  have hmod : 2 * c.size s % 2 ^ 32 = 2 * c.size s := Nat.mod_eq_of_lt (by omega)
  have hc := compress_eq hm ok.valid (by simp only [LogCall.size] at hsz; omega) (junk space) rest
  simp only [encodeStep, parseEntry_entryBytes ok, Option.bind_eq_bind, Option.bind_some,
    prefix_getElem? hpre ok.site, hmod]
  by_cases hid : c.id < sites.length
  · simp only [hid, if_true, Nat.not_le.2 hid, false_or]
    by_cases hr : (c.size s : Int) > remaining ∧ c.size s < cfg.staging / 2
    · simp [hr]
    · simp only [hr, if_false, false_or]
      rw [if_neg (by omega)]
      by_cases hs : 2 * c.size s + 16 > space
      · simp [hs]
      · simp only [hs, if_false]
        obtain ⟨n, h1, h2⟩ := touch_le (last := last) (junk := junk space) ok.id hm ok.valid
          (by simp only [LogCall.size] at hsz; omega) ok.tys rest
        rw [ok.tys] at hc
        simp only [Site.numNibbles, hc, Option.bind_some]
        have e : compressLogHeader c.id c.ts last ++
            (encodeScalars (junk space) (itemScalars (items s.params initPrecision c.args)) ++
              itemStrs (items s.params initPrecision c.args)) = msgOut (junk space) last s c := rfl
        rw [e, h1]
        simp only [Option.bind_some]
        rw [if_neg (by omega)]
  · simp [hid, Nat.le_of_not_lt hid]

/-- Why the loop of `encodeLogMsgs` stops in front of the queue `cs`. -/
def StopsAt (cfg : Config) (all sites : List Site) (remaining : Int) (space : Nat) :
    List LogCall → Prop
  | [] => True
  | c :: _ => remaining ≤ 0 ∨ sites.length ≤ c.id ∨
      ((callSize all c : Int) > remaining ∧ callSize all c < cfg.staging / 2) ∨
      2 * callSize all c + 16 > space

theorem callSize_eq {all : List Site} {c : LogCall} {s : Site} (ok : c.OK all s) :
    callSize all c = c.size s := by
  simp [callSize, ok.site]

theorem msgOut_length {all : List Site} {c : LogCall} {s : Site} (ok : c.OK all s)
    (hm : Matches s.params c.args) (junk last : Nat) :
    3 ≤ (msgOut junk last s c).length ∧
    (msgOut junk last s c).length + 3 ≤ c.size s + (s.numNibbles + 1) / 2 ∧
    (msgOut junk last s c).length ≤ 2 * c.size s := by
  have h1 := argsOut_length hm ok.valid junk
  have h2 := compressLogHeader_length (ts := c.ts) (last := last) ok.id
  simp only [msgOut, List.length_append, LogCall.size, Site.numNibbles]
  omega

/-- Calls of known statements with matching arguments. -/
def Queue (all : List Site) (cs : List LogCall) : Prop :=
  ∀ c ∈ cs, ∃ s, c.OK all s ∧ Matches s.params c.args

theorem encodeLoop_queue (cfg : Config) (junk : Nat → Nat) {all sites : List Site}
    (hpre : sites <+: all) (more : List Byte) (cs : List LogCall) (hq : Queue all cs)
    (fuel : Nat) (hf : cs.length < fuel) (remaining : Int) (hr : remaining ≤ queueSize all cs)
    (space last : Nat) :
    ∃ (pre suf : List LogCall) (out : List Byte), cs = pre ++ suf ∧
      encodeLoop cfg junk sites fuel remaining space last (queueBytes all cs ++ more) =
        some (out, remaining - queueSize all pre) ∧
      Encoded sites last pre out ∧ out.length ≤ space ∧
      StopsAt cfg all sites (remaining - queueSize all pre) (space - out.length) suf ∧
      ((∀ c ∈ pre, callSize all c < cfg.staging / 2) → 0 ≤ remaining →
        (queueSize all pre : Int) ≤ remaining) := by
  induction cs generalizing fuel remaining space last with
  | nil =>
    refine ⟨[], [], [], rfl, ?_, .nil, by simp, trivial, by simp [queueSize]⟩
    cases fuel with
    | zero => simp at hf
    | succ fuel =>
      have : remaining ≤ 0 := by simpa [queueSize] using hr
      simp [encodeLoop, this, queueSize]
  | cons c cs ih =>
    cases fuel with
    | zero => simp at hf
    | succ fuel =>
      obtain ⟨s, ok, hm⟩ := hq c (by simp)
      have hcs := callSize_eq ok
      have hqb : queueBytes all (c :: cs) ++ more = entryBytes s c ++ (queueBytes all cs ++ more) := by
        simp [queueBytes, ok.site]
      have hqs : queueSize all (c :: cs) = c.size s + queueSize all cs := by
        simp [queueSize, hcs]
      by_cases hrem : remaining ≤ 0
      · refine ⟨[], c :: cs, [], rfl, ?_, .nil, by simp, ?_, by simp [queueSize]⟩
        · simp [encodeLoop, hrem, queueSize]
        · left; simpa [queueSize] using hrem
      · have hstep := encodeStep_entry cfg junk hpre ok hm remaining space last
          (queueBytes all cs ++ more)
        by_cases hstop : sites.length ≤ c.id ∨
            ((c.size s : Int) > remaining ∧ c.size s < cfg.staging / 2) ∨
            2 * c.size s + 16 > space
        · rw [if_pos hstop] at hstep
          refine ⟨[], c :: cs, [], rfl, ?_, .nil, by simp, ?_, by simp [queueSize]⟩
          · simp [encodeLoop, hrem, hqb, hstep, queueSize]
          · right; simpa [queueSize, hcs] using hstop
        · rw [if_neg hstop] at hstep
          have hml := msgOut_length ok hm (junk space) last
          obtain ⟨pre, suf, out, h1, h2, h3, h4, h5, h6⟩ := ih (fun x hx => hq x (by simp [hx])) fuel
            (by simp at hf; omega) (remaining - c.size s) (by rw [hqs] at hr; push_cast at hr; omega)
            (space - (msgOut (junk space) last s c).length) c.ts
          have hdrop : (entryBytes s c ++ (queueBytes all cs ++ more)).drop (c.size s) =
              queueBytes all cs ++ more := by
            rw [← entryBytes_length ok hm]; simp
          have ok' : c.OK sites s := { ok with
            site := by rw [prefix_getElem? hpre ok.site, if_pos (by omega)] }
          have hqs' : queueSize all (c :: pre) = c.size s + queueSize all pre := by
            simp [queueSize, hcs]
          refine ⟨c :: pre, suf, msgOut (junk space) last s c ++ out, by simp [h1], ?_,
            .cons ok' hm h3, by simp; omega, ?_, ?_⟩
          · simp only [encodeLoop, hrem, if_false, hqb, hstep, hdrop, h2]
            simp only [hqs', Option.some.injEq, Prod.mk.injEq, true_and]
            push_cast; omega
          · rw [hqs']
            have e1 : remaining - ((c.size s + queueSize all pre : Nat) : Int) =
                remaining - c.size s - queueSize all pre := by push_cast; omega
            have e2 : space - (msgOut (junk space) last s c ++ out).length =
                space - (msgOut (junk space) last s c).length - out.length := by
              simp; omega
            rw [e1, e2]; exact h5
          · intro hsm h0
            have := hsm c (by simp)
            rw [hcs] at this
            have h7 := h6 (fun x hx => hsm x (by simp [hx])) (by omega)
            rw [hqs']; push_cast; omega

theorem Encoded.length_le2 {sites : List Site} {last : Nat} {cs : List LogCall} {bs : List Byte}
    (h : Encoded sites last cs bs) : bs.length ≤ 2 * queueSize sites cs := by
  induction h with
  | nil => simp
  | @cons last junk c s cs bs ok hm ht ih =>
    have := (msgOut_length ok hm junk last).2.2
    have e : queueSize sites (c :: cs) = c.size s + queueSize sites cs := by
      simp [queueSize, callSize_eq ok]
    rw [e, List.length_append]; omega

/-- The encoded calls are calls of known statements. -/
theorem Encoded.ok {sites : List Site} {last : Nat} {cs : List LogCall} {bs : List Byte}
    (h : Encoded sites last cs bs) : ∀ c ∈ cs, ∃ s, c.OK sites s := by
  induction h with
  | nil => simp
  | @cons last junk c s cs bs ok hm ht ih =>
    intro x hx
    rcases List.mem_cons.1 hx with rfl | hx
    · exact ⟨s, ok⟩
    · exact ih x hx

theorem queueBytes_length {all : List Site} {cs : List LogCall} (hq : Queue all cs) :
    (queueBytes all cs).length = queueSize all cs ∧ cs.length ≤ queueSize all cs := by
  induction cs with
  | nil => simp [queueBytes, queueSize]
  | cons c cs ih =>
    obtain ⟨s, ok, hm⟩ := hq c (by simp)
    obtain ⟨i1, i2⟩ := ih (fun x hx => hq x (by simp [hx]))
    have e : queueSize all (c :: cs) = c.size s + queueSize all cs := by
      simp [queueSize, callSize_eq ok]
    have e2 := entryBytes_length ok hm
    have h16 : 16 ≤ c.size s := by simp [LogCall.size]
    rw [e]
    simp only [queueBytes, ok.site, List.length_append, List.length_cons] at *
    omega

/-- `encodeLogMsgs` on a queue of whole messages. -/
theorem encodeLogMsgs_queue (cfg : Config) (junk : Nat → Nat) {all sites : List Site}
    (hpre : sites <+: all) (more : List Byte) (cs : List LogCall) (hq : Queue all cs)
    (space nbytes tid : Nat) (np : Bool) (ht : tid < 2 ^ 32) (hsp : 9 ≤ space)
    (hr : nbytes ≤ queueSize all cs) :
    ∃ (pre suf : List LogCall) (body : List Byte), cs = pre ++ suf ∧
      encodeLogMsgs cfg junk sites space (queueBytes all cs ++ more) nbytes tid np =
        some (extentBytes tid np body, (queueSize all pre : Int)) ∧
      Encoded sites 0 pre body ∧ (extentBytes tid np body).length ≤ space ∧
      StopsAt cfg all sites ((nbytes : Int) - queueSize all pre)
        (space - (extentBytes tid np body).length) suf ∧
      ((∀ c ∈ pre, callSize all c < cfg.staging / 2) → queueSize all pre ≤ nbytes) := by
  obtain ⟨pre, suf, out, h1, h2, h3, h4, h5, h6⟩ := encodeLoop_queue cfg junk hpre more cs hq
    ((queueBytes all cs ++ more).length + 1)
    (by have := queueBytes_length hq; simp; omega) (nbytes : Int) (by exact_mod_cast hr)
    (space - extentHeaderSize tid) 0
  have hh := extentHeaderSize_le ht
  have hl := extentBytes_length tid np out
  refine ⟨pre, suf, out, h1, ?_, h3, by omega, ?_, fun h => by have := h6 h (by omega); omega⟩
  · rw [encodeLogMsgs, if_neg (by omega),
      if_neg (by simp only [extentTouch]; split <;> omega), h2]
    simp; omega
  · have : space - (extentBytes tid np out).length = space - extentHeaderSize tid - out.length := by
      omega
    rw [this]; exact h5

end NanoLog
