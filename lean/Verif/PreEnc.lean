import Verif.PreSpec
import Verif.PreDict
import Verif.Props.GenCode

/-! Helper lemmas about the encoder of preprocessor mode. -/

namespace NanoLog

/-- `out` are compressed arguments of the call that both kinds of decoder recover. -/
structure GoodArgs (fs : List PyFmt) (as : List (GArg × Option Nat)) (out : List Byte) : Prop where
  dict : ∀ gs, pyFrags fs = some gs → ∀ rest, ∃ ds,
    decodeArgs (pyNibbles fs) gs (out ++ rest) = some (ds, rest) ∧ DecodedAs fs as ds
  gen : ∀ rest, ∃ vs, genDecompress fs (out ++ rest) = some (vs, rest) ∧ All2 Recovered as vs

theorem pack_le_repr {ss : List Scalar} (h : ∀ s ∈ ss, s.Valid) :
    (pks ss).length ≤ (ss.flatMap Scalar.repr).length ∧ ss.length ≤ (ss.flatMap Scalar.repr).length := by
  induction ss with
  | nil => simp [pks]
  | cons s ss ih =>
    have hv := h s List.mem_cons_self
    obtain ⟨f1, f2, -⟩ := Scalar.pack_facts hv
    have hr := Scalar.repr_length hv
    obtain ⟨i1, i2⟩ := ih fun x hx => h x (List.mem_cons_of_mem _ hx)
    simp only [pks_cons, List.length_append, List.flatMap_cons, List.length_cons]
    omega

/-- What a legal call leaves in the staging buffer, and what the compression function makes of it. -/
theorem call_facts {fns : GenFns} {c : PCall} {fs : List PyFmt} (ok : c.OK fns fs) :
    ∃ bytes, genEntry c.id c.ts fs (c.args.map Prod.fst) =
        some (le 4 c.id ++ le 4 (pSize fns c) ++ le 8 c.ts ++ bytes) ∧ bytes.length + 16 = pSize fns c ∧
      ∀ (junk last : Nat) (rest : List Byte), ∃ out n, genCompress junk fs (pSize fns c) (bytes ++ rest) = some out ∧
        GoodArgs fs c.args out ∧ out.length ≤ 2 * pSize fns c - 29 ∧
        genTouch fs c.id c.ts last (bytes ++ rest) (compressLogHeader c.id c.ts last ++ out) = some n ∧
        n ≤ 2 * pSize fns c + 16 := by
  obtain ⟨is, h1, h2, h3⟩ := rows_of_call ok.args ok.readable []
  have hrec := genRecord_rows h1 (by simpa using h3)
  have hsz : pSize fns c = (gBytes is).length + 16 := by simp [pSize, ok.fn, hrec]
  have hlt := ok.size
  rw [hsz] at hlt ⊢
  refine ⟨gBytes is, ?_, rfl, ?_⟩
  · rw [genEntry, hrec, Option.map_some, Nat.mod_eq_of_lt (by omega)]
  · intro junk last rest
    have hv := rows_valid h1
    obtain ⟨p1, p2⟩ := pack_le_repr hv
    have hgl : (gBytes is).length = ((gScalars is).flatMap Scalar.repr).length + (gStrs is).length := by
      simp [gBytes]
    have hel : (encodeScalars junk (gScalars is)).length = ((gScalars is).length + 1) / 2 + (pks (gScalars is)).length :=
      encodeScalars_length junk
    have hh := compressLogHeader_length (ts := c.ts) (last := last) ok.id
    have hw := compressLogHeaderWrites_le ok.id
    have ht := scalarsTouch_le hv ((compressLogHeader c.id c.ts last).length + ((gScalars is).length + 1) / 2)
    have hrb := rows_readBack h1 [] (gStrs is ++ rest)
    simp only [List.nil_append, List.length_nil] at hrb
    have hmem : gBytes is ++ rest = (gScalars is).flatMap Scalar.repr ++ (gStrs is ++ rest) := by
      simp [gBytes]
    refine ⟨_, _, genCompress_rows h1 junk rest (by omega), ⟨?_, ?_⟩, ?_, by rw [genTouch, hmem, hrb], ?_⟩
    · intro gs hg rest'
      have hnib : pyNibbles fs = (gScalars is).length := by
        unfold pyNibbles
        rw [filter_argsIdx _ 0, (rows_length h1 0).2]
      obtain ⟨nb, n1, n2⟩ := NibAt.new (junk := junk) (gStrs is ++ rest') hv
      rw [decodeArgs, hnib, List.append_assoc, n1]
      simp only [Option.bind_eq_bind, Option.bind_some]
      exact decode_rows ok.args h1 h2 hg n2 rest'
    · exact fun rest' => ⟨_, genDecompress_rows h1 junk rest', h2⟩
    · rw [List.length_append, hel]; omega
    · simp only [List.length_append, hel]
      omega

/-- Encoded messages one after the other, time stamps relative to `last`. -/
inductive EncodedP (fns : GenFns) : Nat → List PCall → List Byte → Prop where
  | nil {last} : EncodedP fns last [] []
  | cons {last : Nat} {c : PCall} {fs : List PyFmt} {out : List Byte} {cs : List PCall} {bs : List Byte}
      (ok : c.OK fns fs) (hg : GoodArgs fs c.args out) (ht : EncodedP fns c.ts cs bs) :
      EncodedP fns last (c :: cs) (compressLogHeader c.id c.ts last ++ out ++ bs)

/-- Why the loop stops in front of the calls. -/
def StopsP (cfg : Config) (fns : GenFns) (remaining : Int) (space : Nat) : List PCall → Prop
  | [] => True
  | c :: _ => remaining ≤ 0 ∨ ((pSize fns c : Int) > remaining ∧ pSize fns c < cfg.staging / 2) ∨
      2 * pSize fns c + 16 > space

theorem encodeStepP_call (cfg : Config) (junk : Nat → Nat) {fns : GenFns} {c : PCall} {fs : List PyFmt}
    (ok : c.OK fns fs) {b : List Byte} (hb : genEntry c.id c.ts fs (c.args.map Prod.fst) = some b)
    (remaining : Int) (space last : Nat) (rest : List Byte) :
    b.length = pSize fns c ∧ 16 ≤ pSize fns c ∧
    ∃ out, GoodArgs fs c.args out ∧ out.length ≤ 2 * pSize fns c - 29 ∧
      encodeStepP cfg junk fns remaining space last (b ++ rest) =
        some (if ((pSize fns c : Int) > remaining ∧ pSize fns c < cfg.staging / 2) ∨
            2 * pSize fns c + 16 > space then none
          else some (compressLogHeader c.id c.ts last ++ out, pSize fns c, c.ts)) := by
  obtain ⟨bytes, e1, e2, e3⟩ := call_facts ok
  rw [e1] at hb
  obtain rfl := Option.some.inj hb
  have hsz := ok.size
  obtain ⟨out, n, o1, o2, o3, o4, o5⟩ := e3 (junk space) last rest
  refine ⟨by simp; omega, by omega, out, o2, o3, ?_⟩
  have h1 : unle (le 4 c.id) = c.id := unle_le_of_lt (by simpa using ok.id)
  have h2 : unle (le 4 (pSize fns c)) = pSize fns c := unle_le_of_lt (by simp; omega)
  have h3 : unle (le 8 c.ts) = c.ts := unle_le_of_lt (by simpa using ok.ts)
  have hp : parseEntry (le 4 c.id ++ le 4 (pSize fns c) ++ le 8 c.ts ++ bytes ++ rest) =
      some (c.id, pSize fns c, c.ts, bytes ++ rest) := by
    simp [parseEntry, takeN_le, h1, h2, h3]
  have hmod : 2 * pSize fns c % 2 ^ 32 = 2 * pSize fns c := Nat.mod_eq_of_lt (by omega)
  simp only [encodeStepP, hp, hmod]
  by_cases hr : (pSize fns c : Int) > remaining ∧ pSize fns c < cfg.staging / 2
  · simp [hr]
  · simp only [hr, if_false, false_or]
    rw [if_neg (by omega)]
    by_cases hs : 2 * pSize fns c + 16 > space
    · simp [hs]
    · simp only [hs, if_false, ok.fn, o1, o4]
      rw [if_neg (by omega)]

theorem pSizes_cons (fns : GenFns) (c : PCall) (cs : List PCall) :
    pSizes fns (c :: cs) = pSize fns c + pSizes fns cs := by simp [pSizes]

theorem encodeLoopP_queue (cfg : Config) (junk : Nat → Nat) {fns : GenFns} (more : List Byte)
    {cs : List PCall} {q : List Byte} (hq : QueuedP fns cs q)
    (fuel : Nat) (hf : cs.length < fuel) (remaining : Int) (hr : remaining ≤ pSizes fns cs)
    (space last : Nat) :
    ∃ (k : Nat) (out : List Byte), k ≤ cs.length ∧
      encodeLoopP cfg junk fns fuel remaining space last (q ++ more) =
        some (out, remaining - pSizes fns (cs.take k)) ∧
      EncodedP fns last (cs.take k) out ∧ out.length ≤ space ∧ out.length ≤ 2 * pSizes fns (cs.take k) ∧
      StopsP cfg fns (remaining - pSizes fns (cs.take k)) (space - out.length) (cs.drop k) ∧
      ((∀ c ∈ cs, pSize fns c < cfg.staging / 2) → 0 ≤ remaining →
        (pSizes fns (cs.take k) : Int) ≤ remaining) := by
  induction hq generalizing fuel remaining space last with
  | nil =>
    refine ⟨0, [], by simp, ?_, .nil, by simp, by simp, trivial, by simp [pSizes]⟩
    cases fuel with
    | zero => simp at hf
    | succ fuel =>
      have : remaining ≤ 0 := by simpa [pSizes] using hr
      simp [encodeLoopP, this, pSizes]
  | @cons c fs cs b q ok hb hq ih =>
    cases fuel with
    | zero => simp at hf
    | succ fuel =>
      obtain ⟨hbl, h16, out, hgood, hlen, hstep⟩ := encodeStepP_call cfg junk ok hb remaining space last (q ++ more)
      rw [List.append_assoc]
      by_cases hrem : remaining ≤ 0
      · refine ⟨0, [], by simp, ?_, .nil, by simp, by simp, ?_, by simp [pSizes]⟩
        · simp [encodeLoopP, hrem, pSizes]
        · left; simpa [pSizes] using hrem
      · by_cases hstop : ((pSize fns c : Int) > remaining ∧ pSize fns c < cfg.staging / 2) ∨
            2 * pSize fns c + 16 > space
        · rw [if_pos hstop] at hstep
          refine ⟨0, [], by simp, ?_, .nil, by simp, by simp, ?_, by simp [pSizes]⟩
          · simp [encodeLoopP, hrem, hstep, pSizes]
          · right; simpa [pSizes] using hstop
        · rw [if_neg hstop] at hstep
          have hh := compressLogHeader_length (ts := c.ts) (last := last) ok.id
          have hol : (compressLogHeader c.id c.ts last ++ out).length ≤ 2 * pSize fns c := by
            rw [List.length_append]; omega
          obtain ⟨k, out', h1, h2, h3, h4, h5, h6, h7⟩ := ih fuel (by simp at hf; omega)
            (remaining - pSize fns c) (by rw [pSizes_cons] at hr; push_cast at hr; omega)
            (space - (compressLogHeader c.id c.ts last ++ out).length) c.ts
          have hdrop : (b ++ (q ++ more)).drop (pSize fns c) = q ++ more := by
            rw [← hbl]; simp
          have hs' : pSizes fns ((c :: cs).take (k + 1)) = pSize fns c + pSizes fns (cs.take k) := by
            simp [pSizes_cons]
          refine ⟨k + 1, compressLogHeader c.id c.ts last ++ out ++ out', by simpa using h1, ?_,
            .cons ok hgood h3, by simp only [List.length_append] at *; omega,
            by rw [hs', List.length_append]; omega, ?_, ?_⟩
          · simp only [encodeLoopP, hrem, if_false, hstep, hdrop, h2, hs']
            simp only [Option.some.injEq, Prod.mk.injEq, true_and]
            push_cast; omega
          · rw [hs', List.drop_succ_cons]
            have e1 : remaining - ((pSize fns c + pSizes fns (cs.take k) : Nat) : Int) =
                remaining - pSize fns c - pSizes fns (cs.take k) := by push_cast; omega
            have e2 : space - (compressLogHeader c.id c.ts last ++ out ++ out').length =
                space - (compressLogHeader c.id c.ts last ++ out).length - out'.length := by
              rw [List.length_append (as := _ ++ _)]; omega
            rw [e1, e2]; exact h6
          · intro hsm h0
            have := hsm c (by simp)
            have h7 := h7 (fun x hx => hsm x (by simp [hx])) (by omega)
            rw [hs']; push_cast; omega

theorem QueuedP.length {fns : GenFns} {cs : List PCall} {q : List Byte} (h : QueuedP fns cs q) :
    q.length = pSizes fns cs ∧ cs.length ≤ q.length := by
  induction h with
  | nil => simp [pSizes]
  | @cons c fs cs b q ok hb hq ih =>
    obtain ⟨h1, h2, -⟩ := encodeStepP_call ⟨0, 0, 0⟩ (fun _ => 0) ok hb 0 0 0 []
    rw [pSizes_cons, List.length_append, List.length_cons]
    omega

/-- `encodeLogMsgs` of preprocessor mode on a queue of whole messages. -/
theorem encodeLogMsgsP_queue (cfg : Config) (junk : Nat → Nat) {fns : GenFns} (more : List Byte)
    {cs : List PCall} {q : List Byte} (hq : QueuedP fns cs q) (space nbytes tid : Nat) (np : Bool)
    (ht : tid < 2 ^ 32) (hsp : 9 ≤ space) (hr : nbytes ≤ pSizes fns cs)
    (hsm : ∀ c ∈ cs, pSize fns c < cfg.staging / 2) :
    ∃ (k : Nat) (body : List Byte), k ≤ cs.length ∧
      encodeLogMsgsP cfg junk fns space (q ++ more) nbytes tid np =
        some (extentBytes tid np body, (pSizes fns (cs.take k) : Int)) ∧
      EncodedP fns 0 (cs.take k) body ∧ (extentBytes tid np body).length ≤ space ∧
      body.length ≤ 2 * nbytes ∧
      StopsP cfg fns ((nbytes : Int) - pSizes fns (cs.take k))
        (space - (extentBytes tid np body).length) (cs.drop k) := by
  obtain ⟨k, out, h1, h2, h3, h4, h5, h6, h7⟩ := encodeLoopP_queue cfg junk more hq
    ((q ++ more).length + 1) (by have := hq.length; simp; omega) (nbytes : Int) (by exact_mod_cast hr)
    (space - extentHeaderSize tid) 0
  have hh := extentHeaderSize_le ht
  have hl := extentBytes_length tid np out
  have h8 := h7 hsm (by omega)
  refine ⟨k, out, h1, ?_, h3, by omega, by omega, ?_⟩
  · rw [encodeLogMsgsP, if_neg (by omega),
      if_neg (by simp only [extentTouch]; split <;> omega), h2]
    simp; omega
  · have : space - (extentBytes tid np out).length = space - extentHeaderSize tid - out.length := by
      omega
    rw [this]; exact h6

end NanoLog
