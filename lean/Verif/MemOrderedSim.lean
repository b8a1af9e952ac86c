import Verif.OrderedSim
import Verif.MemOrderedTerm
import Verif.DecodeAppend
import Verif.PreDec

/-! Helper lemmas: ordered decompression of files of preprocessor mode follows the abstraction of
`OrderedAbs.lean` (compare `OrderedSim.lean`). -/

namespace NanoLog

/-! ## Messages -/

/-- `out` are compressed arguments the decoder takes for message `m`. -/
structure MsgM (es : List PEntry) (ck : Checkpoint) (tid : Nat) (m : OutMsg) (out : List Byte) : Prop where
  ent : ∃ e, es[m.id]? = some e ∧ decodeArgs e.info.numNibbles e.info.frags out = some (m.parts, []) ∧
    m.file = e.info.file ∧ m.line = e.info.line ∧ m.level = e.info.level
  ckEq : m.ck = ck
  tidEq : m.tid = tid
  id : m.id < 2 ^ 32
  ts : m.ts < 2 ^ 64

/-- Encoded messages one after the other, time stamps relative to `last`. -/
inductive EncM (es : List PEntry) (ck : Checkpoint) (tid : Nat) : Nat → List OutMsg → List Byte → Prop where
  | nil {last} : EncM es ck tid last [] []
  | cons {last : Nat} {m : OutMsg} {out : List Byte} {ms : List OutMsg} {bs : List Byte}
      (hm : MsgM es ck tid m out) (ht : EncM es ck tid m.ts ms bs) :
      EncM es ck tid last (m :: ms) (compressLogHeader m.id m.ts last ++ out ++ bs)

/-- The fragment is positioned at the messages. -/
def AtM (es : List PEntry) (ck : Checkpoint) (bf : BufFrag) : List OutMsg → Prop
  | [] => bf.hasMore = false
  | m :: ms => bf.hasMore = true ∧ bf.id = m.id ∧ bf.ts = m.ts ∧
      ∃ out body tail, MsgM es ck bf.tid m out ∧ bf.mem = out ++ (body ++ tail) ∧
        bf.left = ((out ++ body).length : Nat) ∧ EncM es ck bf.tid m.ts ms body

/-- The calls of a batch as the decoder shows them. -/
theorem EncodedP.encM {ss es fns} (hp : Program ss es fns) {ck ck' : Checkpoint} (hck : SameTimes ck ck')
    (tid : Nat) {last : Nat} {cs : List PCall} {bs : List Byte} (h : EncodedP fns last cs bs) :
    ∃ ms, EncM es ck' tid last ms bs ∧ All2 (PPrints ss) (cs.map (tid, ck, ·)) ms := by
  induction h with
  | nil => exact ⟨[], .nil, .nil⟩
  | @cons last c fs out cs bs ok hg ht ih =>
    obtain ⟨ms, i1, i2⟩ := ih
    obtain ⟨s, hs, hsp⟩ := (fnsOf_get hp.fns).2 _ _ ok.fn
    obtain ⟨e, he, hent⟩ := (entriesOf_get hp.entries).2 _ _ hs
    obtain ⟨fs', gs, name, frags, j1, j2, j3, j4, j5⟩ := entry_inv hent
    rw [hsp] at j1
    obtain rfl := Option.some.inj j1
    obtain ⟨ds, d1, d2⟩ := hg.dict gs j2 []
    rw [List.append_nil] at d1
    unfold decodeArgs at d1
    cases hn : Nibbler.new out (pyNibbles fs) with
    | none => simp [hn] at d1
    | some x =>
      obtain ⟨nb, strs⟩ := x
      simp only [hn, Option.bind_eq_bind, Option.bind_some] at d1
      obtain ⟨ds', t1, t2⟩ := decodeFrags_lit j4 d1
      have hdec : decodeArgs (pyNibbles fs) frags out = some (ds', []) := by
        rw [decodeArgs, hn]; exact t1
      have hpr : PPrints ss (tid, ck, c)
          { tid := tid, id := c.id, ts := c.ts, ck := ck', file := name, line := s.line, level := s.level
            parts := ds' } := .mk hs hsp hck j3 d2 t2
      refine ⟨_ :: ms, EncM.cons (m := { tid := tid, id := c.id, ts := c.ts, ck := ck', file := name
                                         line := s.line, level := s.level, parts := ds' })
        ⟨⟨e, he, ?_⟩, rfl, rfl, ok.id, ok.ts⟩ i1, .cons hpr i2⟩
      rw [j5]
      exact ⟨hdec, rfl, rfl, rfl⟩

theorem readBufferExtent_atM (bf : BufFrag) {es : List PEntry} {ck : Checkpoint} {ms : List OutMsg}
    {body : List Byte} {tid : Nat} (he : EncM es ck tid 0 ms body) (np : Bool) (rest : List Byte)
    (e : Bool) (ht : tid < 2 ^ 32)
    (hc : (extentBytes tid np body).length ≤ bf.stor.length)
    (h32 : (extentBytes tid np body).length < 2 ^ 32) :
    ∃ bf', readBufferExtent bf ⟨extentBytes tid np body ++ rest, e⟩ =
        some (true, np, bf', ⟨rest, e⟩) ∧ AtM es ck bf' ms ∧ bf'.tid = tid ∧
      bf'.stor.length = bf.stor.length := by
  have hr := readBufferExtent_ok bf np body rest e ht hc h32
  have hst : (overlay (extentBytes tid np body) bf.stor).length = bf.stor.length := by
    simp [overlay]; omega
  cases he with
  | nil =>
    rw [if_pos rfl] at hr
    exact ⟨_, hr, rfl, rfl, hst⟩
  | @cons _ c out cs bs ok hb =>
    have hhl := compressLogHeader_length (ts := c.ts) (last := 0) ok.id
    have hne : ¬ compressLogHeader c.id c.ts 0 ++ out ++ bs = [] := by
      intro h0
      have := congrArg List.length h0
      simp only [List.length_append, List.length_nil] at this
      omega
    generalize hT : bf.stor.drop (extentBytes tid np (compressLogHeader c.id c.ts 0 ++ out ++ bs)).length = T at hr
    have hh := header_round_trip (last := 0) ok.id ok.ts (out ++ (bs ++ T))
    have e1 : compressLogHeader c.id c.ts 0 ++ out ++ bs ++ T =
        compressLogHeader c.id c.ts 0 ++ (out ++ (bs ++ T)) := by simp
    rw [if_neg hne, e1, hh] at hr
    refine ⟨_, hr, ⟨rfl, rfl, rfl, out, bs, _, ok, rfl, ?_, hb⟩, rfl, hst⟩
    simp only [List.length_append]
    push_cast; omega

/-- After a message the fragment is positioned at the next one. -/
theorem nextHeader_atM {es : List PEntry} {ck : Checkpoint} {bf : BufFrag} {out body tail : List Byte} {ms : List OutMsg}
    (hmem : bf.mem = out ++ (body ++ tail)) (hleft : bf.left = ((out ++ body).length : Nat))
    (henc : EncM es ck bf.tid bf.ts ms body) :
    ∃ bf', nextHeader bf (body ++ tail) = some bf' ∧ AtM es ck bf' ms ∧ bf'.tid = bf.tid ∧
      bf'.stor.length = bf.stor.length := by
  have hle : bf.left - ((bf.mem.length : Int) - (body ++ tail).length) = body.length := by
    rw [hleft, hmem]; simp only [List.length_append]; push_cast; omega
  unfold nextHeader
  simp only [hle]
  generalize hts : bf.ts = ts at henc
  cases henc with
  | nil =>
    rw [if_pos (by simp)]
    exact ⟨_, rfl, by simp [AtM], rfl, rfl⟩
  | @cons _ c2 out2 cs2 bs2 ok2 ht2 =>
    have hpos := compressLogHeader_length (ts := c2.ts) (last := ts) ok2.id
    have hh := header_round_trip (last := ts) ok2.id ok2.ts (out2 ++ (bs2 ++ tail))
    have e1 : compressLogHeader c2.id c2.ts ts ++ out2 ++ bs2 ++ tail =
        compressLogHeader c2.id c2.ts ts ++ (out2 ++ (bs2 ++ tail)) := by simp
    rw [if_neg (by simp only [List.length_append]; push_cast; omega), e1, hh]
    refine ⟨_, rfl, ⟨rfl, rfl, rfl, out2, bs2, tail, ok2, rfl, ?_, ht2⟩, rfl, rfl⟩
    simp only [List.length_append]
    push_cast; omega

theorem decompressNextP_atM {es : List PEntry} {ck : Checkpoint} {d : PDict} (hd : KnowsP es d) {bf : BufFrag}
    {m : OutMsg} {ms : List OutMsg} (ha : AtM es ck bf (m :: ms)) :
    ∃ bf', decompressNextP ck d bf = some (some m, bf') ∧
      AtM es ck bf' ms ∧ bf'.tid = bf.tid ∧ bf'.stor.length = bf.stor.length := by
  obtain ⟨hmore, hid, hts, out, body, tail, ok, hmem, hleft, henc⟩ := ha
  obtain ⟨e, he, hdec, e1, e2, e3⟩ := ok.ent
  have hdec' := decodeArgs_app hdec (body ++ tail)
  rw [List.nil_append] at hdec'
  obtain ⟨bf', n1, n2, n3, n4⟩ := nextHeader_atM hmem hleft (hts ▸ henc)
  refine ⟨bf', ?_, n2, n3, n4⟩
  have hl0 : ¬ (bf.left < 0 ∨ bf.hasMore = false) := by simp [hmore, hleft]; omega
  rw [decompressNextP, if_neg hl0, hid, hd.lookup he]
  simp only [hmem, hdec', n1, Option.map_some, Option.some.injEq, Prod.mk.injEq, and_true]
  obtain ⟨m1, m2, m3, m4, m5, m6, m7, m8⟩ := m
  have q1 := ok.ckEq
  have q2 := ok.tidEq
  simp only at *
  subst e1 e2 e3 q1 q2
  rw [hts]

/-! ## The rest of an execution in the file -/

/-- `bytes` hold the extents `F` and then `tail`. -/
inductive BodyM (cap : Nat) (es : List PEntry) (ck : Checkpoint) (tail : List Byte) : Exts → List Byte → Prop where
  | nil : BodyM cap es ck tail [] tail
  | ext {tid np body ms F bs} (he : EncM es ck tid 0 ms body) (ht : tid < 2 ^ 32)
      (hl : (extentBytes tid np body).length ≤ cap) (hcap : cap < 2 ^ 32)
      (h : BodyM cap es ck tail F bs) :
      BodyM cap es ck tail ((np, ms) :: F) (extentBytes tid np body ++ bs)

/-- The decoder's memory for static information. -/
structure DictM (space : Nat) (es : List PEntry) (d : PDict) : Prop where
  knows : KnowsP es d
  mem : MemP es d
  raw : 2 * space ≤ d.raw.length

/-! ## Steps -/

/-- One or more steps. -/
inductive MPlus (cap : Nat) (pick : Nat → List BufFrag → Nat) : MSt → MSt → Prop where
  | one {s s'} (hm : s.mode ≠ .done) (h : s.step cap pick = some s') : MPlus cap pick s s'
  | cons {s s1 s'} (hm : s.mode ≠ .done) (h : s.step cap pick = some s1) (ht : MPlus cap pick s1 s') :
      MPlus cap pick s s'

theorem MPlus.ok {cap : Nat} {pick : Nat → List BufFrag → Nat} (hp : Picks pick) {s s' : MSt}
    (h : MPlus cap pick s s') (hi : s.Ok cap) : s'.Ok cap ∧ s'.phi cap < s.phi cap := by
  induction h with
  | one hm h => exact ostepM_ok hp hi hm h
  | cons hm h _ ih =>
    obtain ⟨h1, h2⟩ := ostepM_ok hp hi hm h
    obtain ⟨h3, h4⟩ := ih h1
    exact ⟨h3, by omega⟩

theorem MPlus.trans {cap : Nat} {pick : Nat → List BufFrag → Nat} {s s1 s' : MSt}
    (h : MPlus cap pick s s1) (h' : MPlus cap pick s1 s') : MPlus cap pick s s' := by
  induction h with
  | one hm h => exact .cons hm h h'
  | cons hm h _ ih => exact .cons hm h (ih h')

/-- Zero or more steps. -/
def MStar (cap : Nat) (pick : Nat → List BufFrag → Nat) (s s' : MSt) : Prop :=
  s = s' ∨ MPlus cap pick s s'

theorem MStar.refl {cap : Nat} {pick : Nat → List BufFrag → Nat} (s : MSt) : MStar cap pick s s := .inl rfl

theorem MPlus.star {cap : Nat} {pick : Nat → List BufFrag → Nat} {s s' : MSt}
    (h : MPlus cap pick s s') : MStar cap pick s s' := .inr h

theorem MStar.trans {cap : Nat} {pick : Nat → List BufFrag → Nat} {s s1 s' : MSt}
    (h : MStar cap pick s s1) (h' : MStar cap pick s1 s') : MStar cap pick s s' := by
  rcases h with rfl | h
  · exact h'
  · rcases h' with rfl | h'
    · exact .inr h
    · exact .inr (h.trans h')

theorem MStar.ok {cap : Nat} {pick : Nat → List BufFrag → Nat} (hp : Picks pick) {s s' : MSt}
    (h : MStar cap pick s s') (hi : s.Ok cap) : s'.Ok cap := by
  rcases h with rfl | h
  · exact hi
  · exact (h.ok hp hi).1

theorem MPlus.loop {cap : Nat} {pick : Nat → List BufFrag → Nat} {s s' : MSt}
    (h : MPlus cap pick s s') : ∃ n, ∀ k, MSt.loop cap pick (n + k) s = MSt.loop cap pick k s' := by
  induction h with
  | one hm h =>
    refine ⟨1, fun k => ?_⟩
    rw [Nat.add_comm, MSt.loop, if_neg hm, h]
  | cons hm h _ ih =>
    obtain ⟨n, ih⟩ := ih
    refine ⟨n + 1, fun k => ?_⟩
    rw [show n + 1 + k = n + k + 1 by omega, MSt.loop, if_neg hm, h]
    exact ih k

/-- Reaching the end determines the result. -/
theorem MStar.done {cap : Nat} {pick : Nat → List BufFrag → Nat} (hp : Picks pick) {s : PDec}
    {pool : List BufFrag} (hpool : ∀ bf ∈ pool, bf.room ≤ cap + 5) {s' : MSt}
    (h : MStar cap pick (s.startOrdered pool) s') (hd : s'.mode = .done) :
    s.ordered cap pool pick = some s' := by
  rcases h with h | h
  · rw [← h] at hd; simp [PDec.startOrdered] at hd
  · obtain ⟨n, hn⟩ := h.loop
    have := hn (OSt.fuel cap s.file)
    rw [Nat.add_comm, (MSt.loop_fuel hp s hpool n).1] at this
    rw [this]
    cases OSt.fuel cap s.file with
    | zero => rfl
    | succ k => rw [MSt.loop, if_pos hd]

/-! ## The relation between the two -/

/-- A fragment in memory and its messages. -/
structure FRM (cap : Nat) (es : List PEntry) (ck : Checkpoint) (bf : BufFrag) (a : AF) : Prop where
  msgs : AtM es ck bf a.ms
  ts : bf.ts = a.ts
  stor : bf.stor.length = cap

/-- The parts of the relation common to all modes. -/
structure SimMC (space cap : Nat) (es : List PEntry) (ck : Checkpoint) (tail : List Byte) (s : MSt) (a : ASt)
    (Wc : List (List BufFrag)) : Prop where
  good : s.good = true
  ckEq : s.ck = ck
  dict : DictM space es s.dict
  W : List.Forall₂ (List.Forall₂ (FRM cap es ck)) Wc a.W
  pool : ∀ bf ∈ s.pool, bf.stor.length = cap ∧ bf.ts ≤ a.T
  nb : s.nb = a.W.length
  ok : s.Ok cap

/-- `s` is related to `a`; `tail` follows the execution in the file. -/
inductive SimM (space cap : Nat) (es : List PEntry) (ck : Checkpoint) (tail : List Byte) (s : MSt) : ASt → Prop where
  | fill {W cur F T Wc curc bs} (h : SimMC space cap es ck tail s ⟨W, cur, F, T, .fill⟩ Wc)
      (hm : s.mode = .read) (hmust : s.must = false) (hf : s.file = ⟨bs, false⟩)
      (hb : BodyM cap es ck tail F bs) (hcur : List.Forall₂ (FRM cap es ck) curc cur)
      (hW : W.length ≤ 2) (hst : s.stages = Wc ++ curc :: List.replicate (2 - W.length) []) :
      SimM space cap es ck tail s ⟨W, cur, F, T, .fill⟩
  | one {W F T Wc bs} (h : SimMC space cap es ck tail s ⟨W, [], F, T, .one⟩ Wc)
      (hm : s.mode = .deplete) (hmust : s.must = false) (hf : s.file = ⟨bs, false⟩)
      (hb : BodyM cap es ck tail F bs) (hW : W.length = 3) (hst : s.stages = Wc) :
      SimM space cap es ck tail s ⟨W, [], F, T, .one⟩
  | all {W T Wc} (h : SimMC space cap es ck tail s ⟨W, [], [], T, .all⟩ Wc)
      (hm : s.mode = .deplete) (hmust : s.must = true)
      (hf : s.file = ⟨tail, decide (tail = [])⟩)
      (hW : W.length ≤ 3) (hst : s.stages = Wc ++ List.replicate (3 - W.length) []) :
      SimM space cap es ck tail s ⟨W, [], [], T, .all⟩
  | fin {T} (h : SimMC space cap es ck tail s ⟨[], [], [], T, .fin⟩ [])
      (hf : tail = [] ∧ s.file = ⟨[], true⟩ ∧ s.mode = .outer ∨
            tail ≠ [] ∧ s.file = ⟨tail, false⟩ ∧ s.mode = .read ∧ s.must = false)
      (hst : s.stages = [[], [], []]) :
      SimM space cap es ck tail s ⟨[], [], [], T, .fin⟩

theorem SimM.ok {cap : Nat} {ck : Checkpoint} {tail : List Byte} {s : MSt} {a : ASt}
    (h : SimM space cap es ck tail s a) : s.Ok cap := by
  cases h with
  | fill h => exact h.ok
  | one h => exact h.ok
  | all h => exact h.ok
  | fin h => exact h.ok

theorem SimMC.fragsOK {cap : Nat} {ck : Checkpoint} {bf : BufFrag} {a : AF}
    (h : FRM cap es ck bf a) : a.OK := by
  intro m hm
  obtain ⟨h1, h3, -⟩ := h
  cases hms : a.ms with
  | nil => rw [hms] at hm; simp at hm
  | cons x xs =>
    rw [hms] at hm h1
    simp only [List.head?_cons, Option.some.injEq] at hm
    subst hm
    have ht := h1.2.2.1
    omega

/-! ## Reading -/

theorem decompressNextP_ts {ck : Checkpoint} {d : PDict} {bf bf' : BufFrag} {m : Option OutMsg}
    (h : decompressNextP ck d bf = some (m, bf')) (hm : bf'.hasMore = false) : bf'.ts = bf.ts := by
  unfold decompressNextP at h
  split at h
  · simp only [Option.some.injEq, Prod.mk.injEq] at h; rw [← h.2]
  · split at h
    · simp at h
    · split at h
      · simp at h
      · rename_i parts mem' hdec
        cases hn : nextHeader bf mem' with
        | none => rw [hn] at h; simp at h
        | some b =>
          rw [hn] at h
          simp only [Option.map_some, Option.some.injEq, Prod.mk.injEq] at h
          rw [← h.2] at hm ⊢
          unfold nextHeader at hn
          simp only at hn
          split at hn
          · obtain rfl := Option.some.inj hn; rfl
          · split at hn
            · cases hn
            · obtain rfl := Option.some.inj hn; rfl
            · obtain rfl := Option.some.inj hn; simp at hm

/-- End of a reading iteration without need to flush. -/
theorem endReadM_quiet {s : MSt} {np : Bool} (hg : s.good = true) (hm : s.must = false)
    (he : s.file.eof = false) {cur : List BufFrag} (hc : s.stages[s.nb]? = some cur) :
    s.endRead np = some { s with nb := if np then s.nb + 1 else s.nb
                                 mode := if (if np then s.nb + 1 else s.nb) = 3 then .deplete else .read } := by
  unfold MSt.endRead
  simp only [hg, hm, he, hc, Bool.or_self, Bool.false_and, Bool.or_false, Bool.not_true]

theorem endReadM_flush {s : MSt} {cur : List BufFrag} (hm : s.must = true ∨ s.file.eof = true)
    (hc : s.stages[s.nb]? = some cur) :
    s.endRead false = some { s with must := true
                                    nb := if cur = [] then s.nb else s.nb + 1
                                    mode := if (if cur = [] then s.nb else s.nb + 1) = 3 then .deplete else .read } := by
  have h : (s.must || s.file.eof) = true := by simpa using hm
  unfold MSt.endRead
  simp only [hc, h, Bool.true_or, Bool.true_and, Bool.false_or]
  cases cur <;> simp

theorem stepM_read {cap : Nat} {pick : Nat → List BufFrag → Nat} {s : MSt} (hm : s.mode = .read)
    (he : s.file.eof = false) (hg : s.good = true) (hmust : s.must = false) :
    s.step cap pick = s.readStep cap := by
  unfold MSt.step
  rw [hm]
  simp [he, hg, hmust]

theorem stepM_flush {cap : Nat} {pick : Nat → List BufFrag → Nat} {s : MSt} (hm : s.mode = .read)
    (hmust : s.must = true) : s.step cap pick = some { s with mode := .deplete } := by
  unfold MSt.step
  rw [hm]
  simp [hmust]

/-- From the end of the execution in the file to depleting all stages. -/
theorem simM_flush {cap : Nat} {pick : Nat → List BufFrag → Nat} (hp : Picks pick) {ck : Checkpoint} {tail : List Byte} {s : MSt}
    {W : List (List AF)} {cur : List AF} {T : Nat} {Wc : List (List BufFrag)}
    {curc : List BufFrag} (h : SimMC space cap es ck tail s ⟨W, cur, [], T, .fill⟩ Wc)
    (hm : s.mode = .read) (hmust : s.must = false) (he : s.file.eof = false)
    (hcur : List.Forall₂ (FRM cap es ck) curc cur)
    (hW : W.length ≤ 2) (hst : s.stages = Wc ++ curc :: List.replicate (2 - W.length) [])
    (hr : s.readStep cap = MSt.endRead { s with file := ⟨tail, decide (tail = [])⟩, must := decide (tail ≠ []) } false) :
    ∃ s', MPlus cap pick s s' ∧ s'.out = s.out ∧
      SimM space cap es ck tail s' ⟨if cur = [] then W else W ++ [cur], [], [], T, .all⟩ := by
  have hl : Wc.length = W.length := h.W.length_eq
  have hnb : s.nb = W.length := h.nb
  have hc : s.stages[s.nb]? = some curc := by
    rw [hst, hnb, ← hl]; simp
  have hcn : curc = [] ↔ cur = [] := by
    cases hcur <;> simp
  have e1 := endReadM_flush (s := { s with file := ⟨tail, decide (tail = [])⟩, must := decide (tail ≠ []) })
    (cur := curc) (by by_cases ht : tail = [] <;> simp [ht]) hc
  have hs1 : s.step cap pick = _ := (stepM_read (pick := pick) hm he h.good hmust).trans (hr.trans e1)
  have hd : s.mode ≠ .done := by rw [hm]; simp
  -- the state after both steps
  have fin : ∀ s' : MSt, s'.Ok cap → s'.file = ⟨tail, decide (tail = [])⟩ → s'.good = s.good → s'.ck = s.ck →
      s'.dict = s.dict → s'.pool = s.pool → s'.stages = s.stages → s'.must = true → s'.mode = .deplete →
      s'.nb = (if cur = [] then s.nb else s.nb + 1) →
      SimM space cap es ck tail s' ⟨if cur = [] then W else W ++ [cur], [], [], T, .all⟩ := by
    intro s' h1 h2 h3 h4 h5 h6 h7 h8 h9 h10
    by_cases hcr : cur = []
    · subst hcr
      have : curc = [] := hcn.2 rfl
      subst this
      simp only [if_true] at h10 ⊢
      refine .all (Wc := Wc) ⟨h3.trans h.good, h4.trans h.ckEq, h5 ▸ h.dict, h.W, h6 ▸ h.pool,
        h10.trans hnb, h1⟩ h9 h8 h2 (by omega) ?_
      rw [h7, hst, show 3 - W.length = (2 - W.length) + 1 by omega, List.replicate_succ]
    · simp only [hcr, if_false] at h10 ⊢
      refine .all (Wc := Wc ++ [curc]) ⟨h3.trans h.good, h4.trans h.ckEq, h5 ▸ h.dict, ?_,
        h6 ▸ h.pool, ?_, h1⟩ h9 h8 h2 (by simp; omega) ?_
      · exact Forall₂.app h.W (.cons hcur .nil)
      · rw [h10, hnb]; simp
      · rw [h7, hst]
        simp only [List.length_append, List.length_singleton, List.append_assoc, List.singleton_append]
        rw [show 3 - (W.length + 1) = 2 - W.length by omega]
  have hnbe : (if curc = [] then s.nb else s.nb + 1) = (if cur = [] then s.nb else s.nb + 1) := by
    simp only [hcn]
  by_cases h3 : (if curc = [] then s.nb else s.nb + 1) = 3
  · have hplus := MPlus.one hd hs1
    refine ⟨_, hplus, rfl, fin _ (hplus.ok hp h.ok).1 rfl rfl rfl rfl rfl rfl rfl ?_ ?_⟩
    · simp only [if_pos h3]
    · exact hnbe
  · have hp1 := MPlus.one hd hs1
    have hs2 := stepM_flush (cap := cap) (pick := pick) (s := { s with
        file := ⟨tail, decide (tail = [])⟩, must := true
        nb := if curc = [] then s.nb else s.nb + 1
        mode := if (if curc = [] then s.nb else s.nb + 1) = 3 then .deplete else .read })
      (by simp only [if_neg h3]) rfl
    have hplus := hp1.trans (MPlus.one (by simp only [if_neg h3]; simp) hs2)
    exact ⟨_, hplus, rfl, fin _ (hplus.ok hp h.ok).1 rfl rfl rfl rfl rfl rfl rfl rfl hnbe⟩

/-- A step while filling. -/
theorem simM_fill {cap : Nat} {pick : Nat → List BufFrag → Nat} (hp : Picks pick) {ck : Checkpoint}
    {tail : List Byte} (ht : TailOK tail) {s : MSt} {W : List (List AF)} {cur : List AF} {F : Exts} {T : Nat}
    (hs : SimM space cap es ck tail s ⟨W, cur, F, T, .fill⟩) :
    (∃ s', MPlus cap pick s s' ∧ s'.out = s.out ∧ SimM space cap es ck tail s' ⟨W, cur, F, T, .fill⟩) ∨
    (∃ a' s', AStep ⟨W, cur, F, T, .fill⟩ none a' ∧ MPlus cap pick s s' ∧ s'.out = s.out ∧
      SimM space cap es ck tail s' a') ∨
    (tail ≠ [] ∧ F = [] ∧ s.stages[0]? = some [] ∧ s.file = ⟨tail, false⟩) := by
  cases hs with
  | @fill _ _ _ _ Wc curc bs h hm hmust hf hb hcur hW hst =>
  have hl : Wc.length = W.length := h.W.length_eq
  have hnb : s.nb = W.length := h.nb
  have he : s.file.eof = false := by rw [hf]
  have hd : s.mode ≠ .done := by rw [hm]; simp
  have hc : s.stages[s.nb]? = some curc := by
    rw [hst, hnb, ← hl]; simp
  have hstep := stepM_read (cap := cap) (pick := pick) hm he h.good hmust
  have hnb3 : s.nb ≠ 3 := by omega
  cases hb with
  | nil =>
    right
    by_cases hbne : tail = []
    · left
      subst hbne
      obtain ⟨s', q1, q2, q3⟩ := simM_flush (pick := pick) hp h hm hmust he hcur hW hst (by
        unfold MSt.readStep
        rw [hf]
        simp only [FileSt.peek, FileSt.skipPad]
        simp [hmust])
      exact ⟨_, s', .flush, q1, q2, q3⟩
    · have hpk : s.file.peek = (.checkpoint, s.file) := by
        rw [hf]
        cases tail with
        | nil => exact absurd rfl hbne
        | cons b bs => simp only [FileSt.peek, ht b rfl]
      have h3 : s.stages.length = 3 := h.ok.three
      cases h0 : s.stages[0]? with
      | none => rw [List.getElem?_eq_none_iff] at h0; omega
      | some st =>
        cases st with
        | nil => right; exact ⟨hbne, rfl, rfl, hf⟩
        | cons b0 st =>
          left
          obtain ⟨s', q1, q2, q3⟩ := simM_flush (pick := pick) hp h hm hmust he hcur hW hst (by
            unfold MSt.readStep
            rw [hpk]
            simp only [h0]
            rw [hf]
            simp [hbne])
          exact ⟨_, s', .flush, q1, q2, q3⟩
  | @ext tid np body ms F' r he1 htid hlen hcap hbr =>
    right; left
    obtain ⟨b, l, e1, e2⟩ := extentBytes_head tid np body htid
    have hpk : s.file.peek = (.extent, s.file) := by
      rw [hf, e1]; simp [FileSt.peek, e2]
    obtain ⟨a1, a2, a3⟩ := allocFrag_facts (cap := cap) h.pool
    obtain ⟨bf', r1, r2, r3, r4⟩ := readBufferExtent_atM (allocFrag cap s.pool).1 he1 np r false htid
      (by rw [a1]; exact hlen) (by omega)
    have hrs : s.readStep cap = MSt.endRead { s with
        file := ⟨r, false⟩, good := true, pool := (allocFrag cap s.pool).2
        stages := s.stages.set s.nb (curc ++ [bf']) } np := by
      unfold MSt.readStep
      rw [hpk]
      simp only
      rw [hf, r1]
      simp only [hc, if_true]
    have hset : s.stages.set s.nb (curc ++ [bf']) =
        Wc ++ (curc ++ [bf']) :: List.replicate (2 - W.length) [] := by
      rw [hst, hnb, ← hl, List.set_append_right _ _ (by omega)]; simp
    rw [endReadM_quiet (s := { s with
        file := ⟨r, false⟩, good := true, pool := (allocFrag cap s.pool).2
        stages := s.stages.set s.nb (curc ++ [bf']) }) (cur := curc ++ [bf']) rfl hmust rfl (by
      simp only
      rw [hset, hnb, ← hl]; simp)] at hrs
    have hplus := MPlus.one hd (hstep.trans hrs)
    have hfr : FRM cap es ck bf' ⟨bf'.ts, ms⟩ := ⟨r2, rfl, r4.trans a1⟩
    have hok : AF.OK ⟨bf'.ts, ms⟩ := SimMC.fragsOK hfr
    have hempty : ms = [] → bf'.ts ≤ T := by
      rintro rfl
      have := readBufferExtent_ts r1 r2
      rw [this]; exact a2
    refine ⟨_, _, .read ⟨bf'.ts, ms⟩ hW rfl hok hempty, hplus, rfl, ?_⟩
    have hpool : ∀ bf ∈ (allocFrag cap s.pool).2, bf.stor.length = cap ∧ bf.ts ≤ T := a3
    have hcur' : List.Forall₂ (FRM cap es ck) (curc ++ [bf']) (cur ++ [⟨bf'.ts, ms⟩]) :=
      Forall₂.app hcur (.cons hfr .nil)
    have hok' := (hplus.ok hp h.ok).1
    cases np with
    | false =>
      simp only [Bool.false_eq_true, if_false]
      refine .fill (Wc := Wc) (curc := curc ++ [bf']) (bs := r)
        ⟨rfl, h.ckEq, h.dict, h.W, hpool, h.nb, hok'⟩ ?_ hmust rfl hbr hcur' hW hset
      simp only [Bool.false_eq_true, if_false, hnb3]
    | true =>
      simp only [if_true]
      by_cases h3' : W.length + 1 = 3
      · rw [if_pos h3']
        refine .one (Wc := Wc ++ [curc ++ [bf']]) (bs := r)
          ⟨rfl, h.ckEq, h.dict, Forall₂.app h.W (.cons hcur' .nil), hpool, ?_, hok'⟩ ?_ hmust rfl hbr (by simp; omega) ?_
        · simp [hnb]
        · simp [hnb, h3']
        · simp only
          rw [hset, show 2 - W.length = 0 by omega]; simp
      · rw [if_neg h3']
        refine .fill (Wc := Wc ++ [curc ++ [bf']]) (curc := []) (bs := r)
          ⟨rfl, h.ckEq, h.dict, Forall₂.app h.W (.cons hcur' .nil), hpool, ?_, hok'⟩ ?_ hmust rfl hbr .nil
          (by simp; omega) ?_
        · simp [hnb]
        · simp [hnb]; omega
        · simp only
          rw [hset]
          simp only [List.length_append, List.length_singleton, List.append_assoc, List.singleton_append]
          rw [show 2 - W.length = (2 - (W.length + 1)) + 1 by omega, List.replicate_succ]


/-! ## Printing -/

theorem MinAt.absM {cap : Nat} {ck : Checkpoint} {Wc : List (List BufFrag)}
    {W : List (List AF)} (hW : List.Forall₂ (List.Forall₂ (FRM cap es ck)) Wc W) {i k : Nat} {bf : BufFrag}
    (h : MinAt Wc i k bf) : ∃ a, AMin W i k a ∧ FRM cap es ck bf a := by
  obtain ⟨⟨st, h1, h2⟩, h3⟩ := h
  obtain ⟨sa, g1, g2⟩ := Forall₂.get hW h1
  obtain ⟨a, g3, g4⟩ := Forall₂.get g2 h2
  refine ⟨a, ⟨⟨sa, g1, g3⟩, ?_⟩, g4⟩
  intro j sj b hj hb
  obtain ⟨sc, q1, q2⟩ := Forall₂.get' hW hj
  obtain ⟨n, hn⟩ := List.getElem?_of_mem hb
  obtain ⟨bc, q3, q4⟩ := Forall₂.get' q2 hn
  have := h3 j sc bc q1 (List.mem_of_getElem? q3)
  rw [← g4.ts, ← q4.ts]
  exact this

/-- Printing one message of a fragment. -/
theorem FRM.next {cap : Nat} {ck : Checkpoint} {d : PDict} (hd : KnowsP es d)
    {bf : BufFrag} {a : AF} (h : FRM cap es ck bf a) :
    ∃ bf', decompressNextP ck d bf = some (a.ms.head?, bf') ∧ bf'.stor.length = cap ∧
      (match a.next with
       | some a' => bf'.hasMore = true ∧ FRM cap es ck bf' a'
       | none => bf'.hasMore = false ∧ bf'.ts = a.ts) := by
  obtain ⟨h1, h3, h4⟩ := h
  obtain ⟨ts, ms⟩ := a
  simp only at h1 h3
  cases ms with
  | nil =>
    have hm : bf.hasMore = false := h1
    refine ⟨{ bf with hasMore := false }, by simp [decompressNextP, hm], h4, ?_⟩
    simp [AF.next, h3]
  | cons m ms =>
    obtain ⟨bf', g1, g2, g3, g4⟩ := decompressNextP_atM hd h1
    refine ⟨bf', g1, g4.trans h4, ?_⟩
    cases ms with
    | nil =>
      have hm : bf'.hasMore = false := g2
      simp only [AF.next]
      exact ⟨hm, (decompressNextP_ts g1 hm).trans h3⟩
    | cons m2 ms2 =>
      simp only [AF.next]
      exact ⟨g2.1, g2, g2.2.2.1, g4.trans h4⟩

/-- The common part of a step while depleting. -/
theorem simM_pop {cap : Nat} {pick : Nat → List BufFrag → Nat} (hp : Picks pick) {ck : Checkpoint}
    {tail : List Byte} {s : MSt} {a : ASt} {Wc : List (List BufFrag)}
    (h : SimMC space cap es ck tail s a Wc) (hm : s.mode = .deplete) {p : Nat}
    (hst : s.stages = Wc ++ List.replicate p []) :
    (∀ st ∈ a.W, st = []) ∧ s.step cap pick = some { s with nb := 0, mode := .outer } ∨
    ∃ i k af Wc' pool', AMin a.W i k af ∧
      List.Forall₂ (List.Forall₂ (FRM cap es ck)) Wc' (popped a.W i k af) ∧
      (∀ bf ∈ pool', bf.stor.length = cap ∧ bf.ts ≤ freed a.T af) ∧
      ((∀ st, (popped a.W i k af)[0]? = some st → st ≠ []) ∧
        s.step cap pick = some { s with
          out := s.out ++ af.ms.head?.toList, stages := Wc' ++ List.replicate p [], pool := pool', tick := s.tick + 1 } ∨
       (popped a.W i k af)[0]? = some [] ∧
        s.step cap pick = some { s with
          out := s.out ++ af.ms.head?.toList, stages := Wc'.tail ++ List.replicate (p + 1) []
          nb := s.nb - 1, mode := if s.must then .deplete else .outer
          pool := pool', tick := s.tick + 1 }) := by
  have hl : Wc.length = a.W.length := h.W.length_eq
  have hnb : s.nb = Wc.length := h.nb.trans hl.symm
  have hstep : s.step cap pick = s.depleteStep pick := by unfold MSt.step; rw [hm]
  have htake : s.stages.take s.nb = Wc := by rw [hst, hnb, List.take_left']; rfl
  rw [hstep]
  unfold MSt.depleteStep
  rw [htake]
  cases hms : minStage (pick s.tick) 0 Wc none with
  | none =>
    left
    have hall := minStage_none hp hms
    refine ⟨?_, rfl⟩
    intro st hst'
    obtain ⟨n, hn⟩ := List.getElem?_of_mem hst'
    obtain ⟨sc, q1, q2⟩ := Forall₂.get' h.W hn
    rw [hall sc (List.mem_of_getElem? q1)] at q2
    cases q2; rfl
  | some q =>
    obtain ⟨i, k, bf⟩ := q
    right
    have hmin := minStage_some hp hms
    obtain ⟨af, hA, hfr⟩ := MinAt.absM h.W hmin
    obtain ⟨bf', d1, d2, d3⟩ := hfr.next h.dict.knows
    obtain ⟨⟨st, m1, m2⟩, -⟩ := hmin
    have hi : i < Wc.length := by
      by_contra hc; rw [List.getElem?_eq_none (by omega)] at m1; cases m1
    have hsi : s.stages[i]? = some st := by rw [hst, List.getElem?_append_left hi]; exact m1
    obtain ⟨sa, g1, g2⟩ := Forall₂.get h.W m1
    let st' := if bf'.hasMore then st.set k bf' else st.eraseIdx k
    let pool' := if bf'.hasMore then s.pool else s.pool ++ [bf'.reset]
    have hW' : List.Forall₂ (List.Forall₂ (FRM cap es ck)) (Wc.set i st') (popped a.W i k af) := by
      unfold popped
      rw [List.modify_eq_set_getElem?, g1]
      simp only [Option.map_eq_map, Option.map_some, Option.getD_some]
      refine Forall₂.set h.W i ?_
      cases hn : af.next with
      | some a' =>
        rw [hn] at d3
        simp only [st', d3.1, if_true]
        exact Forall₂.set g2 k d3.2
      | none =>
        rw [hn] at d3
        simp only [st', d3.1, Bool.false_eq_true, if_false]
        exact Forall₂.eraseIdx g2 k
    have hpool : ∀ bf ∈ pool', bf.stor.length = cap ∧ bf.ts ≤ freed a.T af := by
      intro b hb
      have hle : a.T ≤ freed a.T af := by unfold freed; split <;> omega
      have hold : b ∈ s.pool → b.stor.length = cap ∧ b.ts ≤ freed a.T af := fun hb =>
        ⟨(h.pool b hb).1, by have := (h.pool b hb).2; omega⟩
      cases hn : af.next with
      | some a' =>
        rw [hn] at d3
        simp only [pool', d3.1, if_true] at hb
        exact hold hb
      | none =>
        rw [hn] at d3
        simp only [pool', d3.1, Bool.false_eq_true, if_false, List.mem_append, List.mem_singleton] at hb
        rcases hb with hb | rfl
        · exact hold hb
        · refine ⟨d2, ?_⟩
          have : bf'.reset.ts = bf'.ts := rfl
          rw [this, d3.2]
          simp [freed, hn]; omega
    refine ⟨i, k, af, Wc.set i st', pool', hA, hW', hpool, ?_⟩
    have hset : s.stages.set i st' = Wc.set i st' ++ List.replicate p [] := by
      rw [hst, List.set_append_left _ _ hi]
    have hlen : 0 < (Wc.set i st').length := by simp; omega
    simp only [h.ckEq, d1, hsi]
    change _ ∨ _
    have h0 : (s.stages.set i st')[0]? = (Wc.set i st')[0]? := by
      rw [hset, List.getElem?_append_left hlen]
    rw [show (s.stages.set i (if bf'.hasMore = true then st.set k bf' else st.eraseIdx k)) = s.stages.set i st' from rfl]
    rw [h0]
    cases hz : (Wc.set i st')[0]? with
    | none => rw [List.getElem?_eq_none_iff] at hz; omega
    | some z =>
      obtain ⟨za, y1, y2⟩ := Forall₂.get hW' hz
      cases z with
      | cons b z =>
        left
        refine ⟨?_, ?_⟩
        · intro st0 hst0
          rw [y1] at hst0; cases hst0
          cases y2; simp
        · simp only [hset]; rfl
      | nil =>
        right
        cases y2
        refine ⟨y1, ?_⟩
        have hsh : shiftStages s.nb (s.stages.set i st') =
            (Wc.set i st').tail ++ List.replicate (p + 1) [] := by
          unfold shiftStages
          rw [hset, List.take_left' (by simp [hnb]), List.drop_left' (by simp [hnb]), List.drop_one,
            List.replicate_succ]
        simp only [hsh]; rfl

/-- A step while depleting the first stage. -/
theorem simM_one {cap : Nat} {pick : Nat → List BufFrag → Nat} (hp : Picks pick) {ck : Checkpoint}
    {tail : List Byte} {s : MSt} {W : List (List AF)} {F : Exts} {T : Nat}
    (hs : SimM space cap es ck tail s ⟨W, [], F, T, .one⟩) :
    ∃ m a' s', AStep ⟨W, [], F, T, .one⟩ m a' ∧ MPlus cap pick s s' ∧ s'.out = s.out ++ m.toList ∧
      SimM space cap es ck tail s' a' := by
  cases hs with
  | @one _ _ _ Wc bs h hm hmust hf hb hW hst =>
  have hd : s.mode ≠ .done := by rw [hm]; simp
  have hl : Wc.length = W.length := h.W.length_eq
  have hnb : s.nb = W.length := h.nb
  -- back to reading
  have outer : ∀ s1 : MSt, s1.mode = .outer → s1.file = s.file → s1.good = s.good →
      MPlus cap pick s1 { s1 with must := false, mode := .read } := by
    intro s1 h1 h2 h3
    refine .one (by rw [h1]; simp) ?_
    unfold MSt.step
    rw [h1]
    simp [h2, hf, h3, h.good]
  rcases simM_pop (pick := pick) hp h hm (p := 0) (by simpa using hst) with ⟨q1, q2⟩ |
    ⟨i, k, af, Wc', pool', q1, q2, q3, ⟨q4, q5⟩ | ⟨q4, q5⟩⟩
  · have hplus := (MPlus.one hd q2).trans (outer _ rfl rfl rfl)
    refine ⟨none, _, _, .clear (.inl ⟨rfl, hW⟩) q1, hplus, by simp, ?_⟩
    have hemp : ∀ st ∈ Wc, st = [] := by
      intro st hst'
      obtain ⟨n, hn⟩ := List.getElem?_of_mem hst'
      obtain ⟨sa, g1, g2⟩ := Forall₂.get h.W hn
      rw [q1 sa (List.mem_of_getElem? g1)] at g2
      cases g2; rfl
    refine .fill (Wc := []) (curc := []) (bs := bs)
      ⟨h.good, h.ckEq, h.dict, .nil, h.pool, rfl, (hplus.ok hp h.ok).1⟩ rfl rfl hf hb .nil (by simp) ?_
    simp only [hst]
    match Wc, hl.trans hW, hemp with
    | [x, y, z], _, hemp =>
      rw [hemp x (by simp), hemp y (by simp), hemp z (by simp)]; rfl
  · have hplus := MPlus.one hd q5
    refine ⟨af.ms.head?, _, _, .pop (.inl ⟨rfl, hW⟩) q1 q4, hplus, rfl, ?_⟩
    have hlp : (popped W i k af).length = 3 := by simp [popped, hW]
    exact .one (Wc := Wc') (bs := bs)
      ⟨h.good, h.ckEq, h.dict, q2, q3, by rw [hlp]; simp only; omega, (hplus.ok hp h.ok).1⟩
      hm hmust hf hb hlp (by simp)
  · simp only [hmust, Bool.false_eq_true, if_false] at q5
    have hplus := (MPlus.one hd q5).trans (outer _ rfl rfl rfl)
    refine ⟨af.ms.head?, _, _, .shift (.inl ⟨rfl, hW⟩) q1 q4, hplus, rfl, ?_⟩
    have hlp : (popped W i k af).length = 3 := by simp [popped, hW]
    simp only [if_true]
    have q2' : List.Forall₂ (List.Forall₂ (FRM cap es ck)) Wc'.tail (popped W i k af).tail := Forall₂.tail q2
    refine .fill (Wc := Wc'.tail) (curc := []) (bs := bs)
      ⟨h.good, h.ckEq, h.dict, q2', q3, ?_, (hplus.ok hp h.ok).1⟩ rfl rfl hf hb .nil ?_ ?_
    · simp only [List.length_tail, hlp]; omega
    · simp [hlp]
    · simp [hlp]

/-- A step while depleting all stages. -/
theorem simM_all {cap : Nat} {pick : Nat → List BufFrag → Nat} (hp : Picks pick) {ck : Checkpoint}
    {tail : List Byte} {s : MSt} {W : List (List AF)} {T : Nat}
    (hs : SimM space cap es ck tail s ⟨W, [], [], T, .all⟩) :
    ∃ m a' s', AStep ⟨W, [], [], T, .all⟩ m a' ∧ MPlus cap pick s s' ∧ s'.out = s.out ++ m.toList ∧
      SimM space cap es ck tail s' a' := by
  cases hs with
  | @all _ _ Wc h hm hmust hf hW hst =>
  have hd : s.mode ≠ .done := by rw [hm]; simp
  have hl : Wc.length = W.length := h.W.length_eq
  have hnb : s.nb = W.length := h.nb
  rcases simM_pop (pick := pick) hp h hm hst with ⟨q1, q2⟩ |
    ⟨i, k, af, Wc', pool', q1, q2, q3, ⟨q4, q5⟩ | ⟨q4, q5⟩⟩
  · have hemp : ∀ st ∈ Wc, st = [] := by
      intro st hst'
      obtain ⟨n, hn⟩ := List.getElem?_of_mem hst'
      obtain ⟨sa, g1, g2⟩ := Forall₂.get h.W hn
      rw [q1 sa (List.mem_of_getElem? g1)] at g2
      cases g2; rfl
    have hst0 : s.stages = [[], [], []] := by
      have h3 : s.stages.length = 3 := h.ok.three
      have hall : ∀ st ∈ s.stages, st = [] := by
        intro st hm'
        rw [hst] at hm'
        rcases List.mem_append.1 hm' with h | h
        · exact hemp st h
        · exact (List.mem_replicate.1 h).2
      match hh : s.stages, h3, hall with
      | [x, y, z], _, hall =>
        rw [hall x (by simp), hall y (by simp), hall z (by simp)]
    have hp1 := MPlus.one hd q2
    by_cases ht : tail = []
    · subst ht
      refine ⟨none, _, _, .clear (.inr ⟨rfl, rfl⟩) q1, hp1, by simp, ?_⟩
      simp only [reduceCtorEq, if_false]
      exact .fin ⟨h.good, h.ckEq, h.dict, .nil, h.pool, rfl, (hp1.ok hp h.ok).1⟩
        (.inl ⟨rfl, by simpa using hf, rfl⟩) hst0
    · have hf' : s.file = ⟨tail, false⟩ := by rw [hf]; simp [ht]
      have hplus := hp1.trans (MPlus.one (cap := cap) (pick := pick)
        (s := { s with nb := 0, mode := .outer })
        (s' := { s with nb := 0, must := false, mode := .read }) (by simp)
        (by unfold MSt.step; simp [hf', h.good]))
      refine ⟨none, _, _, .clear (.inr ⟨rfl, rfl⟩) q1, hplus, by simp, ?_⟩
      simp only [reduceCtorEq, if_false]
      exact .fin ⟨h.good, h.ckEq, h.dict, .nil, h.pool, rfl, (hplus.ok hp h.ok).1⟩
        (.inr ⟨ht, hf', rfl, rfl⟩) hst0
  · have hplus := MPlus.one hd q5
    refine ⟨af.ms.head?, _, _, .pop (.inr ⟨rfl, rfl⟩) q1 q4, hplus, rfl, ?_⟩
    have hlp : (popped W i k af).length = W.length := by simp [popped]
    exact .all (Wc := Wc')
      ⟨h.good, h.ckEq, h.dict, q2, q3, by rw [hlp]; exact hnb, (hplus.ok hp h.ok).1⟩
      hm hmust hf (by omega) (by rw [hlp])
  · simp only [hmust, if_true] at q5
    have hplus := MPlus.one hd q5
    refine ⟨af.ms.head?, _, _, .shift (.inr ⟨rfl, rfl⟩) q1 q4, hplus, rfl, ?_⟩
    have hlp : (popped W i k af).length = W.length := by simp [popped]
    have hpos : 1 ≤ W.length := by
      rw [← hlp]
      by_contra hc; rw [List.getElem?_eq_none (by simp only at hc ⊢; omega)] at q4; cases q4
    simp only [reduceCtorEq, if_false]
    have q2' : List.Forall₂ (List.Forall₂ (FRM cap es ck)) Wc'.tail (popped W i k af).tail := Forall₂.tail q2
    refine .all (Wc := Wc'.tail)
      ⟨h.good, h.ckEq, h.dict, q2', q3, ?_, (hplus.ok hp h.ok).1⟩ rfl rfl hf ?_ ?_
    · simp only [List.length_tail, hlp]; omega
    · simp only [List.length_tail, hlp]; omega
    · simp only [List.length_tail, hlp]
      rw [show 3 - (W.length - 1) = 3 - W.length + 1 by omega]

/-! ## A whole execution -/

/-- From filling to the end of the execution.  If another execution follows in the file, the
invariant `J` is needed: else its checkpoint may be read too early. -/
theorem simM_run {cap : Nat} {pick : Nat → List BufFrag → Nat} (hp : Picks pick) {ck : Checkpoint}
    {tail : List Byte} (ht : TailOK tail) (n : Nat) {s : MSt} {a : ASt} (hn : s.phi cap ≤ n)
    (hs : SimM space cap es ck tail s a) (hJ : tail ≠ [] → ∃ L, a.J L) :
    ∃ o s' T, ARun a o ∧ MStar cap pick s s' ∧ s'.out = s.out ++ o ∧
      SimM space cap es ck tail s' ⟨[], [], [], T, .fin⟩ := by
  induction n using Nat.strongRecOn generalizing s a with
  | ind n ih =>
  -- one step and then the rest
  have go : ∀ m a' s', AStep a m a' → MPlus cap pick s s' → s'.out = s.out ++ m.toList →
      SimM space cap es ck tail s' a' → ∃ o s' T, ARun a o ∧ MStar cap pick s s' ∧ s'.out = s.out ++ o ∧
      SimM space cap es ck tail s' ⟨[], [], [], T, .fin⟩ := by
    intro m a' s' h1 h2 h3 h4
    have hlt := (h2.ok hp hs.ok).2
    obtain ⟨o, s2, T, g1, g2, g3, g4⟩ := ih (s'.phi cap) (by omega) (Nat.le_refl _) h4
      (fun htl => by
        obtain ⟨L, hL⟩ := hJ htl
        obtain ⟨L', -, -, h⟩ := hL.step h1
        exact ⟨L', h⟩)
    exact ⟨m.toList ++ o, s2, T, .step h1 g1, h2.star.trans g2, by rw [g3, h3]; simp, g4⟩
  obtain ⟨W, cur, F, T, mode⟩ := a
  cases mode with
  | fin =>
    cases hs with
    | fin h hf hst => exact ⟨[], s, T, .fin, .refl s, by simp, .fin h hf hst⟩
  | all =>
    cases hs with
    | all h hm hmust hf hW hst =>
      obtain ⟨m, a', s', h1, h2, h3, h4⟩ := simM_all (pick := pick) hp (.all h hm hmust hf hW hst)
      exact go m a' s' h1 h2 h3 h4
  | one =>
    cases hs with
    | one h hm hmust hf hb hW hst =>
      obtain ⟨m, a', s', h1, h2, h3, h4⟩ := simM_one (pick := pick) hp (.one h hm hmust hf hb hW hst)
      exact go m a' s' h1 h2 h3 h4
  | fill =>
    rcases simM_fill (pick := pick) hp ht hs with ⟨s', h1, h2, h3⟩ | ⟨a', s', h1, h2, h3, h4⟩ | ⟨h1, h2, h3, h4⟩
    · have hlt := (h1.ok hp hs.ok).2
      obtain ⟨o, s2, T, g1, g2, g3, g4⟩ := ih (s'.phi cap) (by omega) (Nat.le_refl _) h3 hJ
      exact ⟨o, s2, T, g1, h1.star.trans g2, by rw [g3, h2], g4⟩
    · exact go none a' s' h1 h2 (by rw [h3]; simp) h4
    · subst h2
      obtain ⟨L, hL⟩ := hJ h1
      cases hs with
      | @fill _ _ _ _ Wc curc bs h hm hmust hf hb hcur hW hst =>
      have hfirst := hL.first rfl
      -- nothing is buffered
      have hWnil : W = [] ∧ cur = [] := by
        cases h.W with
        | nil =>
          refine ⟨rfl, ?_⟩
          rw [hst] at h3
          simp only [List.nil_append, List.getElem?_cons_zero, Option.some.injEq] at h3
          subst h3
          cases hcur; rfl
        | @cons x xa Wc W hx hW' =>
          exfalso
          rw [hst] at h3
          simp only [List.cons_append, List.getElem?_cons_zero, Option.some.injEq] at h3
          subst h3
          cases hx
          exact hfirst [] (by simp [ASt.groups, stMsgs]) rfl
      obtain ⟨rfl, rfl⟩ := hWnil
      cases h.W
      cases hcur
      refine ⟨[], s, T, ?_, .refl s, by simp, ?_⟩
      · have := ARun.step (m := none) (AStep.flush (W := []) (cur := []) (T := T))
          (ARun.step (m := none) (AStep.clear (W := []) (F := []) (mode := .all) (.inr ⟨rfl, rfl⟩) (by simp)) .fin)
        simpa using this
      · exact .fin ⟨h.good, h.ckEq, h.dict, .nil, h.pool, h.nb, h.ok⟩
          (.inr ⟨h1, h4, hm, hmust⟩) (by rw [hst]; rfl)

end NanoLog
