import Verif.OrderedTerm
import Verif.FileLemmas

/-! Helper lemmas: `decompressTo` on well-formed files follows the abstraction of
`OrderedAbs.lean`. -/

namespace NanoLog

/-! ## More log statements known -/

theorem LogCall.OK.mono {sites new : List Site} {c : LogCall} {s : Site} (h : c.OK sites s) :
    c.OK (sites ++ new) s := by
  refine ⟨?_, h.tys, h.valid, h.id, h.ts, h.size⟩
  have := h.site
  rw [List.getElem?_append_left]; exact this
  by_contra hc; rw [List.getElem?_eq_none (by omega)] at this; cases this

theorem Encoded.mono {sites new : List Site} {last : Nat} {cs : List LogCall} {bs : List Byte}
    (h : Encoded sites last cs bs) : Encoded (sites ++ new) last cs bs := by
  induction h with
  | nil => exact .nil
  | cons ok hm _ ih => exact .cons ok.mono hm ih

theorem Prints.mono {sites new : List Site} {tid : Nat} {ck : Checkpoint} {c : LogCall} {m : OutMsg}
    (h : Prints sites tid ck c m) : Prints (sites ++ new) tid ck c m := by
  cases h with | mk ok sup pr => exact .mk ok.mono sup pr

theorem At.mono {sites new : List Site} {bf : BufFrag} {cs : List LogCall} (h : At sites bf cs) :
    At (sites ++ new) bf cs := by
  cases cs with
  | nil => exact h
  | cons c cs =>
    obtain ⟨h1, h2, h3, s, junk, body, tail, h4, h5, h6, h7, h8⟩ := h
    exact ⟨h1, h2, h3, s, junk, body, tail, h4.mono, h5, h6, h7, h8.mono⟩

/-! ## Lists -/

theorem Forall₂.get {α β : Type} {R : α → β → Prop} {l : List α} {r : List β} (h : List.Forall₂ R l r)
    {i : Nat} {a : α} (hi : l[i]? = some a) : ∃ b, r[i]? = some b ∧ R a b := by
  induction h generalizing i with
  | nil => simp at hi
  | cons hab _ ih =>
    cases i with
    | zero => simp at hi; subst hi; exact ⟨_, rfl, hab⟩
    | succ i => simpa using ih (by simpa using hi)

theorem Forall₂.get' {α β : Type} {R : α → β → Prop} {l : List α} {r : List β} (h : List.Forall₂ R l r)
    {i : Nat} {b : β} (hi : r[i]? = some b) : ∃ a, l[i]? = some a ∧ R a b := by
  obtain ⟨a, h1, h2⟩ := Forall₂.get h.flip hi
  exact ⟨a, h1, h2⟩

theorem Forall₂.app {α β : Type} {R : α → β → Prop} {l l' : List α} {r r' : List β}
    (h : List.Forall₂ R l r) (h' : List.Forall₂ R l' r') : List.Forall₂ R (l ++ l') (r ++ r') := by
  induction h with
  | nil => exact h'
  | cons h1 _ ih => exact .cons h1 ih

theorem Forall₂.tail {α β : Type} {R : α → β → Prop} {l : List α} {r : List β}
    (h : List.Forall₂ R l r) : List.Forall₂ R l.tail r.tail := by
  cases h with
  | nil => exact .nil
  | cons _ h => exact h

theorem Forall₂.set {α β : Type} {R : α → β → Prop} {l : List α} {r : List β} (h : List.Forall₂ R l r)
    (i : Nat) {a : α} {b : β} (hab : R a b) : List.Forall₂ R (l.set i a) (r.set i b) := by
  induction h generalizing i with
  | nil => simp
  | cons h1 h2 ih =>
    cases i with
    | zero => exact .cons hab h2
    | succ i => exact .cons h1 (ih i)

theorem Forall₂.eraseIdx {α β : Type} {R : α → β → Prop} {l : List α} {r : List β}
    (h : List.Forall₂ R l r) (i : Nat) : List.Forall₂ R (l.eraseIdx i) (r.eraseIdx i) := by
  induction h generalizing i with
  | nil => simp
  | cons h1 h2 ih =>
    cases i with
    | zero => exact h2
    | succ i => exact .cons h1 (ih i)

/-! ## The rest of an execution in the file -/

/-- `bytes` hold the extents `F` (with dictionaries and padding) and then `tail`. -/
inductive Body (cap : Nat) (ck : Checkpoint) (tail : List Byte) : List Site → Exts → List Byte → Prop where
  | nil {known} : Body cap ck tail known [] tail
  | dict {known total new F bs} (hn : AllSupported new)
      (hl : (dictBytes total new).length < 2 ^ 30) (h : Body cap ck tail (known ++ new) F bs) :
      Body cap ck tail known F (dictBytes total new ++ bs)
  | ext {known tid np cs body ms F bs} (he : Encoded known 0 cs body)
      (hp : List.Forall₂ (Prints known tid ck) cs ms) (ht : tid < 2 ^ 32)
      (hl : (extentBytes tid np body).length ≤ cap) (hcap : cap < 2 ^ 32)
      (h : Body cap ck tail known F bs) :
      Body cap ck tail known ((np, ms) :: F) (extentBytes tid np body ++ bs)
  | pad {known ps F bs} (hz : ∀ b ∈ ps, entryType b = .invalid) (h : Body cap ck tail known F bs) :
      Body cap ck tail known F (ps ++ bs)

/-- `bytes` without the padding at its front. -/
def noPad (bs : List Byte) : List Byte := bs.dropWhile (fun b => decide (entryType b = .invalid))

theorem noPad_append {ps bs : List Byte} (hz : ∀ b ∈ ps, entryType b = .invalid) :
    noPad (ps ++ bs) = noPad bs := by
  unfold noPad
  rw [List.dropWhile_append_of_pos (by simpa using hz)]

theorem noPad_self {b : Byte} {bs : List Byte} (h : entryType b ≠ .invalid) :
    noPad (b :: bs) = b :: bs := by
  simp [noPad, h]

/-- The file ends here, or another execution begins. -/
def TailOK (tail : List Byte) : Prop := ∀ b, tail.head? = some b → entryType b = .checkpoint

/-- `tail` does not begin with padding. -/
def NoPadHead (tail : List Byte) : Prop := ∀ b, tail.head? = some b → entryType b ≠ .invalid

theorem TailOK.noPad {tail : List Byte} (h : TailOK tail) : NoPadHead tail := by
  intro b hb; rw [h b hb]; simp

/-- What comes after the padding. -/
theorem Body.shape {cap : Nat} {ck : Checkpoint} {tail : List Byte} (ht : NoPadHead tail) {known : List Site}
    {F : Exts} {bs : List Byte} (h : Body cap ck tail known F bs) :
    (F = [] ∧ noPad bs = tail) ∨
    (∃ total new r, noPad bs = dictBytes total new ++ r ∧ AllSupported new ∧
      (dictBytes total new).length < 2 ^ 30 ∧ Body cap ck tail (known ++ new) F r) ∨
    (∃ tid np cs body ms F' r, noPad bs = extentBytes tid np body ++ r ∧ F = (np, ms) :: F' ∧
      Encoded known 0 cs body ∧ List.Forall₂ (Prints known tid ck) cs ms ∧ tid < 2 ^ 32 ∧
      (extentBytes tid np body).length ≤ cap ∧ cap < 2 ^ 32 ∧ Body cap ck tail known F' r) := by
  induction h with
  | nil =>
    refine .inl ⟨rfl, ?_⟩
    cases tail with
    | nil => rfl
    | cons b tail => exact noPad_self (ht b rfl)
  | @dict known total new F bs hn hl h ih =>
    refine .inr (.inl ⟨total, new, bs, ?_, hn, hl, h⟩)
    obtain ⟨b, l, e1, e2⟩ := dictBytes_head total new
    rw [e1, List.cons_append, noPad_self (by rw [e2]; simp)]
  | @ext known tid np cs body ms F bs he hp htid hl hcap h ih =>
    refine .inr (.inr ⟨tid, np, cs, body, ms, F, bs, ?_, rfl, he, hp, htid, hl, hcap, h⟩)
    obtain ⟨b, l, e1, e2⟩ := extentBytes_head tid np body htid
    rw [e1, List.cons_append, noPad_self (by rw [e2]; simp)]
  | pad hz h ih => rw [noPad_append hz]; exact ih

/-! ## Steps -/

/-- One or more steps. -/
inductive OPlus (cap : Nat) (pick : Nat → List BufFrag → Nat) : OSt → OSt → Prop where
  | one {s s'} (hm : s.mode ≠ .done) (h : s.step cap pick = some s') : OPlus cap pick s s'
  | cons {s s1 s'} (hm : s.mode ≠ .done) (h : s.step cap pick = some s1) (ht : OPlus cap pick s1 s') :
      OPlus cap pick s s'

theorem OPlus.ok {cap : Nat} {pick : Nat → List BufFrag → Nat} (hp : Picks pick) {s s' : OSt}
    (h : OPlus cap pick s s') (hi : s.Ok cap) : s'.Ok cap ∧ s'.phi cap < s.phi cap := by
  induction h with
  | one hm h => exact ostep_ok hp hi hm h
  | cons hm h _ ih =>
    obtain ⟨h1, h2⟩ := ostep_ok hp hi hm h
    obtain ⟨h3, h4⟩ := ih h1
    exact ⟨h3, by omega⟩

theorem OPlus.trans {cap : Nat} {pick : Nat → List BufFrag → Nat} {s s1 s' : OSt}
    (h : OPlus cap pick s s1) (h' : OPlus cap pick s1 s') : OPlus cap pick s s' := by
  induction h with
  | one hm h => exact .cons hm h h'
  | cons hm h _ ih => exact .cons hm h (ih h')

/-- Zero or more steps. -/
def OStar (cap : Nat) (pick : Nat → List BufFrag → Nat) (s s' : OSt) : Prop :=
  s = s' ∨ OPlus cap pick s s'

theorem OStar.refl {cap : Nat} {pick : Nat → List BufFrag → Nat} (s : OSt) : OStar cap pick s s := .inl rfl

theorem OPlus.star {cap : Nat} {pick : Nat → List BufFrag → Nat} {s s' : OSt}
    (h : OPlus cap pick s s') : OStar cap pick s s' := .inr h

theorem OStar.trans {cap : Nat} {pick : Nat → List BufFrag → Nat} {s s1 s' : OSt}
    (h : OStar cap pick s s1) (h' : OStar cap pick s1 s') : OStar cap pick s s' := by
  rcases h with rfl | h
  · exact h'
  · rcases h' with rfl | h'
    · exact .inr h
    · exact .inr (h.trans h')

theorem OStar.ok {cap : Nat} {pick : Nat → List BufFrag → Nat} (hp : Picks pick) {s s' : OSt}
    (h : OStar cap pick s s') (hi : s.Ok cap) : s'.Ok cap := by
  rcases h with rfl | h
  · exact hi
  · exact (h.ok hp hi).1

theorem OPlus.loop {cap : Nat} {pick : Nat → List BufFrag → Nat} {s s' : OSt}
    (h : OPlus cap pick s s') : ∃ n, ∀ k, OSt.loop cap pick (n + k) s = OSt.loop cap pick k s' := by
  induction h with
  | one hm h =>
    refine ⟨1, fun k => ?_⟩
    rw [Nat.add_comm, OSt.loop, if_neg hm, h]
  | cons hm h _ ih =>
    obtain ⟨n, ih⟩ := ih
    refine ⟨n + 1, fun k => ?_⟩
    rw [show n + 1 + k = n + k + 1 by omega, OSt.loop, if_neg hm, h]
    exact ih k

/-- Reaching the end determines the result. -/
theorem OStar.done {cap : Nat} {pick : Nat → List BufFrag → Nat} (hp : Picks pick) {s : Dec}
    {pool : List BufFrag} (hpool : ∀ bf ∈ pool, bf.room ≤ cap + 5) {s' : OSt}
    (h : OStar cap pick (s.startOrdered pool) s') (hd : s'.mode = .done) :
    s.ordered cap pool pick = some s' := by
  rcases h with h | h
  · rw [← h] at hd; simp [Dec.startOrdered] at hd
  · obtain ⟨n, hn⟩ := h.loop
    have := hn (OSt.fuel cap s.file)
    rw [Nat.add_comm, (OSt.loop_fuel hp s hpool n).1] at this
    rw [this]
    cases OSt.fuel cap s.file with
    | zero => rfl
    | succ k => rw [OSt.loop, if_pos hd]

/-! ## The relation between the two -/

/-- A fragment in memory and its messages. -/
structure FR (cap : Nat) (known : List Site) (ck : Checkpoint) (bf : BufFrag) (a : AF) : Prop where
  msgs : ∃ cs, At known bf cs ∧ List.Forall₂ (Prints known bf.tid ck) cs a.ms
  ts : bf.ts = a.ts
  stor : bf.stor.length = cap

theorem FR.mono {cap : Nat} {known new : List Site} {ck : Checkpoint} {bf : BufFrag} {a : AF}
    (h : FR cap known ck bf a) : FR cap (known ++ new) ck bf a := by
  obtain ⟨⟨cs, h1, h2⟩, h3, h4⟩ := h
  exact ⟨⟨cs, h1.mono, h2.imp fun _ _ h => h.mono⟩, h3, h4⟩

/-- The parts of the relation common to all modes. -/
structure SimC (cap : Nat) (ck : Checkpoint) (tail : List Byte) (s : OSt) (known : List Site) (a : ASt)
    (Wc : List (List BufFrag)) : Prop where
  good : s.good = true
  ckEq : s.ck = ck
  dict : Describes s.dict known
  W : List.Forall₂ (List.Forall₂ (FR cap known ck)) Wc a.W
  pool : ∀ bf ∈ s.pool, bf.stor.length = cap ∧ bf.ts ≤ a.T
  nb : s.nb = a.W.length
  ok : s.Ok cap

/-- `s` is related to `a`; `tail` follows the execution in the file. -/
inductive Sim (cap : Nat) (ck : Checkpoint) (tail : List Byte) (s : OSt) : ASt → Prop where
  | fill {W cur F T known Wc curc bs} (h : SimC cap ck tail s known ⟨W, cur, F, T, .fill⟩ Wc)
      (hm : s.mode = .read) (hmust : s.must = false) (hf : s.file = ⟨bs, false⟩)
      (hb : Body cap ck tail known F bs) (hcur : List.Forall₂ (FR cap known ck) curc cur)
      (hW : W.length ≤ 2) (hst : s.stages = Wc ++ curc :: List.replicate (2 - W.length) []) :
      Sim cap ck tail s ⟨W, cur, F, T, .fill⟩
  | one {W F T known Wc bs} (h : SimC cap ck tail s known ⟨W, [], F, T, .one⟩ Wc)
      (hm : s.mode = .deplete) (hmust : s.must = false) (hf : s.file = ⟨bs, false⟩)
      (hb : Body cap ck tail known F bs) (hW : W.length = 3) (hst : s.stages = Wc) :
      Sim cap ck tail s ⟨W, [], F, T, .one⟩
  | all {W T known Wc} (h : SimC cap ck tail s known ⟨W, [], [], T, .all⟩ Wc)
      (hm : s.mode = .deplete) (hmust : s.must = true)
      (hf : s.file = ⟨tail, decide (tail = [])⟩)
      (hW : W.length ≤ 3) (hst : s.stages = Wc ++ List.replicate (3 - W.length) []) :
      Sim cap ck tail s ⟨W, [], [], T, .all⟩
  | fin {T known} (h : SimC cap ck tail s known ⟨[], [], [], T, .fin⟩ [])
      (hf : tail = [] ∧ s.file = ⟨[], true⟩ ∧ s.mode = .outer ∨
            tail ≠ [] ∧ s.file = ⟨tail, false⟩ ∧ s.mode = .read ∧ s.must = false)
      (hst : s.stages = [[], [], []]) :
      Sim cap ck tail s ⟨[], [], [], T, .fin⟩

theorem Sim.ok {cap : Nat} {ck : Checkpoint} {tail : List Byte} {s : OSt} {a : ASt}
    (h : Sim cap ck tail s a) : s.Ok cap := by
  cases h with
  | fill h => exact h.ok
  | one h => exact h.ok
  | all h => exact h.ok
  | fin h => exact h.ok

theorem SimC.fragsOK {cap : Nat} {known : List Site} {ck : Checkpoint} {bf : BufFrag} {a : AF}
    (h : FR cap known ck bf a) : a.OK := by
  intro m hm
  obtain ⟨⟨cs, h1, h2⟩, h3, -⟩ := h
  cases hms : a.ms with
  | nil => rw [hms] at hm; simp at hm
  | cons x xs =>
    rw [hms] at hm h2
    simp only [List.head?_cons, Option.some.injEq] at hm
    subst hm
    cases h2 with
    | @cons c _ cs _ hp hrest =>
      have ht := h1.2.2.1
      cases hp with
      | mk ok sup pr => simp only; omega

/-! ## Reading -/

theorem readBufferExtent_ts {bf bf' : BufFrag} {f f' : FileSt} {np : Bool}
    (h : readBufferExtent bf f = some (true, np, bf', f')) (hm : bf'.hasMore = false) :
    bf'.ts = bf.ts := by
  unfold readBufferExtent at h
  simp only at h
  split at h
  · split at h
    · simp at h
    · split at h
      · simp at h
      · split at h
        · simp at h
        · split at h
          · simp at h
          · rename_i hs
            simp only [Option.some.injEq, Prod.mk.injEq] at h
            obtain ⟨rfl, -, rfl, -⟩ := h
            unfold BufFrag.start at hs
            simp only at hs
            split at hs
            · simp at hs
            · split at hs
              · simp only [Option.some.injEq, Prod.mk.injEq, true_and] at hs
                rw [← hs]
              · split at hs
                · simp at hs
                · simp at hs
                · simp only [Option.some.injEq, Prod.mk.injEq, true_and] at hs
                  rw [← hs] at hm
                  simp at hm
  · simp at h

theorem decompressNext_ts {ck : Checkpoint} {d : Dict} {bf bf' : BufFrag} {m : Option OutMsg}
    (h : decompressNext ck d bf = some (m, bf')) (hm : bf'.hasMore = false) : bf'.ts = bf.ts := by
  unfold decompressNext at h
  split at h
  · simp only [Option.some.injEq, Prod.mk.injEq] at h; rw [← h.2]
  · split at h
    · simp at h
    · split at h
      · simp at h
      · simp only at h
        split at h
        · simp only [Option.some.injEq, Prod.mk.injEq] at h; rw [← h.2]
        · split at h
          · simp at h
          · simp only [Option.some.injEq, Prod.mk.injEq] at h; rw [← h.2]
          · simp only [Option.some.injEq, Prod.mk.injEq] at h
            rw [← h.2] at hm; simp at hm

/-- End of a reading iteration without need to flush. -/
theorem endRead_quiet {s : OSt} {np : Bool} (hg : s.good = true) (hm : s.must = false)
    (he : s.file.eof = false) {cur : List BufFrag} (hc : s.stages[s.nb]? = some cur) :
    s.endRead np = some { s with nb := if np then s.nb + 1 else s.nb
                                 mode := if (if np then s.nb + 1 else s.nb) = 3 then .deplete else .read } := by
  unfold OSt.endRead
  simp only [hg, hm, he, hc, Bool.or_self, Bool.false_and, Bool.or_false, Bool.not_true]

theorem endRead_flush {s : OSt} {cur : List BufFrag} (hm : s.must = true ∨ s.file.eof = true)
    (hc : s.stages[s.nb]? = some cur) :
    s.endRead false = some { s with must := true
                                    nb := if cur = [] then s.nb else s.nb + 1
                                    mode := if (if cur = [] then s.nb else s.nb + 1) = 3 then .deplete else .read } := by
  have h : (s.must || s.file.eof) = true := by simpa using hm
  unfold OSt.endRead
  simp only [hc, h, Bool.true_or, Bool.true_and, Bool.false_or]
  cases cur <;> simp

theorem allocFrag_facts {cap T : Nat} {pool : List BufFrag}
    (hp : ∀ bf ∈ pool, bf.stor.length = cap ∧ bf.ts ≤ T) :
    (allocFrag cap pool).1.stor.length = cap ∧ (allocFrag cap pool).1.ts ≤ T ∧
    ∀ bf ∈ (allocFrag cap pool).2, bf.stor.length = cap ∧ bf.ts ≤ T := by
  unfold allocFrag
  split
  · rename_i b hb
    have := hp b (List.mem_of_getLast? hb)
    exact ⟨this.1, this.2, fun x hx => hp x (List.dropLast_subset _ hx)⟩
  · exact ⟨by simp [BufFrag.init], by simp [BufFrag.init], by simp⟩

theorem step_read {cap : Nat} {pick : Nat → List BufFrag → Nat} {s : OSt} (hm : s.mode = .read)
    (he : s.file.eof = false) (hg : s.good = true) (hmust : s.must = false) :
    s.step cap pick = s.readStep cap := by
  unfold OSt.step
  rw [hm]
  simp [he, hg, hmust]

theorem step_flush {cap : Nat} {pick : Nat → List BufFrag → Nat} {s : OSt} (hm : s.mode = .read)
    (hmust : s.must = true) : s.step cap pick = some { s with mode := .deplete } := by
  unfold OSt.step
  rw [hm]
  simp [hmust]

/-- From the end of the execution in the file to depleting all stages. -/
theorem sim_flush {cap : Nat} {pick : Nat → List BufFrag → Nat} (hp : Picks pick) {ck : Checkpoint} {tail : List Byte} {s : OSt}
    {W : List (List AF)} {cur : List AF} {T : Nat} {known : List Site} {Wc : List (List BufFrag)}
    {curc : List BufFrag} (h : SimC cap ck tail s known ⟨W, cur, [], T, .fill⟩ Wc)
    (hm : s.mode = .read) (hmust : s.must = false) (he : s.file.eof = false)
    (hcur : List.Forall₂ (FR cap known ck) curc cur)
    (hW : W.length ≤ 2) (hst : s.stages = Wc ++ curc :: List.replicate (2 - W.length) [])
    (hr : s.readStep cap = OSt.endRead { s with file := ⟨tail, decide (tail = [])⟩, must := decide (tail ≠ []) } false) :
    ∃ s', OPlus cap pick s s' ∧ s'.out = s.out ∧
      Sim cap ck tail s' ⟨if cur = [] then W else W ++ [cur], [], [], T, .all⟩ := by
  have hl : Wc.length = W.length := h.W.length_eq
  have hnb : s.nb = W.length := h.nb
  have hc : s.stages[s.nb]? = some curc := by
    rw [hst, hnb, ← hl]; simp
  have hcn : curc = [] ↔ cur = [] := by
    cases hcur <;> simp
  have e1 := endRead_flush (s := { s with file := ⟨tail, decide (tail = [])⟩, must := decide (tail ≠ []) })
    (cur := curc) (by by_cases ht : tail = [] <;> simp [ht]) hc
  have hs1 : s.step cap pick = _ := (step_read (pick := pick) hm he h.good hmust).trans (hr.trans e1)
  have hd : s.mode ≠ .done := by rw [hm]; simp
  -- the state after both steps
  have fin : ∀ s' : OSt, s'.Ok cap → s'.file = ⟨tail, decide (tail = [])⟩ → s'.good = s.good → s'.ck = s.ck →
      s'.dict = s.dict → s'.pool = s.pool → s'.stages = s.stages → s'.must = true → s'.mode = .deplete →
      s'.nb = (if cur = [] then s.nb else s.nb + 1) →
      Sim cap ck tail s' ⟨if cur = [] then W else W ++ [cur], [], [], T, .all⟩ := by
    intro s' h1 h2 h3 h4 h5 h6 h7 h8 h9 h10
    by_cases hcr : cur = []
    · subst hcr
      have : curc = [] := hcn.2 rfl
      subst this
      simp only [if_true] at h10 ⊢
      refine .all (known := known) (Wc := Wc) ⟨h3.trans h.good, h4.trans h.ckEq, h5 ▸ h.dict, h.W, h6 ▸ h.pool,
        h10.trans hnb, h1⟩ h9 h8 h2 (by omega) ?_
      rw [h7, hst, show 3 - W.length = (2 - W.length) + 1 by omega, List.replicate_succ]
    · simp only [hcr, if_false] at h10 ⊢
      refine .all (known := known) (Wc := Wc ++ [curc]) ⟨h3.trans h.good, h4.trans h.ckEq, h5 ▸ h.dict, ?_,
        h6 ▸ h.pool, ?_, h1⟩ h9 h8 h2 (by simp; omega) ?_
      · exact Forall₂.app h.W (.cons hcur .nil)
      · rw [h10, hnb]; simp
      · rw [h7, hst]
        simp only [List.length_append, List.length_singleton, List.append_assoc, List.singleton_append]
        rw [show 3 - (W.length + 1) = 2 - W.length by omega]
  have hnbe : (if curc = [] then s.nb else s.nb + 1) = (if cur = [] then s.nb else s.nb + 1) := by
    simp only [hcn]
  by_cases h3 : (if curc = [] then s.nb else s.nb + 1) = 3
  · have hplus := OPlus.one hd hs1
    refine ⟨_, hplus, rfl, fin _ (hplus.ok hp h.ok).1 rfl rfl rfl rfl rfl rfl rfl ?_ ?_⟩
    · simp only [if_pos h3]
    · exact hnbe
  · have hp1 := OPlus.one hd hs1
    have hs2 := step_flush (cap := cap) (pick := pick) (s := { s with
        file := ⟨tail, decide (tail = [])⟩, must := true
        nb := if curc = [] then s.nb else s.nb + 1
        mode := if (if curc = [] then s.nb else s.nb + 1) = 3 then .deplete else .read })
      (by simp only [if_neg h3]) rfl
    have hplus := hp1.trans (OPlus.one (by simp only [if_neg h3]; simp) hs2)
    exact ⟨_, hplus, rfl, fin _ (hplus.ok hp h.ok).1 rfl rfl rfl rfl rfl rfl rfl rfl hnbe⟩

/-- A step while filling, up to the tail. -/
theorem sim_fill_core {cap : Nat} {pick : Nat → List BufFrag → Nat} (hp : Picks pick) {ck : Checkpoint}
    {tail : List Byte} (ht : NoPadHead tail) {s : OSt} {W : List (List AF)} {cur : List AF} {F : Exts} {T : Nat}
    (hs : Sim cap ck tail s ⟨W, cur, F, T, .fill⟩) :
    (∃ s', OPlus cap pick s s' ∧ s'.out = s.out ∧ Sim cap ck tail s' ⟨W, cur, F, T, .fill⟩) ∨
    (∃ a' s', AStep ⟨W, cur, F, T, .fill⟩ none a' ∧ OPlus cap pick s s' ∧ s'.out = s.out ∧
      Sim cap ck tail s' a' ∧ (tail ≠ [] → a'.mode = .fill ∨ a'.mode = .one)) ∨
    (tail ≠ [] ∧ F = [] ∧ s.file = ⟨tail, false⟩) := by
  cases hs with
  | @fill _ _ _ _ known Wc curc bs h hm hmust hf hb hcur hW hst =>
  have hl : Wc.length = W.length := h.W.length_eq
  have hnb : s.nb = W.length := h.nb
  have he : s.file.eof = false := by rw [hf]
  have hd : s.mode ≠ .done := by rw [hm]; simp
  have hc : s.stages[s.nb]? = some curc := by
    rw [hst, hnb, ← hl]; simp
  have hstep := step_read (cap := cap) (pick := pick) hm he h.good hmust
  have hnb3 : s.nb ≠ 3 := by omega
  -- padding first
  by_cases hpad : noPad bs = bs ∧ bs ≠ []
  swap
  · -- one step to skip the padding
    have hpk : (s.file.peek).1 = .invalid := by
      rw [hf]
      cases bs with
      | nil => rfl
      | cons b bs =>
        by_contra hc'
        exact hpad ⟨noPad_self (by simpa [FileSt.peek] using hc'), by simp⟩
    have hpk2 : (s.file.peek).2.skipPad = if noPad bs = [] then ⟨[], true⟩ else ⟨noPad bs, false⟩ := by
      rw [hf]
      cases bs with
      | nil => rfl
      | cons b bs =>
        simp only [FileSt.peek, FileSt.skipPad, Bool.false_eq_true, if_false]
        unfold noPad
        generalize (List.dropWhile (fun b => decide (entryType b = .invalid)) (b :: bs)) = l
        cases l <;> simp
    have hrs : s.readStep cap = OSt.endRead { s with file := (s.file.peek).2.skipPad } false := by
      unfold OSt.readStep
      generalize s.file.peek = p at hpk
      obtain ⟨e, f⟩ := p
      simp only at hpk
      subst hpk
      rfl
    rw [hpk2] at hrs
    by_cases hnil : noPad bs = []
    · -- end of file
      have hshape := hb.shape ht
      have hFt : F = [] ∧ tail = [] := by
        rcases hshape with ⟨h1, h2⟩ | ⟨total, new, r, h1, -⟩ | ⟨tid, np, cs, body, ms, F', r, h1, -, -, -, h2, -⟩
        · exact ⟨h1, by rw [← h2, hnil]⟩
        · obtain ⟨b, l, e1, -⟩ := dictBytes_head total new
          rw [hnil, e1] at h1; simp at h1
        · obtain ⟨b, l, e1, -⟩ := extentBytes_head tid np body h2
          rw [hnil, e1] at h1; simp at h1
      obtain ⟨rfl, rfl⟩ := hFt
      right; left
      rw [if_pos hnil] at hrs
      obtain ⟨s', q1, q2, q3⟩ := sim_flush (pick := pick) hp h hm hmust he hcur hW hst (by
        rw [hrs]; simp [hmust])
      exact ⟨_, s', .flush, q1, q2, q3, fun h => absurd rfl h⟩
    · left
      rw [if_neg hnil] at hrs
      rw [endRead_quiet (s := { s with file := ⟨noPad bs, false⟩ }) (cur := curc) h.good hmust rfl hc] at hrs
      simp only [Bool.false_eq_true, if_false, hnb3] at hrs
      have hplus := OPlus.one hd (hstep.trans hrs)
      refine ⟨_, hplus, rfl, ?_⟩
      have hb' : Body cap ck tail known F (noPad bs) := by
        rcases hb.shape ht with ⟨h1, h2⟩ | ⟨total, new, r, h1, h2, h3, h4⟩ |
          ⟨tid, np, cs, body, ms, F', r, h1, h2, h3, h4, h5, h6, h7, h8⟩
        · rw [h1, h2]; exact .nil
        · rw [h1]; exact .dict h2 h3 h4
        · rw [h1, h2]; exact .ext h3 h4 h5 h6 h7 h8
      exact .fill (known := known) (Wc := Wc) (curc := curc) (bs := noPad bs)
        ⟨h.good, h.ckEq, h.dict, h.W, h.pool, h.nb, (hplus.ok hp h.ok).1⟩ rfl hmust rfl hb' hcur hW hst
  · obtain ⟨hpad, hbne⟩ := hpad
    have hshape := hb.shape ht
    rw [hpad] at hshape
    rcases hshape with ⟨h1, h2⟩ | ⟨total, new, r, h1, h2, h3, h4⟩ |
          ⟨tid, np, cs, body, ms, F', r, h1, h2, h3, h4, h5, h6, h7, h8⟩
    · -- the tail
      subst h1 h2
      right; right
      exact ⟨hbne, rfl, hf⟩
    · -- dictionary
      left
      obtain ⟨b, l, e1, e2⟩ := dictBytes_head total new
      have hpk : s.file.peek = (.dict, s.file) := by
        rw [hf, h1, e1]; simp [FileSt.peek, e2]
      obtain ⟨d', hd1, hd2⟩ := readDictionaryFragment_ok h2 total h3 s.dict h.dict r
      have hrs : s.readStep cap = OSt.endRead { s with file := ⟨r, false⟩, good := true, dict := d' } false := by
        unfold OSt.readStep
        rw [hpk]
        simp only
        rw [hf, h1, hd1]
      rw [endRead_quiet (s := { s with file := ⟨r, false⟩, good := true, dict := d' }) (cur := curc) rfl hmust rfl hc] at hrs
      simp only [Bool.false_eq_true, if_false, hnb3] at hrs
      have hplus := OPlus.one hd (hstep.trans hrs)
      refine ⟨_, hplus, rfl, ?_⟩
      exact .fill (known := known ++ new) (Wc := Wc) (curc := curc) (bs := r)
        ⟨rfl, h.ckEq, hd2, h.W.imp fun _ _ h => h.imp fun _ _ h => h.mono, h.pool, h.nb,
          (hplus.ok hp h.ok).1⟩ rfl hmust rfl h4 (hcur.imp fun _ _ h => h.mono) hW hst
    · -- extent
      right; left
      subst h2
      obtain ⟨b, l, e1, e2⟩ := extentBytes_head tid np body h5
      have hpk : s.file.peek = (.extent, s.file) := by
        rw [hf, h1, e1]; simp [FileSt.peek, e2]
      obtain ⟨a1, a2, a3⟩ := allocFrag_facts (cap := cap) h.pool
      obtain ⟨bf', r1, r2, r3, r4⟩ := readBufferExtent_at (allocFrag cap s.pool).1 h3 np r false h5
        (by rw [a1]; exact h6) (by omega)
      have hrs : s.readStep cap = OSt.endRead { s with
          file := ⟨r, false⟩, good := true, pool := (allocFrag cap s.pool).2
          stages := s.stages.set s.nb (curc ++ [bf']) } np := by
        unfold OSt.readStep
        rw [hpk]
        simp only
        rw [hf, h1, r1]
        simp only [hc, if_true]
      have hset : s.stages.set s.nb (curc ++ [bf']) =
          Wc ++ (curc ++ [bf']) :: List.replicate (2 - W.length) [] := by
        rw [hst, hnb, ← hl, List.set_append_right _ _ (by omega)]; simp
      rw [endRead_quiet (s := { s with
          file := ⟨r, false⟩, good := true, pool := (allocFrag cap s.pool).2
          stages := s.stages.set s.nb (curc ++ [bf']) }) (cur := curc ++ [bf']) rfl hmust rfl (by
        simp only
        rw [hset, hnb, ← hl]; simp)] at hrs
      have hplus := OPlus.one hd (hstep.trans hrs)
      have hfr : FR cap known ck bf' ⟨bf'.ts, ms⟩ := ⟨⟨cs, r2, r3 ▸ h4⟩, rfl, r4.trans a1⟩
      have hok : AF.OK ⟨bf'.ts, ms⟩ := SimC.fragsOK hfr
      have hempty : ms = [] → bf'.ts ≤ T := by
        rintro rfl
        cases h4
        have := readBufferExtent_ts r1 r2
        rw [this]; exact a2
      refine ⟨_, _, .read ⟨bf'.ts, ms⟩ hW rfl hok hempty, hplus, rfl, ?_, fun _ => ?_⟩
      swap
      · split
        · simp only; split <;> simp
        · simp
      have hpool : ∀ bf ∈ (allocFrag cap s.pool).2, bf.stor.length = cap ∧ bf.ts ≤ T := a3
      have hcur' : List.Forall₂ (FR cap known ck) (curc ++ [bf']) (cur ++ [⟨bf'.ts, ms⟩]) :=
        Forall₂.app hcur (.cons hfr .nil)
      have hok' := (hplus.ok hp h.ok).1
      cases np with
      | false =>
        simp only [Bool.false_eq_true, if_false]
        refine .fill (known := known) (Wc := Wc) (curc := curc ++ [bf']) (bs := r)
          ⟨rfl, h.ckEq, h.dict, h.W, hpool, h.nb, hok'⟩ ?_ hmust rfl h8 hcur' hW hset
        simp only [Bool.false_eq_true, if_false, hnb3]
      | true =>
        simp only [if_true]
        by_cases h3' : W.length + 1 = 3
        · rw [if_pos h3']
          refine .one (known := known) (Wc := Wc ++ [curc ++ [bf']]) (bs := r)
            ⟨rfl, h.ckEq, h.dict, Forall₂.app h.W (.cons hcur' .nil), hpool, ?_, hok'⟩ ?_ hmust rfl h8 (by simp; omega) ?_
          · simp [hnb]
          · simp [hnb, h3']
          · simp only
            rw [hset, show 2 - W.length = 0 by omega]; simp
        · rw [if_neg h3']
          refine .fill (known := known) (Wc := Wc ++ [curc ++ [bf']]) (curc := []) (bs := r)
            ⟨rfl, h.ckEq, h.dict, Forall₂.app h.W (.cons hcur' .nil), hpool, ?_, hok'⟩ ?_ hmust rfl h8 .nil
            (by simp; omega) ?_
          · simp [hnb]
          · simp [hnb]; omega
          · simp only
            rw [hset]
            simp only [List.length_append, List.length_singleton, List.append_assoc, List.singleton_append]
            rw [show 2 - W.length = (2 - (W.length + 1)) + 1 by omega, List.replicate_succ]

/-- A step while filling. -/
theorem sim_fill {cap : Nat} {pick : Nat → List BufFrag → Nat} (hp : Picks pick) {ck : Checkpoint}
    {tail : List Byte} (ht : TailOK tail) {s : OSt} {W : List (List AF)} {cur : List AF} {F : Exts} {T : Nat}
    (hs : Sim cap ck tail s ⟨W, cur, F, T, .fill⟩) :
    (∃ s', OPlus cap pick s s' ∧ s'.out = s.out ∧ Sim cap ck tail s' ⟨W, cur, F, T, .fill⟩) ∨
    (∃ a' s', AStep ⟨W, cur, F, T, .fill⟩ none a' ∧ OPlus cap pick s s' ∧ s'.out = s.out ∧
      Sim cap ck tail s' a') ∨
    (tail ≠ [] ∧ F = [] ∧ s.stages[0]? = some [] ∧ s.file = ⟨tail, false⟩) := by
  rcases sim_fill_core (pick := pick) hp ht.noPad hs with h | ⟨a', s', h1, h2, h3, h4, -⟩ | ⟨hbne, rfl, hft⟩
  · exact .inl h
  · exact .inr (.inl ⟨a', s', h1, h2, h3, h4⟩)
  -- next execution
  cases hs with
  | @fill _ _ _ _ known Wc curc bs h hm hmust hf hb hcur hW hst =>
  have he : s.file.eof = false := by rw [hf]
  right
  have hpk : s.file.peek = (.checkpoint, s.file) := by
    rw [hft]
    cases tail with
    | nil => exact absurd rfl hbne
    | cons b bs => simp only [FileSt.peek, ht b rfl]
  have h3 : s.stages.length = 3 := h.ok.three
  cases h0 : s.stages[0]? with
  | none => rw [List.getElem?_eq_none_iff] at h0; omega
  | some st =>
    cases st with
    | nil => right; exact ⟨hbne, rfl, rfl, hft⟩
    | cons b0 st =>
      left
      obtain ⟨s', q1, q2, q3⟩ := sim_flush (pick := pick) hp h hm hmust he hcur hW hst (by
        unfold OSt.readStep
        rw [hpk]
        simp only [h0]
        rw [hft]
        simp [hbne])
      exact ⟨_, s', .flush, q1, q2, q3⟩

/-! ## Printing -/

theorem MinAt.abs {cap : Nat} {known : List Site} {ck : Checkpoint} {Wc : List (List BufFrag)}
    {W : List (List AF)} (hW : List.Forall₂ (List.Forall₂ (FR cap known ck)) Wc W) {i k : Nat} {bf : BufFrag}
    (h : MinAt Wc i k bf) : ∃ a, AMin W i k a ∧ FR cap known ck bf a := by
  obtain ⟨⟨st, h1, h2⟩, h3⟩ := h
  obtain ⟨sa, g1, g2⟩ := Forall₂.get hW h1
  obtain ⟨a, g3, g4⟩ := Forall₂.get g2 h2
  refine ⟨a, ⟨⟨sa, g1, g3⟩, ?_⟩, g4⟩
  intro j sj b hj hb
  obtain ⟨sc, q1, q2⟩ := Forall₂.get' hW hj
  obtain ⟨n, hn⟩ := List.getElem?_of_mem hb
  obtain ⟨bc, q3, q4⟩ := Forall₂.get' q2 hn
  have := h3 j sc bc q1 (List.mem_of_getElem? q3)
  rw [← g4.ts, ← q4.ts]
  exact this

/-- Printing one message of a fragment. -/
theorem FR.next {cap : Nat} {known : List Site} {ck : Checkpoint} {d : Dict} (hd : Describes d known)
    {bf : BufFrag} {a : AF} (h : FR cap known ck bf a) :
    ∃ bf', decompressNext ck d bf = some (a.ms.head?, bf') ∧ bf'.stor.length = cap ∧
      (match a.next with
       | some a' => bf'.hasMore = true ∧ FR cap known ck bf' a'
       | none => bf'.hasMore = false ∧ bf'.ts = a.ts) := by
  obtain ⟨⟨cs, h1, h2⟩, h3, h4⟩ := h
  obtain ⟨ts, ms⟩ := a
  simp only at h2 h3
  cases h2 with
  | nil =>
    have hm : bf.hasMore = false := h1
    refine ⟨{ bf with hasMore := false }, by simp [decompressNext, hm], h4, ?_⟩
    simp [AF.next, h3]
  | @cons c m cs ms hp hrest =>
    obtain ⟨bf', g1, g2, g3, g4⟩ := decompressNext_at hd h1 hp
    refine ⟨bf', g1, g4.trans h4, ?_⟩
    cases hrest with
    | nil =>
      have hm : bf'.hasMore = false := g2
      simp only [AF.next]
      exact ⟨hm, (decompressNext_ts g1 hm).trans h3⟩
    | @cons c2 m2 cs2 ms2 hp2 hr2 =>
      simp only [AF.next]
      refine ⟨g2.1, ⟨c2 :: cs2, g2, ?_⟩, ?_, g4.trans h4⟩
      · rw [g3]; exact .cons hp2 hr2
      · rw [g2.2.2.1]
        cases hp2 with | mk ok sup pr => rfl

/-- The common part of a step while depleting. -/
theorem sim_pop {cap : Nat} {pick : Nat → List BufFrag → Nat} (hp : Picks pick) {ck : Checkpoint}
    {tail : List Byte} {s : OSt} {known : List Site} {a : ASt} {Wc : List (List BufFrag)}
    (h : SimC cap ck tail s known a Wc) (hm : s.mode = .deplete) {p : Nat}
    (hst : s.stages = Wc ++ List.replicate p []) :
    (∀ st ∈ a.W, st = []) ∧ s.step cap pick = some { s with nb := 0, mode := .outer } ∨
    ∃ i k af Wc' pool', AMin a.W i k af ∧
      List.Forall₂ (List.Forall₂ (FR cap known ck)) Wc' (popped a.W i k af) ∧
      (∀ bf ∈ pool', bf.stor.length = cap ∧ bf.ts ≤ freed a.T af) ∧
      ((∀ st, (popped a.W i k af)[0]? = some st → st ≠ []) ∧
        s.step cap pick = some { s with
          out := s.out ++ af.ms.head?.toList, stages := Wc' ++ List.replicate p [], pool := pool', tick := s.tick + 1 } ∨
       (popped a.W i k af)[0]? = some [] ∧
        s.step cap pick = some { s with
          out := s.out ++ af.ms.head?.toList, stages := Wc'.tail ++ List.replicate (p + 1) []
          nb := s.nb - 1, mode := if s.must then .deplete else .outer
          pool := pool', tick := s.tick + 1 }) := by
  have hl : Wc.length = a.W.length := h.W.length_eq
  have hnb : s.nb = Wc.length := h.nb.trans hl.symm
  have hstep : s.step cap pick = s.depleteStep pick := by unfold OSt.step; rw [hm]
  have htake : s.stages.take s.nb = Wc := by rw [hst, hnb, List.take_left']; rfl
  rw [hstep]
  unfold OSt.depleteStep
  rw [htake]
  cases hms : minStage (pick s.tick) 0 Wc none with
  | none =>
    left
    have hall := minStage_none hp hms
    refine ⟨?_, rfl⟩
    intro st hst'
    obtain ⟨n, hn⟩ := List.getElem?_of_mem hst'
    obtain ⟨sc, q1, q2⟩ := Forall₂.get' h.W hn
    rw [hall sc (List.mem_of_getElem? q1)] at q2
    cases q2; rfl
  | some q =>
    obtain ⟨i, k, bf⟩ := q
    right
    have hmin := minStage_some hp hms
    obtain ⟨af, hA, hfr⟩ := MinAt.abs h.W hmin
    obtain ⟨bf', d1, d2, d3⟩ := hfr.next h.dict
    obtain ⟨⟨st, m1, m2⟩, -⟩ := hmin
    have hi : i < Wc.length := by
      by_contra hc; rw [List.getElem?_eq_none (by omega)] at m1; cases m1
    have hsi : s.stages[i]? = some st := by rw [hst, List.getElem?_append_left hi]; exact m1
    obtain ⟨sa, g1, g2⟩ := Forall₂.get h.W m1
    let st' := if bf'.hasMore then st.set k bf' else st.eraseIdx k
    let pool' := if bf'.hasMore then s.pool else s.pool ++ [bf'.reset]
    have hW' : List.Forall₂ (List.Forall₂ (FR cap known ck)) (Wc.set i st') (popped a.W i k af) := by
      unfold popped
      rw [List.modify_eq_set_getElem?, g1]
      simp only [Option.map_eq_map, Option.map_some, Option.getD_some]
      refine Forall₂.set h.W i ?_
      cases hn : af.next with
      | some a' =>
        rw [hn] at d3
        simp only [st', d3.1, if_true]
        exact Forall₂.set g2 k d3.2
      | none =>
        rw [hn] at d3
        simp only [st', d3.1, Bool.false_eq_true, if_false]
        exact Forall₂.eraseIdx g2 k
    have hpool : ∀ bf ∈ pool', bf.stor.length = cap ∧ bf.ts ≤ freed a.T af := by
      intro b hb
      have hle : a.T ≤ freed a.T af := by unfold freed; split <;> omega
      have hold : b ∈ s.pool → b.stor.length = cap ∧ b.ts ≤ freed a.T af := fun hb =>
        ⟨(h.pool b hb).1, by have := (h.pool b hb).2; omega⟩
      cases hn : af.next with
      | some a' =>
        rw [hn] at d3
        simp only [pool', d3.1, if_true] at hb
        exact hold hb
      | none =>
        rw [hn] at d3
        simp only [pool', d3.1, Bool.false_eq_true, if_false, List.mem_append, List.mem_singleton] at hb
        rcases hb with hb | rfl
        · exact hold hb
        · refine ⟨d2, ?_⟩
          have : bf'.reset.ts = bf'.ts := rfl
          rw [this, d3.2]
          simp [freed, hn]; omega
    refine ⟨i, k, af, Wc.set i st', pool', hA, hW', hpool, ?_⟩
    have hset : s.stages.set i st' = Wc.set i st' ++ List.replicate p [] := by
      rw [hst, List.set_append_left _ _ hi]
    have hlen : 0 < (Wc.set i st').length := by simp; omega
    simp only [h.ckEq, d1, hsi]
    change _ ∨ _
    have h0 : (s.stages.set i st')[0]? = (Wc.set i st')[0]? := by
      rw [hset, List.getElem?_append_left hlen]
    rw [show (s.stages.set i (if bf'.hasMore = true then st.set k bf' else st.eraseIdx k)) = s.stages.set i st' from rfl]
    rw [h0]
    cases hz : (Wc.set i st')[0]? with
    | none => rw [List.getElem?_eq_none_iff] at hz; omega
    | some z =>
      obtain ⟨za, y1, y2⟩ := Forall₂.get hW' hz
      cases z with
      | cons b z =>
        left
        refine ⟨?_, ?_⟩
        · intro st0 hst0
          rw [y1] at hst0; cases hst0
          cases y2; simp
        · simp only [hset]; rfl
      | nil =>
        right
        cases y2
        refine ⟨y1, ?_⟩
        have hsh : shiftStages s.nb (s.stages.set i st') =
            (Wc.set i st').tail ++ List.replicate (p + 1) [] := by
          unfold shiftStages
          rw [hset, List.take_left' (by simp [hnb]), List.drop_left' (by simp [hnb]), List.drop_one,
            List.replicate_succ]
        simp only [hsh]; rfl

/-- A step while depleting the first stage. -/
theorem sim_one {cap : Nat} {pick : Nat → List BufFrag → Nat} (hp : Picks pick) {ck : Checkpoint}
    {tail : List Byte} {s : OSt} {W : List (List AF)} {F : Exts} {T : Nat}
    (hs : Sim cap ck tail s ⟨W, [], F, T, .one⟩) :
    ∃ m a' s', AStep ⟨W, [], F, T, .one⟩ m a' ∧ OPlus cap pick s s' ∧ s'.out = s.out ++ m.toList ∧
      Sim cap ck tail s' a' := by
  cases hs with
  | @one _ _ _ known Wc bs h hm hmust hf hb hW hst =>
  have hd : s.mode ≠ .done := by rw [hm]; simp
  have hl : Wc.length = W.length := h.W.length_eq
  have hnb : s.nb = W.length := h.nb
  -- back to reading
  have outer : ∀ s1 : OSt, s1.mode = .outer → s1.file = s.file → s1.good = s.good →
      OPlus cap pick s1 { s1 with must := false, mode := .read } := by
    intro s1 h1 h2 h3
    refine .one (by rw [h1]; simp) ?_
    unfold OSt.step
    rw [h1]
    simp [h2, hf, h3, h.good]
  rcases sim_pop (pick := pick) hp h hm (p := 0) (by simpa using hst) with ⟨q1, q2⟩ |
    ⟨i, k, af, Wc', pool', q1, q2, q3, ⟨q4, q5⟩ | ⟨q4, q5⟩⟩
  · have hplus := (OPlus.one hd q2).trans (outer _ rfl rfl rfl)
    refine ⟨none, _, _, .clear (.inl ⟨rfl, hW⟩) q1, hplus, by simp, ?_⟩
    have hemp : ∀ st ∈ Wc, st = [] := by
      intro st hst'
      obtain ⟨n, hn⟩ := List.getElem?_of_mem hst'
      obtain ⟨sa, g1, g2⟩ := Forall₂.get h.W hn
      rw [q1 sa (List.mem_of_getElem? g1)] at g2
      cases g2; rfl
    refine .fill (known := known) (Wc := []) (curc := []) (bs := bs)
      ⟨h.good, h.ckEq, h.dict, .nil, h.pool, rfl, (hplus.ok hp h.ok).1⟩ rfl rfl hf hb .nil (by simp) ?_
    simp only [hst]
    match Wc, hl.trans hW, hemp with
    | [x, y, z], _, hemp =>
      rw [hemp x (by simp), hemp y (by simp), hemp z (by simp)]; rfl
  · have hplus := OPlus.one hd q5
    refine ⟨af.ms.head?, _, _, .pop (.inl ⟨rfl, hW⟩) q1 q4, hplus, rfl, ?_⟩
    have hlp : (popped W i k af).length = 3 := by simp [popped, hW]
    exact .one (known := known) (Wc := Wc') (bs := bs)
      ⟨h.good, h.ckEq, h.dict, q2, q3, by rw [hlp]; simp only; omega, (hplus.ok hp h.ok).1⟩
      hm hmust hf hb hlp (by simp)
  · simp only [hmust, Bool.false_eq_true, if_false] at q5
    have hplus := (OPlus.one hd q5).trans (outer _ rfl rfl rfl)
    refine ⟨af.ms.head?, _, _, .shift (.inl ⟨rfl, hW⟩) q1 q4, hplus, rfl, ?_⟩
    have hlp : (popped W i k af).length = 3 := by simp [popped, hW]
    simp only [if_true]
    have q2' : List.Forall₂ (List.Forall₂ (FR cap known ck)) Wc'.tail (popped W i k af).tail := Forall₂.tail q2
    refine .fill (known := known) (Wc := Wc'.tail) (curc := []) (bs := bs)
      ⟨h.good, h.ckEq, h.dict, q2', q3, ?_, (hplus.ok hp h.ok).1⟩ rfl rfl hf hb .nil ?_ ?_
    · simp only [List.length_tail, hlp]; omega
    · simp [hlp]
    · simp [hlp]

/-- A step while depleting all stages. -/
theorem sim_all {cap : Nat} {pick : Nat → List BufFrag → Nat} (hp : Picks pick) {ck : Checkpoint}
    {tail : List Byte} {s : OSt} {W : List (List AF)} {T : Nat}
    (hs : Sim cap ck tail s ⟨W, [], [], T, .all⟩) :
    ∃ m a' s', AStep ⟨W, [], [], T, .all⟩ m a' ∧ OPlus cap pick s s' ∧ s'.out = s.out ++ m.toList ∧
      Sim cap ck tail s' a' := by
  cases hs with
  | @all _ _ known Wc h hm hmust hf hW hst =>
  have hd : s.mode ≠ .done := by rw [hm]; simp
  have hl : Wc.length = W.length := h.W.length_eq
  have hnb : s.nb = W.length := h.nb
  rcases sim_pop (pick := pick) hp h hm hst with ⟨q1, q2⟩ |
    ⟨i, k, af, Wc', pool', q1, q2, q3, ⟨q4, q5⟩ | ⟨q4, q5⟩⟩
  · have hemp : ∀ st ∈ Wc, st = [] := by
      intro st hst'
      obtain ⟨n, hn⟩ := List.getElem?_of_mem hst'
      obtain ⟨sa, g1, g2⟩ := Forall₂.get h.W hn
      rw [q1 sa (List.mem_of_getElem? g1)] at g2
      cases g2; rfl
    have hst0 : s.stages = [[], [], []] := by
      have h3 : s.stages.length = 3 := h.ok.three
      have hall : ∀ st ∈ s.stages, st = [] := by
        intro st hm'
        rw [hst] at hm'
        rcases List.mem_append.1 hm' with h | h
        · exact hemp st h
        · exact (List.mem_replicate.1 h).2
      match hh : s.stages, h3, hall with
      | [x, y, z], _, hall =>
        rw [hall x (by simp), hall y (by simp), hall z (by simp)]
    have hp1 := OPlus.one hd q2
    by_cases ht : tail = []
    · subst ht
      refine ⟨none, _, _, .clear (.inr ⟨rfl, rfl⟩) q1, hp1, by simp, ?_⟩
      simp only [reduceCtorEq, if_false]
      exact .fin (known := known) ⟨h.good, h.ckEq, h.dict, .nil, h.pool, rfl, (hp1.ok hp h.ok).1⟩
        (.inl ⟨rfl, by simpa using hf, rfl⟩) hst0
    · have hf' : s.file = ⟨tail, false⟩ := by rw [hf]; simp [ht]
      have hplus := hp1.trans (OPlus.one (cap := cap) (pick := pick)
        (s := { s with nb := 0, mode := .outer })
        (s' := { s with nb := 0, must := false, mode := .read }) (by simp)
        (by unfold OSt.step; simp [hf', h.good]))
      refine ⟨none, _, _, .clear (.inr ⟨rfl, rfl⟩) q1, hplus, by simp, ?_⟩
      simp only [reduceCtorEq, if_false]
      exact .fin (known := known) ⟨h.good, h.ckEq, h.dict, .nil, h.pool, rfl, (hplus.ok hp h.ok).1⟩
        (.inr ⟨ht, hf', rfl, rfl⟩) hst0
  · have hplus := OPlus.one hd q5
    refine ⟨af.ms.head?, _, _, .pop (.inr ⟨rfl, rfl⟩) q1 q4, hplus, rfl, ?_⟩
    have hlp : (popped W i k af).length = W.length := by simp [popped]
    exact .all (known := known) (Wc := Wc')
      ⟨h.good, h.ckEq, h.dict, q2, q3, by rw [hlp]; exact hnb, (hplus.ok hp h.ok).1⟩
      hm hmust hf (by omega) (by rw [hlp])
  · simp only [hmust, if_true] at q5
    have hplus := OPlus.one hd q5
    refine ⟨af.ms.head?, _, _, .shift (.inr ⟨rfl, rfl⟩) q1 q4, hplus, rfl, ?_⟩
    have hlp : (popped W i k af).length = W.length := by simp [popped]
    have hpos : 1 ≤ W.length := by
      rw [← hlp]
      by_contra hc; rw [List.getElem?_eq_none (by simp only at hc ⊢; omega)] at q4; cases q4
    simp only [reduceCtorEq, if_false]
    have q2' : List.Forall₂ (List.Forall₂ (FR cap known ck)) Wc'.tail (popped W i k af).tail := Forall₂.tail q2
    refine .all (known := known) (Wc := Wc'.tail)
      ⟨h.good, h.ckEq, h.dict, q2', q3, ?_, (hplus.ok hp h.ok).1⟩ rfl rfl hf ?_ ?_
    · simp only [List.length_tail, hlp]; omega
    · simp only [List.length_tail, hlp]; omega
    · simp only [List.length_tail, hlp]
      rw [show 3 - (W.length - 1) = 3 - W.length + 1 by omega]

/-! ## A whole execution -/

/-- From filling to the end of the execution.  If another execution follows in the file, the
invariant `J` is needed: else its checkpoint may be read too early. -/
theorem sim_run {cap : Nat} {pick : Nat → List BufFrag → Nat} (hp : Picks pick) {ck : Checkpoint}
    {tail : List Byte} (ht : TailOK tail) (n : Nat) {s : OSt} {a : ASt} (hn : s.phi cap ≤ n)
    (hs : Sim cap ck tail s a) (hJ : tail ≠ [] → ∃ L, a.J L) :
    ∃ o s' T, ARun a o ∧ OStar cap pick s s' ∧ s'.out = s.out ++ o ∧
      Sim cap ck tail s' ⟨[], [], [], T, .fin⟩ := by
  induction n using Nat.strongRecOn generalizing s a with
  | ind n ih =>
  -- one step and then the rest
  have go : ∀ m a' s', AStep a m a' → OPlus cap pick s s' → s'.out = s.out ++ m.toList →
      Sim cap ck tail s' a' → ∃ o s' T, ARun a o ∧ OStar cap pick s s' ∧ s'.out = s.out ++ o ∧
      Sim cap ck tail s' ⟨[], [], [], T, .fin⟩ := by
    intro m a' s' h1 h2 h3 h4
    have hlt := (h2.ok hp hs.ok).2
    obtain ⟨o, s2, T, g1, g2, g3, g4⟩ := ih (s'.phi cap) (by omega) (Nat.le_refl _) h4
      (fun htl => by
        obtain ⟨L, hL⟩ := hJ htl
        obtain ⟨L', -, -, h⟩ := hL.step h1
        exact ⟨L', h⟩)
    exact ⟨m.toList ++ o, s2, T, .step h1 g1, h2.star.trans g2, by rw [g3, h3]; simp, g4⟩
  obtain ⟨W, cur, F, T, mode⟩ := a
  cases mode with
  | fin =>
    cases hs with
    | fin h hf hst => exact ⟨[], s, T, .fin, .refl s, by simp, .fin h hf hst⟩
  | all =>
    cases hs with
    | all h hm hmust hf hW hst =>
      obtain ⟨m, a', s', h1, h2, h3, h4⟩ := sim_all (pick := pick) hp (.all h hm hmust hf hW hst)
      exact go m a' s' h1 h2 h3 h4
  | one =>
    cases hs with
    | one h hm hmust hf hb hW hst =>
      obtain ⟨m, a', s', h1, h2, h3, h4⟩ := sim_one (pick := pick) hp (.one h hm hmust hf hb hW hst)
      exact go m a' s' h1 h2 h3 h4
  | fill =>
    rcases sim_fill (pick := pick) hp ht hs with ⟨s', h1, h2, h3⟩ | ⟨a', s', h1, h2, h3, h4⟩ | ⟨h1, h2, h3, h4⟩
    · have hlt := (h1.ok hp hs.ok).2
      obtain ⟨o, s2, T, g1, g2, g3, g4⟩ := ih (s'.phi cap) (by omega) (Nat.le_refl _) h3 hJ
      exact ⟨o, s2, T, g1, h1.star.trans g2, by rw [g3, h2], g4⟩
    · exact go none a' s' h1 h2 (by rw [h3]; simp) h4
    · subst h2
      obtain ⟨L, hL⟩ := hJ h1
      cases hs with
      | @fill _ _ _ _ known Wc curc bs h hm hmust hf hb hcur hW hst =>
      have hfirst := hL.first rfl
      -- nothing is buffered
      have hWnil : W = [] ∧ cur = [] := by
        cases h.W with
        | nil =>
          refine ⟨rfl, ?_⟩
          rw [hst] at h3
          simp only [List.nil_append, List.getElem?_cons_zero, Option.some.injEq] at h3
          subst h3
          cases hcur; rfl
        | @cons x xa Wc W hx hW' =>
          exfalso
          rw [hst] at h3
          simp only [List.cons_append, List.getElem?_cons_zero, Option.some.injEq] at h3
          subst h3
          cases hx
          exact hfirst [] (by simp [ASt.groups, stMsgs]) rfl
      obtain ⟨rfl, rfl⟩ := hWnil
      cases h.W
      cases hcur
      refine ⟨[], s, T, ?_, .refl s, by simp, ?_⟩
      · have := ARun.step (m := none) (AStep.flush (W := []) (cur := []) (T := T))
          (ARun.step (m := none) (AStep.clear (W := []) (F := []) (mode := .all) (.inr ⟨rfl, rfl⟩) (by simp)) .fin)
        simpa using this
      · exact .fin (known := known) ⟨h.good, h.ckEq, h.dict, .nil, h.pool, h.nb, h.ok⟩
          (.inr ⟨h1, h4, hm, hmust⟩) (by rw [hst]; rfl)

end NanoLog
