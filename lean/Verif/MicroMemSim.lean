import Verif.MicroMemLemmas
import Verif.TermLemmas
import Verif.FileProps

/-!
# The decoder with its memory refines the decoder with a list of records
-/

namespace NanoLog

/-! ## The dictionary -/

/-- The memory holds the records of the dictionary one after the other. -/
structure DictSim (d : Dict) (q : PDict) (recs : List (List Byte)) : Prop where
  parts : List.Forall₂ (fun r m => ∀ rest, metaAt (r ++ rest) = some m) recs d.metas
  raw : ∃ tail, q.raw = recs.flatten ++ tail
  fin : q.fin = recs.flatten.length
  ptrs : q.ptrs = d.idx.map fun k => (recs.take k).flatten.length
  idx : ∀ k ∈ d.idx, k ≤ d.metas.length

theorem DictSim.empty (raw : List Byte) : DictSim Dict.empty ⟨raw, 0, []⟩ [] :=
  ⟨.nil, ⟨raw, rfl⟩, rfl, rfl, by simp [Dict.empty]⟩

theorem DictSim.fin_le {d : Dict} {q : PDict} {recs : List (List Byte)} (h : DictSim d q recs) :
    q.fin ≤ q.raw.length := by
  obtain ⟨t, ht⟩ := h.raw
  rw [h.fin, ht, List.length_append]; omega

theorem DictSim.lookup {d : Dict} {q : PDict} {recs : List (List Byte)} (h : DictSim d q recs) {id : Nat}
    {m : Meta} (hl : d.lookup id = some m) : q.lookup id = some m := by
  simp only [Dict.lookup, Option.bind_eq_bind] at hl
  cases hk : d.idx[id]? with
  | none => rw [hk] at hl; cases hl
  | some k =>
    rw [hk] at hl
    simp only [Option.bind_some] at hl
    rw [PDict.lookup, h.ptrs, List.getElem?_map, hk]
    simp only [Option.map_some]
    obtain ⟨tail, ht⟩ := h.raw
    have hkl : k < d.metas.length := (List.getElem?_eq_some_iff.1 hl).1
    have hrl := h.parts.length_eq
    have hsplit : recs = recs.take k ++ (recs[k] :: recs.drop (k + 1)) := by
      rw [← List.drop_eq_getElem_cons (by omega), List.take_append_drop]
    have : q.raw.drop (recs.take k).flatten.length = recs[k] ++ ((recs.drop (k + 1)).flatten ++ tail) := by
      rw [ht]
      have e : recs.flatten = (recs.take k).flatten ++ (recs[k] ++ (recs.drop (k + 1)).flatten) := by
        conv => lhs; rw [hsplit]
        rw [List.flatten_append, List.flatten_cons]
      rw [e, List.append_assoc, List.drop_left' rfl, List.append_assoc]
    rw [this]
    have h2 := List.forall₂_iff_get.1 h.parts |>.2 k (by omega) hkl
    simp only [List.get_eq_getElem] at h2
    rw [h2, ← hl, List.getElem?_eq_getElem hkl]

theorem flatten_snoc_length (recs : List (List Byte)) (r : List Byte) {k : Nat} (h : k ≤ recs.length) :
    ((recs ++ [r]).take k).flatten.length = (recs.take k).flatten.length := by
  rw [List.take_append_of_le_length h]

theorem DictSim.add {d : Dict} {q : PDict} {recs : List (List Byte)} (h : DictSim d q recs) {i : LogInfo}
    (hi : i.Fits) (hroom : q.fin + i.file.length + 3 * i.fmt.length + 14 ≤ q.raw.length) :
    ∃ q' recs', q.addInfo i = some q' ∧ DictSim (d.add i) q' recs' ∧ q'.raw.length = q.raw.length ∧
      q'.fin ≤ q.fin + i.file.length + 3 * i.fmt.length + 14 := by
  obtain ⟨ok, raw', p', e1, e2⟩ := microMem_ok (raw := q.raw) (p := q.fin) (line := i.line) (level := i.sev)
    (fun h0 => hi.fmtNul 0 h0 rfl) (by have := hi.fmtLen; omega) (fun h0 => hi.fileNul 0 h0 rfl)
    (by have := hi.fileLen; omega) hi.sev hi.line hroom
  have hrl := h.parts.length_eq
  obtain ⟨tail, ht⟩ := h.raw
  have htk : q.raw.take q.fin = recs.flatten := by rw [ht, h.fin, List.take_left' rfl]
  have hptr : q.ptrs ++ [q.fin] = (d.idx ++ [d.metas.length]).map fun k => (recs.take k).flatten.length := by
    rw [List.map_append, ← h.ptrs, h.fin, ← hrl, List.map_cons, List.take_length, List.map_nil]
  have hidx : ∀ k ∈ d.idx ++ [d.metas.length], k ≤ d.metas.length := by
    intro k hk
    rcases List.mem_append.1 hk with hk | hk
    · exact h.idx k hk
    · simp at hk; omega
  rw [PDict.addInfo, e1]
  simp only [Option.map_some, Dict.add]
  cases hc : createMicroCode i.fmt i.file i.line i.sev with
  | none =>
    rw [hc] at e2
    obtain ⟨-, rfl, e3, e4⟩ := e2
    refine ⟨_, recs, rfl, ⟨h.parts, ⟨raw'.drop q.fin, ?_⟩, h.fin, hptr, hidx⟩, e4, by simp only; omega⟩
    rw [← htk, ← e3, List.take_append_drop]
  | some m =>
    rw [hc] at e2
    obtain ⟨-, rec, e3, rfl, e4, e5, e6⟩ := e2
    refine ⟨_, recs ++ [rec], rfl, ⟨?_, ⟨q.raw.drop (q.fin + rec.length), ?_⟩, ?_, ?_, ?_⟩, ?_, ?_⟩
    · exact List.rel_append h.parts (.cons e6 .nil)
    · rw [e3, htk]; simp
    · simp only [List.flatten_append, List.length_append, h.fin]; simp
    · simp only
      rw [hptr]
      apply List.map_congr_left
      intro k hk
      rw [flatten_snoc_length _ _ (by rw [hrl]; exact hidx k hk)]
    · intro k hk
      have := hidx k hk
      simp; omega
    · rw [e3]; simp; omega
    · simp only; omega

/-! ## Reading a fragment -/

theorem takeCStr_some {l s r : List Byte} (h : takeCStr l = some (s, r)) :
    (∀ b ∈ s, b ≠ 0) ∧ s.length + 1 ≤ l.length := by
  induction l generalizing s r with
  | nil => simp [takeCStr] at h
  | cons b l ih =>
    rw [takeCStr] at h
    split at h
    · simp only [Option.some.injEq, Prod.mk.injEq] at h
      obtain ⟨rfl, -⟩ := h
      simp
    · next hb =>
      cases ht : takeCStr l with
      | none => rw [ht] at h; simp at h
      | some p =>
        rw [ht] at h
        simp only [Option.map_some, Option.some.injEq, Prod.mk.injEq] at h
        obtain ⟨rfl, -⟩ := h
        obtain ⟨i1, i2⟩ := ih (s := p.1) (r := p.2) ht
        refine ⟨?_, by simp; omega⟩
        intro x hx
        rcases List.mem_cons.1 hx with rfl | hx
        · exact hb
        · exact i1 x hx

theorem read_split (n : Nat) (f : FileSt) :
    (f.read n).1.length + (f.read n).2.inp.length = f.inp.length ∧ (f.read n).1.length ≤ n := by
  unfold FileSt.read
  split
  · simp; omega
  · simp; omega

theorem readLogInfo_fits {f f' : FileSt} {i : LogInfo} {n : Nat} (h : readLogInfo f = some (some (i, n), f')) :
    i.Fits ∧ i.file.length + i.fmt.length + 11 ≤ n ∧ f'.inp.length + n = f.inp.length := by
  unfold readLogInfo at h
  have r1 := read_split 9 f
  generalize f.read 9 = x at h r1
  obtain ⟨cli, f1⟩ := x
  simp only at h r1
  split at h
  · simp at h
  next h9 =>
    have h9' : cli.length = 9 := by omega
    have u1 := unle_lt ((cli.drop 5).take 2)
    have u2 := unle_lt (cli.drop 7)
    have u3 := unle_lt (cli.take 1)
    have u4 := unle_lt ((cli.drop 1).take 4)
    rw [show ((cli.drop 5).take 2).length = 2 by simp; omega] at u1
    rw [show (cli.drop 7).length = 2 by simp; omega] at u2
    rw [show (cli.take 1).length = 1 by simp; omega] at u3
    rw [show ((cli.drop 1).take 4).length = 4 by simp; omega] at u4
    generalize unle ((cli.drop 5).take 2) = fl at h u1
    generalize unle (cli.drop 7) = ml at h u2
    have r2 := read_split fl f1
    generalize f1.read fl = y at h r2
    obtain ⟨fileB, f2⟩ := y
    simp only at h r2
    have r3 := read_split ml f2
    generalize f2.read ml = z at h r3
    obtain ⟨fmtB, f3⟩ := z
    simp only at h r3
    split at h
    · simp at h
    next hne =>
      split at h
      next file _ fmt _ t1 t2 =>
        simp only [Option.some.injEq, Prod.mk.injEq] at h
        obtain ⟨⟨rfl, rfl⟩, rfl⟩ := h
        obtain ⟨a1, a2⟩ := takeCStr_some t1
        obtain ⟨b1, b2⟩ := takeCStr_some t2
        refine ⟨⟨by simp only; omega, by simp only; omega, a1, b1, by simp only; omega, by simp only; omega⟩,
          by simp only; omega, by omega⟩
      · simp at h

theorem readLogInfo_le {f f' : FileSt} {o : Option (LogInfo × Nat)} (hr : readLogInfo f = some (o, f')) :
    f'.inp.length ≤ f.inp.length := by
  unfold readLogInfo at hr
  have r1 := read_split 9 f
  generalize f.read 9 = x at hr r1
  obtain ⟨cli, g1⟩ := x
  simp only at hr r1
  split at hr
  · simp only [Option.some.injEq, Prod.mk.injEq] at hr
    rw [← hr.2]; omega
  · have r2 := read_split (unle ((cli.drop 5).take 2)) g1
    generalize g1.read (unle ((cli.drop 5).take 2)) = y at hr r2
    obtain ⟨fileB, g2⟩ := y
    simp only at hr r2
    have r3 := read_split (unle (cli.drop 7)) g2
    generalize g2.read (unle (cli.drop 7)) = z at hr r3
    obtain ⟨fmtB, g3⟩ := z
    simp only at hr r3
    split at hr
    · simp only [Option.some.injEq, Prod.mk.injEq] at hr
      rw [← hr.2]; omega
    · split at hr
      · simp only [Option.some.injEq, Prod.mk.injEq] at hr
        rw [← hr.2]; omega
      · cases hr

theorem readDictLoop_le (fuel : Nat) : ∀ {done total : Nat} {d d' : Dict} {f f' : FileSt} {ok : Bool},
    readDictLoop fuel done total d f = some (ok, d', f') → f'.inp.length ≤ f.inp.length := by
  induction fuel with
  | zero =>
    intro done total d d' f f' ok h
    simp only [readDictLoop, Option.some.injEq, Prod.mk.injEq] at h
    rw [h.2.2]; exact Nat.le_refl _
  | succ fuel ih =>
    intro done total d d' f f' ok h
    rw [readDictLoop] at h
    split at h
    · split at h
      · cases h
      next f1 hr =>
        simp only [Option.some.injEq, Prod.mk.injEq] at h
        rw [← h.2.2]; exact readLogInfo_le hr
      next i n f1 hr => exact Nat.le_trans (ih h) (readLogInfo_le hr)
    · simp only [Option.some.injEq, Prod.mk.injEq] at h
      rw [h.2.2]; exact Nat.le_refl _

theorem readDictLoopM_sim (fuel : Nat) : ∀ {done total : Nat} {d d' : Dict} {f f' : FileSt} {ok : Bool}
    {q : PDict} {recs : List (List Byte)}, readDictLoop fuel done total d f = some (ok, d', f') →
    DictSim d q recs → q.fin + 3 * (f.inp.length - f'.inp.length) ≤ q.raw.length →
    f'.inp.length ≤ f.inp.length ∧
    ∃ q' recs', readDictLoopM fuel done total q f = some (ok, q', f') ∧ DictSim d' q' recs' ∧
      q'.raw.length = q.raw.length ∧ q'.fin ≤ q.fin + 3 * (f.inp.length - f'.inp.length) := by
  induction fuel with
  | zero =>
    intro done total d d' f f' ok q recs h hs _
    simp only [readDictLoop, Option.some.injEq, Prod.mk.injEq] at h
    obtain ⟨rfl, rfl, rfl⟩ := h
    exact ⟨Nat.le_refl _, q, recs, rfl, hs, rfl, by omega⟩
  | succ fuel ih =>
    intro done total d d' f f' ok q recs h hs hroom
    rw [readDictLoop] at h
    rw [readDictLoopM]
    split at h
    next hc =>
      rw [if_pos hc]
      cases hr : readLogInfo f with
      | none => rw [hr] at h; cases h
      | some x =>
        obtain ⟨o, f1⟩ := x
        rw [hr] at h
        cases o with
        | none =>
          simp only [Option.some.injEq, Prod.mk.injEq] at h
          obtain ⟨rfl, rfl, rfl⟩ := h
          have hle := readLogInfo_le hr
          exact ⟨hle, q, recs, rfl, hs, rfl, by omega⟩
        | some p =>
          obtain ⟨i, n⟩ := p
          simp only at h ⊢
          obtain ⟨hfit, hn, hlen⟩ := readLogInfo_fits hr
          have hle := readDictLoop_le _ h
          obtain ⟨q1, recs1, a1, a2, a3, a4⟩ := hs.add hfit (by omega)
          rw [a1]
          simp only
          obtain ⟨-, q2, recs2, b1, b2, b3, b4⟩ := ih h a2 (by omega)
          exact ⟨by omega, q2, recs2, b1, b2, by omega, by omega⟩
    next hc =>
      rw [if_neg hc]
      simp only [Option.some.injEq, Prod.mk.injEq] at h
      obtain ⟨rfl, rfl, rfl⟩ := h
      exact ⟨Nat.le_refl _, q, recs, rfl, hs, rfl, by omega⟩

theorem readDictionaryFragmentM_sim {d d' : Dict} {f f' : FileSt} {ok : Bool} {q : PDict}
    {recs : List (List Byte)} (h : readDictionaryFragment d f = some (ok, d', f')) (hs : DictSim d q recs)
    (hroom : q.fin + 3 * (f.inp.length - f'.inp.length) ≤ q.raw.length) :
    f'.inp.length ≤ f.inp.length ∧
    ∃ q' recs', readDictionaryFragmentM q f = some (ok, q', f') ∧ DictSim d' q' recs' ∧
      q'.raw.length = q.raw.length ∧ q'.fin ≤ q.fin + 3 * (f.inp.length - f'.inp.length) := by
  unfold readDictionaryFragment at h
  unfold readDictionaryFragmentM
  have r1 := read_split 8 f
  generalize f.read 8 = x at h r1
  obtain ⟨hdr, f1⟩ := x
  simp only at h r1 ⊢
  split at h
  next hc =>
    rw [if_pos hc]
    simp only [Option.some.injEq, Prod.mk.injEq] at h
    obtain ⟨rfl, rfl, rfl⟩ := h
    exact ⟨by omega, q, recs, rfl, hs, rfl, by omega⟩
  next hc =>
    rw [if_neg hc]
    have := readDictLoop_le _ h
    obtain ⟨-, q', recs', a1, a2, a3, a4⟩ := readDictLoopM_sim _ h hs (by omega)
    exact ⟨by omega, q', recs', a1, a2, a3, by omega⟩

/-! ## Checkpoints and messages -/

theorem readDictP_sim {ck ck' : Checkpoint} {d d' : Dict} {f f' : FileSt} {ok : Bool} {q : PDict}
    (h : readDictionary ck d f = some (ok, ck', d', f')) (hfin : q.fin ≤ q.raw.length) :
    f'.inp.length ≤ f.inp.length ∧
    ((∃ q', readDictP ck q f = some (ok, ck', q', f') ∧ DictSim d' q' [] ∧ q'.raw.length = q.raw.length ∧
      q'.fin = 0) ∨ (ok = false ∧ d' = d ∧ readDictP ck q f = some (ok, ck', q, f'))) := by
  unfold readDictionary at h
  unfold readDictP
  have r1 := read_split 40 f
  generalize f.read 40 = x at h r1
  obtain ⟨bs, f1⟩ := x
  simp only at h r1 ⊢
  split at h
  next hc =>
    rw [if_pos hc]
    simp only [Option.some.injEq, Prod.mk.injEq] at h
    obtain ⟨rfl, rfl, rfl, rfl⟩ := h
    exact ⟨by omega, .inr ⟨rfl, rfl, rfl⟩⟩
  next hc =>
    rw [if_neg hc]
    split at h
    next b c hb hp =>
      rw [hb, hp]
      simp only
      split at h
      · cases h
      next ht =>
        rw [if_neg ht]
        split at h
        · cases h
        next hn =>
          have hn0 : c.newBytes = 0 := by omega
          have e0 : f1.read c.newBytes = ([], f1) := by rw [hn0]; simp [FileSt.read]
          rw [e0]
          simp only
          rw [if_neg (by simp; omega), if_neg (by simp [hn0])]
          have e1 : indexLoop (pokeAt q.fin [] q.raw) ([] : List Byte).length (([] : List Byte).length + 1) 0 []
              = some (0, []) := by simp [indexLoop]
          rw [e1]
          simp only
          have hl : (pokeAt q.fin [] q.raw).length = q.raw.length := by simp [pokeAt]
          split at h
          next htot =>
            simp only [Option.some.injEq, Prod.mk.injEq] at h
            obtain ⟨rfl, rfl, rfl, rfl⟩ := h
            refine ⟨by omega, .inl ⟨_, ?_, DictSim.empty _, hl, rfl⟩⟩
            have : decide (0 = ([] : List Byte).length ∧ ([] : List Nat).length = c.total) = false := by
              simp; omega
            rw [this]; rfl
          next htot =>
            simp only [Option.some.injEq, Prod.mk.injEq] at h
            obtain ⟨rfl, rfl, rfl, rfl⟩ := h
            refine ⟨by omega, .inl ⟨_, ?_, DictSim.empty _, hl, rfl⟩⟩
            have : decide (0 = ([] : List Byte).length ∧ ([] : List Nat).length = c.total) = true := by
              simp; omega
            rw [this]; rfl
    · cases h

theorem decompressNextP_sim {ck : Checkpoint} {d : Dict} {q : PDict} {recs : List (List Byte)}
    (hs : DictSim d q recs) {bf : BufFrag} {r : Option OutMsg × BufFrag}
    (h : decompressNext ck d bf = some r) : decompressNextP ck q bf = some r := by
  unfold decompressNext at h
  unfold decompressNextP
  split at h
  next hc => rw [if_pos hc]; exact h
  next hc =>
    rw [if_neg hc]
    split at h
    · cases h
    next m hm =>
      rw [hs.lookup hm]
      simp only
      split at h
      · cases h
      next parts mem' ha =>
        rw [ha]
        simp only at h ⊢
        unfold nextHeader
        simp only
        split at h
        next h0 => rw [if_pos h0]; exact h
        next h0 =>
          rw [if_neg h0]
          split at h
          · cases h
          next hd => rw [hd]; exact h
          next hd => rw [hd]; exact h

theorem drainP_sim {ck : Checkpoint} {d : Dict} {q : PDict} {recs : List (List Byte)} (hs : DictSim d q recs)
    (fuel : Nat) : ∀ {bf : BufFrag} {out : List OutMsg} {r : BufFrag × List OutMsg},
    drain ck d fuel bf out = some r → drainP ck q fuel bf out = some r := by
  induction fuel with
  | zero => intro bf out r h; exact h
  | succ fuel ih =>
    intro bf out r h
    rw [drain] at h
    rw [drainP]
    split at h
    next hc =>
      rw [if_pos hc]
      split at h
      · cases h
      next m bf' hd =>
        rw [decompressNextP_sim hs hd]
        exact ih h
    next hc => rw [if_neg hc]; exact h

/-! ## The loop -/

/-- The largest number of bytes of dictionary fragments between two checkpoints that the loop of
`internalDecompressUnordered`, runtime/Log.cc:1733-1774, reads, `cur` bytes of them already. -/
def dictPeak : Nat → Nat → Dec → Nat
  | 0, cur, _ => cur
  | fuel + 1, cur, s =>
    if s.file.eof = false ∧ s.good = true then
      match unorderedStep s with
      | none => cur
      | some s' =>
        match s.file.peek.1 with
        | .dict => dictPeak fuel (cur + (s.file.inp.length - s'.file.inp.length)) s'
        | .checkpoint => max cur (dictPeak fuel 0 s')
        | _ => dictPeak fuel cur s'
    else cur

theorem le_dictPeak (fuel : Nat) : ∀ (cur : Nat) (s : Dec), cur ≤ dictPeak fuel cur s := by
  induction fuel with
  | zero => intro cur s; exact Nat.le_refl _
  | succ fuel ih =>
    intro cur s
    rw [dictPeak]
    split
    · split
      · exact Nat.le_refl _
      · split
        · exact Nat.le_trans (Nat.le_add_right _ _) (ih _ _)
        · exact Nat.le_max_left _ _
        · exact ih _ _
    · exact Nat.le_refl _

/-- The two decoders. -/
structure DecSim (s : Dec) (t : PDec) (recs : List (List Byte)) : Prop where
  file : t.file = s.file
  good : t.good = s.good
  ck : t.ck = s.ck
  bf : t.bf = s.bf
  out : t.out = s.out
  dict : DictSim s.dict t.dict recs

theorem peek_len (f : FileSt) : f.peek.2.inp.length = f.inp.length := by
  unfold FileSt.peek; split <;> simp_all

theorem loopM_sim (fuel : Nat) : ∀ {cur : Nat} {s s' : Dec} {t : PDec} {recs : List (List Byte)},
    unorderedLoop fuel s = some s' → DecSim s t recs → t.dict.fin ≤ 3 * cur →
    3 * dictPeak fuel cur s ≤ t.dict.raw.length →
    ∃ t' recs', loopM fuel t = some t' ∧ DecSim s' t' recs' := by
  induction fuel with
  | zero =>
    intro cur s s' t recs h hs _ _
    simp only [unorderedLoop, Option.some.injEq] at h
    exact ⟨t, recs, rfl, h ▸ hs⟩
  | succ fuel ih =>
    intro cur s s' t recs h hs hcur hpk
    obtain ⟨tf, tg, tc, q, tb, tout⟩ := t
    obtain ⟨e1, e2, e3, e4, e5, hs⟩ := hs
    simp only at e1 e2 e3 e4 e5 hs hcur hpk
    subst e1 e2 e3 e4 e5
    rw [unorderedLoop] at h
    rw [dictPeak] at hpk
    rw [loopM]
    simp only
    split at h
    next hc =>
      rw [if_pos hc] at hpk ⊢
      split at h
      · cases h
      next s1 h1 =>
        rw [h1] at hpk
        simp only at hpk
        have hpl := peek_len s.file
        unfold unorderedStep at h1
        unfold stepM stepP
        simp only
        generalize s.file.peek = x at h1 hpk hpl
        obtain ⟨e, f⟩ := x
        cases e with
        | extent =>
          simp only at h1 hpk ⊢
          split at h1
          · cases h1
          next bf f1 hr =>
            rw [hr]
            simp only at h1 ⊢
            refine ih (cur := cur) (recs := recs) h ?_ hcur hpk
            rw [← Option.some.inj h1]
            exact ⟨rfl, rfl, rfl, rfl, rfl, hs⟩
          next bf f1 hr =>
            rw [hr]
            simp only at h1 ⊢
            split at h1
            · cases h1
            next bf' out hd =>
              rw [drainP_sim hs _ hd]
              simp only
              refine ih (cur := cur) (recs := recs) h ?_ hcur hpk
              rw [← Option.some.inj h1]
              exact ⟨rfl, rfl, rfl, rfl, rfl, hs⟩
        | checkpoint =>
          simp only at h1 hpk ⊢
          split at h1
          · cases h1
          next ok ck d f1 hr =>
            obtain ⟨-, ⟨q', a1, a2, a3, a4⟩ | ⟨rfl, rfl, a1⟩⟩ := readDictP_sim hr hs.fin_le
            · rw [a1]
              simp only
              refine ih (cur := 0) h (recs := []) ?_ (by simp only; omega) (by simp only; omega)
              rw [← Option.some.inj h1]
              exact ⟨rfl, rfl, rfl, rfl, rfl, a2⟩
            · rw [a1]
              simp only
              have h1' := Option.some.inj h1
              have hstop : ∀ n, unorderedLoop n s1 = some s1 := by
                intro n; cases n
                · rfl
                · rw [unorderedLoop, if_neg (by rw [← h1']; simp)]
              rw [hstop] at h
              have h' := Option.some.inj h
              have hstop2 : ∀ n, loopM n ⟨f1, false, ck, q, s.bf, s.out⟩ =
                  some ⟨f1, false, ck, q, s.bf, s.out⟩ := by
                intro n; cases n
                · rfl
                · rw [loopM, if_neg (by simp)]
              refine ⟨_, recs, hstop2 _, ?_⟩
              rw [← h', ← h1']
              exact ⟨rfl, rfl, rfl, rfl, rfl, hs⟩
        | dict =>
          simp only at h1 hpk ⊢
          split at h1
          · cases h1
          next ok d f1 hr =>
            have h1' := Option.some.inj h1
            have e1 : s1.file = f1 := by rw [← h1']
            rw [e1] at hpk
            have hle := le_dictPeak fuel (cur + (s.file.inp.length - f1.inp.length)) s1
            simp only at hpl
            obtain ⟨-, q', recs', a1, a2, a3, a4⟩ := readDictionaryFragmentM_sim hr hs (by omega)
            rw [a1]
            simp only
            refine ih (cur := cur + (s.file.inp.length - f1.inp.length)) h (recs := recs') ?_
              (by simp only; omega) (by simp only; omega)
            rw [← h1']
            exact ⟨rfl, rfl, rfl, rfl, rfl, a2⟩
        | invalid =>
          simp only at h1 hpk ⊢
          refine ih (cur := cur) (recs := recs) h ?_ hcur hpk
          rw [← Option.some.inj h1]
          exact ⟨rfl, rfl, rfl, rfl, rfl, hs⟩
    next hc =>
      rw [if_neg hc]
      exact ⟨_, recs, rfl, (Option.some.inj h) ▸ ⟨rfl, rfl, rfl, rfl, rfl, hs⟩⟩

theorem dictPeak_le (fuel : Nat) : ∀ (cur : Nat) (s : Dec), dictPeak fuel cur s ≤ cur + s.file.inp.length := by
  induction fuel with
  | zero => intro cur s; exact Nat.le_add_right _ _
  | succ fuel ih =>
    intro cur s
    rw [dictPeak]
    split
    next hc =>
      split
      · omega
      next s' h1 =>
        have hm := unorderedStep_measure hc.1 h1
        have : s'.file.inp.length ≤ s.file.inp.length := by
          simp only [FileSt.measure, hc.1] at hm
          simp at hm; omega
        split
        · have := ih (cur + (s.file.inp.length - s'.file.inp.length)) s'; omega
        · have := ih 0 s'; omega
        · have := ih cur s'; omega
    next hc => omega

/-! ## Many entries -/

theorem addInfos_sim {infos : List LogInfo} : ∀ {d : Dict} {q : PDict} {recs : List (List Byte)},
    DictSim d q recs → (∀ i ∈ infos, i.Fits) →
    q.fin + (infos.map fun i => i.file.length + 3 * i.fmt.length + 14).sum ≤ q.raw.length →
    ∃ q' recs', q.addInfos infos = some q' ∧ DictSim (infos.foldl Dict.add d) q' recs' ∧
      q'.raw.length = q.raw.length := by
  induction infos with
  | nil => intro d q recs h _ _; exact ⟨q, recs, rfl, h, rfl⟩
  | cons i infos ih =>
    intro d q recs h hf hr
    simp only [List.map_cons, List.sum_cons] at hr
    obtain ⟨q1, recs1, a1, a2, a3, a4⟩ := h.add (hf i (by simp)) (by omega)
    obtain ⟨q2, recs2, b1, b2, b3⟩ := ih a2 (fun j hj => hf j (by simp [hj])) (by omega)
    exact ⟨q2, recs2, by rw [PDict.addInfos, a1]; exact b1, b2, by omega⟩

theorem foldl_add {infos : List LogInfo} {ms : List Meta}
    (h : List.Forall₂ (fun i m => createMicroCode i.fmt i.file i.line i.sev = some m) infos ms) :
    ∀ (d : Dict), infos.foldl Dict.add d =
      ⟨d.idx ++ (List.range' d.metas.length infos.length), d.metas ++ ms⟩ := by
  induction h with
  | nil => intro d; simp
  | @cons i m infos ms hi _ ih =>
    intro d
    rw [List.foldl_cons, ih]
    simp [Dict.add, hi, List.range'_succ]

/-! ## The memory is not checked -/

theorem microMemLoop_text {s : List Byte} (hs : ∀ b ∈ s, b ≠ ch '%' ∧ b ≠ ch '\\') (p : Nat) (fuel : Nat) :
    ∀ st : MicroSt, ∃ st', microMemLoop s p fuel st = some (true, st') ∧ st'.raw = st.raw ∧ st'.w = st.w ∧
      st'.pf = st.pf := by
  induction fuel with
  | zero => intro st; exact ⟨st, rfl, rfl, rfl, rfl⟩
  | succ fuel ih =>
    intro st
    rw [microMemLoop]
    cases hc : s[st.i]? with
    | none => exact ⟨st, rfl, rfl, rfl, rfl⟩
    | some c =>
      obtain ⟨h1, h2⟩ := hs c (List.mem_of_getElem? hc)
      simp only
      rw [if_neg h2, if_pos h1]
      exact ih _

theorem setBits_length {pf : Nat} {ty : Option FormatType} {a b : Bool} {raw r : List Byte}
    (h : setBits pf ty a b raw = some r) : r.length = raw.length := by
  unfold setBits at h
  split at h
  · cases h
  · exact (writeAt_some h).1

/-- A text without conversions: the record lies in the memory, or the memory is left. -/
theorem microMem_text {raw raw' : List Byte} {p p' line level : Nat} {fmt file : List Byte} {ok : Bool}
    (hf : ∀ b ∈ fmt, b ≠ ch '%' ∧ b ≠ ch '\\') (h : microMem raw p fmt file line level = some (ok, raw', p')) :
    p' = p + file.length + fmt.length + 14 ∧ p' ≤ raw.length ∧ raw'.length = raw.length := by
  unfold microMem at h
  simp only at h
  split at h
  · cases h
  next r hr =>
    have h1 := (writeAt_some hr).1
    have hs : ∀ b ∈ fmt ++ [0], b ≠ ch '%' ∧ b ≠ ch '\\' := by
      intro b hb
      rcases List.mem_append.1 hb with hb | hb
      · exact hf b hb
      · simp only [List.mem_singleton] at hb; rw [hb]; decide
    obtain ⟨st', e1, e2, e3, e4⟩ := microMemLoop_text hs p (fmt ++ [0]).length
      ⟨r, p + (le 1 0 ++ le 1 0 ++ le 1 level ++ le 4 line ++ le 2 (file.length + 1) ++ (file ++ [0])).length,
        0, 0, 0, none⟩
    rw [e1] at h
    simp only at h e2 e3 e4
    rw [finishMicro, e4] at h
    simp only [Option.map_eq_some_iff] at h
    obtain ⟨x, hx, h⟩ := h
    simp only [Prod.mk.injEq] at h
    obtain ⟨-, rfl, rfl⟩ := h
    split at hx
    · cases hx
    simp only [Option.bind_eq_some_iff, Option.map_eq_some_iff] at hx
    obtain ⟨r1, w1, r2, w2, r3, w3, r4, w4, rfl⟩ := hx
    have l1 := (writeAt_some w1).1
    have l2 := setBits_length w2
    have l3 := (writeAt_some w3).1
    obtain ⟨l4, l5, -⟩ := writeAt_some w4
    simp only [e3, e2, List.length_append, le_length, List.length_singleton] at *
    omega

theorem addInfos_text {i : LogInfo} (hf : ∀ b ∈ i.fmt, b ≠ ch '%' ∧ b ≠ ch '\\') (n : Nat) :
    ∀ {q q' : PDict}, q.addInfos (List.replicate n i) = some q' → q.fin ≤ q.raw.length →
    q.fin + n * (i.file.length + i.fmt.length + 14) ≤ q.raw.length := by
  induction n with
  | zero => intro q q' _ h; omega
  | succ n ih =>
    intro q q' h hq
    rw [List.replicate_succ, PDict.addInfos, Option.bind_eq_some_iff] at h
    obtain ⟨q1, h1, h2⟩ := h
    rw [PDict.addInfo, Option.map_eq_some_iff] at h1
    obtain ⟨⟨ok, raw', p'⟩, h1, rfl⟩ := h1
    obtain ⟨a1, a2, a3⟩ := microMem_text hf h1
    have := ih h2 (by simp only; omega)
    simp only at this
    rw [Nat.succ_mul]
    omega

end NanoLog
