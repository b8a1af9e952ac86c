import Verif.Output
import Verif.Props.File

/-! Helper lemmas about the output step. -/

namespace NanoLog

/-! ## Padding -/

theorem Trace.flushes {cfg ck st ops ck' st' ns rss mss}
    (h : Trace cfg ck st ops ck' st' ns rss mss) :
    st.file ++ (st.flushes cfg ops).flatten = st'.file := by
  induction h with
  | nil => simp [EncSt.flushes]
  | @cons ck st op ck1 st1 n rs ms ops _ st2 _ _ _ hi h ht ih =>
    have hs := h.step
    have e : st1.file = st.file ++ (st.handed op).flatten := by
      cases op with
      | start jk c all =>
        simp only [EncSt.step] at hs
        split at hs
        · cases hs
        · split at hs
          · cases hs
          · cases hs; simp [EncSt.handed]
      | dict k =>
        simp only [EncSt.step] at hs
        split at hs <;> (cases hs; simp [EncSt.handed])
      | batch junk cs mem nbytes tid np =>
        simp only [EncSt.step] at hs
        split at hs
        · cases hs
        · cases hs; simp [EncSt.handed]
      | flush => cases hs; simp [EncSt.handed]
    rw [EncSt.flushes, hs]
    simp only
    rw [List.flatten_append, ← List.append_assoc, ← ih, e]

theorem sentFile_plain {cfg : Config} {ws : List (List Byte × Nat)} {bs : List (List Byte)}
    (h : Hands cfg ws bs) : sentFile false ws = some bs.flatten := by
  induction h with
  | nil => rfl
  | @cons w b ws bs hw _ ih =>
    obtain ⟨h1, h2, h3⟩ := hw
    obtain ⟨mem, n⟩ := w
    simp only at h1 h2 h3
    have hle := h3.length_le
    rw [sentFile, ih]
    simp only [sendOutput, padOutput, Bool.false_eq_true, if_false]
    rw [if_pos (by omega), h2, ← List.prefix_iff_eq_take.1 h3]
    simp

theorem sentFile_aligned {cfg : Config} {ws : List (List Byte × Nat)} {bs : List (List Byte)}
    (h : Hands cfg ws bs) (ha : ∀ b ∈ bs, b.length % 512 = 0) (direct : Bool) :
    sentFile direct ws = some bs.flatten := by
  induction h with
  | nil => rfl
  | @cons w b ws bs hw _ ih =>
    obtain ⟨h1, h2, h3⟩ := hw
    obtain ⟨mem, n⟩ := w
    simp only at h1 h2 h3
    have hle := h3.length_le
    have h0 := ha b (by simp)
    rw [sentFile, ih fun b hb => ha b (by simp [hb])]
    have hp : padOutput direct mem n = (mem, n) := by
      unfold padOutput
      rw [h2]
      simp [h0]
    simp only [sendOutput, hp]
    rw [if_pos (by omega), h2, ← List.prefix_iff_eq_take.1 h3]
    simp

theorem padOutput_length {mem : List Byte} {n : Nat} (direct : Bool) (hn : n ≤ mem.length)
    (hm : 512 ∣ mem.length) :
    (padOutput direct mem n).1.length = mem.length ∧ (padOutput direct mem n).2 ≤ mem.length := by
  unfold padOutput
  split
  · simp only
    split
    · simp only [List.length_append, List.length_replicate, List.length_drop]
      omega
    · exact ⟨rfl, hn⟩
  · exact ⟨rfl, hn⟩

/-! ## Failed writes -/

/-- Operations between two writes: dictionary steps and batches. -/
def EncOp.Fills : EncOp → Prop
  | .dict _ | .batch .. => True
  | _ => False

theorem step_fills {cfg : Config} {st st1 : EncSt} {op : EncOp} {n : Option Int}
    (hf : op.Fills) (h : st.step cfg op = some (st1, n)) :
    st1.file = st.file ∧ st1.all = st.all := by
  cases op with
  | start => cases hf
  | flush => cases hf
  | dict k =>
    simp only [EncSt.step] at h
    split at h <;> (cases h; exact ⟨rfl, rfl⟩)
  | batch junk cs mem nbytes tid np =>
    simp only [EncSt.step] at h
    split at h
    · cases h
    · cases h; exact ⟨rfl, rfl⟩

theorem run_fills {cfg : Config} {ops : List EncOp} {st st1 : EncSt} {ns : List Int}
    (hf : ∀ op ∈ ops, op.Fills) (h : st.run cfg ops = some (st1, ns)) :
    st1.file = st.file ∧ st1.all = st.all := by
  induction ops generalizing st ns with
  | nil => cases h; exact ⟨rfl, rfl⟩
  | cons op ops ih =>
    rw [EncSt.run] at h
    split at h
    · cases h
    · rename_i st2 n hs
      split at h
      · cases h
      · rename_i st3 ns' hr
        cases h
        obtain ⟨h1, h2⟩ := step_fills (hf op (by simp)) hs
        obtain ⟨h3, h4⟩ := ih (fun o ho => hf o (by simp [ho])) hr
        exact ⟨h3.trans h1, h4.trans h2⟩

theorem flushedStarts_fills {ops : List EncOp} (hf : ∀ op ∈ ops, op.Fills) (b : Bool) :
    FlushedStarts b ops := by
  induction ops generalizing b with
  | nil => trivial
  | cons op ops ih =>
    have h := hf op (by simp)
    have := ih (fun o ho => hf o (by simp [ho])) false
    cases op with
    | start => cases h
    | flush => cases h
    | dict k => exact this
    | batch => exact this

/-- Not the start of an execution. -/
def EncOp.NoStart : EncOp → Prop
  | .start .. => False
  | _ => True

theorem EncOp.Fills.noStart {op : EncOp} (h : op.Fills) : op.NoStart := by
  cases op <;> trivial

theorem trace_ck {cfg ck st ops ck' st' ns rss mss}
    (h : Trace cfg ck st ops ck' st' ns rss mss) (hf : ∀ op ∈ ops, op.NoStart) :
    ck' = ck ∧ st'.all = st.all := by
  induction h with
  | nil => exact ⟨rfl, rfl⟩
  | @cons ck st op ck1 st1 n rs ms ops ck2 st2 ns rss mss hi h ht ih =>
    have hfo := hf op (by simp)
    have h1 : ck1 = ck := (h.exts (by
      intro jk c all he
      rw [he] at hfo
      exact hfo)).1
    have h2 : st1.all = st.all := by
      have hs := h.step
      cases op with
      | start => exact absurd hfo id
      | flush => cases hs; rfl
      | dict k => exact (step_fills (op := .dict k) trivial hs).2
      | batch a b c d e f => exact (step_fills (op := .batch a b c d e f) trivial hs).2
    obtain ⟨i1, i2⟩ := ih fun o ho => hf o (by simp [ho])
    exact ⟨i1.trans h1, i2.trans h2⟩

/-- One group of operations: the records put into the empty buffer. -/
theorem group_holds {cfg : Config} (hcfg : cfg.OK) {ck : Checkpoint} {ops : List EncOp}
    {st st1 : EncSt} {ns : List Int} {ms : List OutMsg} (hi : st.Inv cfg) (hb : st.buf = [])
    (hf : ∀ op ∈ ops, op.Fills) (hok : OpsOK cfg ck st.all ops)
    (hr : st.run cfg ops = some (st1, ns)) (hl : Logged cfg ck st.all ops ns ms) :
    ∃ rs, Holds (cfg.staging + 9) ck st.shadow rs ms ∧
      after ck st.shadow rs = (ck, st1.shadow) ∧ st1.buf = recBytes rs ∧ st1.Inv cfg := by
  obtain ⟨ck', st', ns', rss, mss, ht⟩ := run_trace cfg hcfg hok hi (flushedStarts_fills hf _)
  have h1 := ht.run
  rw [hr] at h1
  simp only [Option.some.injEq, Prod.mk.injEq] at h1
  obtain ⟨rfl, rfl⟩ := h1
  have hm := Logged.unique hi.sites ht.logged hl
  subst hm
  have hck := (trace_ck ht fun o ho => (hf o ho).noStart).1
  subst hck
  refine ⟨rss.flatten, ht.holds.1, ht.holds.2, ?_, ht.inv⟩
  have hby := ht.bytes
  rw [(run_fills hf hr).1, hb, List.append_nil] at hby
  exact List.append_cancel_left hby

/-- The messages that must be readable after a run with failing writes: those of the writes
that succeed.  A write may be lost only if no static information is in it. -/
inductive Survive (cfg : Config) (ck : Checkpoint) :
    EncSt → List (List EncOp × WOut) → List OutMsg → Prop where
  | nil {st} : Survive cfg ck st [] []
  | done {st st1 ops gs ns ms ms'} (hr : st.run cfg ops = some (st1, ns))
      (hl : Logged cfg ck st.all ops ns ms) (h : Survive cfg ck (st1.hand .done) gs ms') :
      Survive cfg ck st ((ops, .done) :: gs) (ms ++ ms')
  | lost {st st1 ops gs ns ms ms'} (hr : st.run cfg ops = some (st1, ns))
      (hl : Logged cfg ck st.all ops ns ms) (hp : st1.pos = st.pos)
      (h : Survive cfg ck (st1.hand .lost) gs ms') : Survive cfg ck st ((ops, .lost) :: gs) ms'

theorem survive_holds {cfg : Config} (hcfg : cfg.OK) {ck : Checkpoint} {st : EncSt}
    {gs : List (List EncOp × WOut)} {ms : List OutMsg} (h : Survive cfg ck st gs ms)
    {all : List Site} (ha : st.all = all) (hi : st.Inv cfg) (hb : st.buf = [])
    (hf : ∀ g ∈ gs, (∀ op ∈ g.1, op.Fills) ∧ OpsOK cfg ck all g.1) :
    ∃ st' rs, st.runW cfg gs = some st' ∧ Holds (cfg.staging + 9) ck st.shadow rs ms ∧
      st'.file = st.file ++ recBytes rs := by
  induction h with
  | nil => exact ⟨_, [], rfl, .nil, by simp [recBytes]⟩
  | @done st st1 ops gs ns ms ms' hr hl h ih =>
    subst ha
    obtain ⟨f1, f2⟩ := hf (ops, .done) (by simp)
    obtain ⟨rs1, g1, g2, g3, g4⟩ := group_holds hcfg hi hb f1 f2 hr hl
    obtain ⟨e1, e2⟩ := run_fills f1 hr
    obtain ⟨st', rs2, i1, i2, i3⟩ := ih e2
      ⟨g4.shadow, g4.pos, by simp [EncSt.hand], g4.sites⟩ rfl fun g hg => hf g (by simp [hg])
    refine ⟨st', rs1 ++ rs2, by rw [EncSt.runW, hr]; exact i1, g1.append (by rw [g2]; exact i2), ?_⟩
    rw [i3]
    simp [EncSt.hand, WOut.got, e1, g3, recBytes]
  | @lost st st1 ops gs ns ms ms' hr hl hp h ih =>
    subst ha
    obtain ⟨f1, f2⟩ := hf (ops, .lost) (by simp)
    obtain ⟨rs1, g1, g2, g3, g4⟩ := group_holds hcfg hi hb f1 f2 hr hl
    obtain ⟨e1, e2⟩ := run_fills f1 hr
    obtain ⟨st', rs2, i1, i2, i3⟩ := ih e2
      ⟨g4.shadow, g4.pos, by simp [EncSt.hand], g4.sites⟩ rfl fun g hg => hf g (by simp [hg])
    have hsh : st1.shadow = st.shadow := by rw [g4.shadow, hi.shadow, hp, e2]
    refine ⟨st', rs2, by rw [EncSt.runW, hr]; exact i1, ?_, ?_⟩
    · rw [← hsh]; exact i2
    · rw [i3]; simp [EncSt.hand, WOut.got, e1]

end NanoLog
