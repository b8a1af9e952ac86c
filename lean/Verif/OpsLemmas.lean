import Verif.FileLemmas
import Verif.OrderedSpec

/-! Helper lemmas: encoder operations produce well-formed records. -/

namespace NanoLog

theorem Prints.ok {sites : List Site} {tid : Nat} {ck : Checkpoint} {c : LogCall} {m : OutMsg}
    (h : Prints sites tid ck c m) : ∃ s, c.OK sites s ∧ Matches s.params c.args := by
  cases h with
  | @mk s is ds ok sup pr =>
    refine ⟨s, ok, ?_⟩
    have := pr.matches
    rw [pieces_params] at this
    rw [sup.params]; exact this

theorem queue_of_prints {sites : List Site} {tid : Nat} {ck : Checkpoint} {cs : List LogCall}
    {ms : List OutMsg} (h : List.Forall₂ (Prints sites tid ck) cs ms) : Queue sites cs := by
  induction h with
  | nil => intro c hc; simp at hc
  | cons h _ ih =>
    intro c hc
    rcases List.mem_cons.1 hc with rfl | hc
    · exact h.ok
    · exact ih c hc

theorem Prints.restrict {all known : List Site} (hpre : known <+: all) {tid : Nat}
    {ck : Checkpoint} {c : LogCall} {m : OutMsg} (h : Prints all tid ck c m)
    (hk : ∃ s, c.OK known s) : Prints known tid ck c m := by
  cases h with
  | @mk s is ds ok sup pr =>
    obtain ⟨s', ok'⟩ := hk
    have h1 := ok'.site
    rw [prefix_getElem? hpre ok.site] at h1
    have : s' = s := by
      split at h1
      · exact (Option.some.inj h1).symm
      · cases h1
    subst this
    exact .mk ok' sup pr

theorem prints_restrict {all known : List Site} (hpre : known <+: all) {tid : Nat}
    {ck : Checkpoint} {cs : List LogCall} {ms : List OutMsg}
    (h : List.Forall₂ (Prints all tid ck) cs ms) (hk : ∀ c ∈ cs, ∃ s, c.OK known s) :
    List.Forall₂ (Prints known tid ck) cs ms := by
  induction h with
  | nil => exact .nil
  | cons h _ ih =>
    exact .cons (h.restrict hpre (hk _ (by simp))) (ih fun c hc => hk c (by simp [hc]))

theorem queueSize_prefix {all known : List Site} (hpre : known <+: all) {cs : List LogCall}
    (hk : ∀ c ∈ cs, ∃ s, c.OK known s) : queueSize known cs = queueSize all cs := by
  induction cs with
  | nil => rfl
  | cons c cs ih =>
    obtain ⟨s, ok⟩ := hk c (by simp)
    have h1 : all[c.id]? = some s := by
      obtain ⟨t, rfl⟩ := hpre
      have := ok.site
      have hlt : c.id < known.length := by
        by_contra hn; rw [List.getElem?_eq_none (by omega)] at this; cases this
      rw [List.getElem?_append_left hlt]; exact this
    have := ih fun c hc => hk c (by simp [hc])
    simp only [queueSize, List.map_cons, List.sum_cons] at *
    rw [this]
    simp [callSize, h1, ok.site]

theorem dictEntries_eq (l : List Site) (space : Nat) :
    ∃ n ≤ l.length, dictEntries space (l.map Site.info) =
      (n, (l.take n).flatMap fun s => logInfoBytes s.info) ∧
      ((l.take n).flatMap fun s => logInfoBytes s.info).length ≤ space := by
  induction l generalizing space with
  | nil => exact ⟨0, by simp, by simp [dictEntries], by simp⟩
  | cons s l ih =>
    by_cases h : logInfoSize s.info ≥ space
    · exact ⟨0, by simp, by simp [dictEntries, h], by simp⟩
    · obtain ⟨n, h1, h2, h3⟩ := ih (space - logInfoSize s.info)
      refine ⟨n + 1, by simp [h1], ?_, ?_⟩
      · simp [dictEntries, h, h2]
      · have := logInfoBytes_length s.info
        simp only [List.take_succ_cons, List.flatMap_cons, List.length_append]
        omega

theorem encodeDict_eq (sites : List Site) (space pos : Nat) (hp : pos ≤ sites.length)
    (hs : 8 < space) :
    ∃ pos' ≤ sites.length, pos ≤ pos' ∧ encodeDict space pos (sites.map Site.info) =
      (pos', dictBytes pos' ((sites.take pos').drop pos)) ∧
      (dictBytes pos' ((sites.take pos').drop pos)).length ≤ space := by
  obtain ⟨n, h1, h2, h3⟩ := dictEntries_eq (sites.drop pos) (space - 8)
  rw [List.length_drop] at h1
  have e : (sites.take (pos + n)).drop pos = (sites.drop pos).take n := by
    rw [List.drop_take]; congr 1; omega
  refine ⟨pos + n, by omega, by omega, ?_, ?_⟩
  · rw [encodeDict, if_neg (by omega), ← List.map_drop, h2]
    simp only
    rw [e, dictBytes]
  · rw [e, dictBytes]
    simp only [List.length_append, le_length]
    omega

/-- State invariant of an encoder between operations. -/
structure EncSt.Inv (cfg : Config) (st : EncSt) : Prop where
  shadow : st.shadow = st.all.take st.pos
  pos : st.pos ≤ st.all.length
  buf : st.buf.length ≤ cfg.output
  sites : SitesOK st.all

/-- Configurations for which the formats of the file are wide enough. -/
structure Config.OK (cfg : Config) : Prop where
  staging : cfg.staging < 2 ^ 31
  output : cfg.output < 2 ^ 30
  room : 40 ≤ cfg.output

theorem forall₂_append_left {α β : Type} {R : α → β → Prop} {a b : List α} {l : List β}
    (h : List.Forall₂ R (a ++ b) l) : List.Forall₂ R a (l.take a.length) := by
  induction a generalizing l with
  | nil => simp
  | cons x a ih =>
    cases h with
    | cons h ht => exact .cons h (ih ht)

theorem FlushedStarts.mono {ops : List EncOp} (h : FlushedStarts false ops) (b : Bool) :
    FlushedStarts b ops := by
  cases b with
  | false => exact h
  | true =>
    cases ops with
    | nil => trivial
    | cons op ops =>
      cases op with
      | start => simp [FlushedStarts] at h
      | _ => simpa [FlushedStarts] using h

/-- The extents among the records. -/
def recExts : List Rec → List OutMsg → Exts
  | [], _ => []
  | .ext _ np cs _ :: rs, ms => (np, ms.take cs.length) :: recExts rs (ms.drop cs.length)
  | _ :: rs, ms => recExts rs ms

/-- Static information or messages. -/
def Rec.isData : Rec → Prop
  | .dict .. | .ext .. => True
  | _ => False

/-- What one operation does: its records `rs`, the messages `ms` they hold, the result `n`. -/
structure StepOK (cfg : Config) (ck : Checkpoint) (st : EncSt) (op : EncOp) (ck1 : Checkpoint)
    (st1 : EncSt) (n : Option Int) (rs : List Rec) (ms : List OutMsg) : Prop where
  step : st.step cfg op = some (st1, n)
  inv : st1.Inv cfg
  holds : Holds (cfg.staging + 9) ck st.shadow rs ms
  after : after ck st.shadow rs = (ck1, st1.shadow)
  bytes : st1.file ++ st1.buf = st.file ++ st.buf ++ recBytes rs
  logged : ∀ {ops ns ms'}, Logged cfg ck1 st1.all ops ns ms' →
    Logged cfg ck st.all (op :: ops) (n.toList ++ ns) (ms ++ ms')
  start : ∀ jk c all, op = .start jk c all → rs = [.ckpt jk c]
  exts : (∀ jk c all, op ≠ .start jk c all) → ck1 = ck ∧ (∀ r ∈ rs, r.isData) ∧
    ∀ {ops F}, RunExts cfg ck st1 ops F → RunExts cfg ck st (op :: ops) (recExts rs ms ++ F)

theorem step_ok (cfg : Config) (hcfg : cfg.OK) {ck : Checkpoint} {op : EncOp} {ops : List EncOp}
    {st : EncSt} (hok : OpsOK cfg ck st.all (op :: ops)) (hinv : st.Inv cfg)
    (hfl : FlushedStarts (decide (st.buf = [])) (op :: ops)) :
    ∃ ck1 st1 n rs ms, StepOK cfg ck st op ck1 st1 n rs ms ∧ OpsOK cfg ck1 st1.all ops ∧
      FlushedStarts (decide (st1.buf = [])) ops := by
  have e3 : st.shadow.length = st.pos := by
    rw [hinv.shadow, List.length_take]; have := hinv.pos; omega
  cases hok with
  | @start _ _ jk c all' _ hc hs hj h =>
    have hbuf : st.buf = [] := by simpa using hfl.1
    have hroom := hcfg.room
    have hl := checkpointBytes_length (junk := jk) hc.1
    have hne : checkpointBytes jk c ≠ [] := by
      intro h; rw [h] at hl; simp at hl
    refine ⟨c, ⟨st.file, checkpointBytes jk c, 0, [], all'⟩, none, [.ckpt jk c], [], ⟨?_,
      ⟨by simp, by simp, by simp only; omega, hs⟩, .ckpt hc hj .nil, rfl, ?_, ?_, ?_, ?_⟩, h, ?_⟩
    · simp only [EncSt.step, hbuf, ne_eq, not_true_eq_false, if_false, insertCheckpoint]
      rw [if_neg (by omega)]
    · simp [hbuf, recBytes, Rec.bytes]
    · intro ops ns ms' hl; exact .start hc hs hj hl
    · intro jk' c' all'' he
      simp only [EncOp.start.injEq] at he
      rw [he.1, he.2.1]
    · intro hno; exact absurd rfl (hno jk c all')
    · have := hfl.2; simpa [hne] using this
  | @dict _ _ k _ h =>
    have hfl' : FlushedStarts false ops := hfl
    by_cases hlt : st.pos < (st.all.take k).length
    · by_cases hsp : 8 < cfg.output - st.buf.length
      · obtain ⟨pos', p1, p2, p3, p4⟩ := encodeDict_eq (st.all.take k)
          (cfg.output - st.buf.length) st.pos (by omega) hsp
        have hsh : st.shadow ++ ((st.all.take k).take pos').drop st.shadow.length =
            st.all.take pos' := by
          have e1 : (st.all.take k).take pos' = st.all.take pos' := by
            rw [List.take_take]; congr 1
            rw [List.length_take] at p1; omega
          have e2 : st.shadow = (st.all.take pos').take st.pos := by
            rw [hinv.shadow, List.take_take]; congr 1; omega
          rw [e1, e3, e2, List.take_append_drop]
        have hlenk : (st.all.take k).length ≤ st.all.length := by
          rw [List.length_take]; omega
        refine ⟨ck, { st with
            buf := st.buf ++ dictBytes pos' (((st.all.take k).take pos').drop st.pos)
            pos := pos'
            shadow := st.shadow ++ ((st.all.take k).take pos').drop st.shadow.length }, none,
          [.dict pos' (((st.all.take k).take pos').drop st.pos)], [], ⟨?_, ⟨hsh, by simp only; omega,
            by have := hinv.buf; simp only [List.length_append]; omega, hinv.sites⟩,
          .dict ?_ ?_ .nil, ?_, ?_, ?_, by simp, ?_⟩, h, hfl'.mono _⟩
        · rw [EncSt.step]
          simp only [hlt, if_true, p3]
        · intro s hs
          exact hinv.sites s (List.mem_of_mem_take (List.mem_of_mem_take (List.mem_of_mem_drop hs)))
        · have := hcfg.output; omega
        · simp only [NanoLog.after, e3]
        · simp [recBytes, Rec.bytes]
        · intro ops ns ms' hl; exact .dict hl
        · intro _
          refine ⟨rfl, by simp [Rec.isData], fun h => ?_⟩
          exact .dict (by rw [EncSt.step]; simp only [hlt, if_true, p3]; rfl) h
      · have hstep : st.step cfg (.dict k) = some (st, none) := ?_
        · exact ⟨ck, st, none, [], [], ⟨hstep, hinv, .nil, rfl, by simp [recBytes],
            fun hl => .dict hl, by simp, fun _ => ⟨rfl, by simp [Rec.isData], fun h => .dict hstep h⟩⟩, h, hfl'.mono _⟩
        have e : encodeDict (cfg.output - st.buf.length) st.pos ((st.all.take k).map Site.info) =
            (st.pos, []) := by rw [encodeDict, if_pos (by omega)]
        have hsh : st.shadow ++ ((st.all.take k).take st.pos).drop st.shadow.length = st.shadow := by
          rw [e3, List.drop_eq_nil_of_le (by simp; omega), List.append_nil]
        rw [EncSt.step]
        simp only [hlt, if_true, e, hsh, List.append_nil]
    · have hstep : st.step cfg (.dict k) = some (st, none) := ?_
      · exact ⟨ck, st, none, [], [], ⟨hstep, hinv, .nil, rfl, by simp [recBytes],
          fun hl => .dict hl, by simp, fun _ => ⟨rfl, by simp [Rec.isData], fun h => .dict hstep h⟩⟩, h, hfl'.mono _⟩
      rw [EncSt.step]
      simp only [hlt, if_false]
  | flush h =>
    exact ⟨ck, { st with file := st.file ++ st.buf, buf := [] }, none, [], [],
      ⟨rfl, ⟨hinv.shadow, hinv.pos, by simp, hinv.sites⟩, .nil, rfl, by simp [recBytes],
        fun hl => .flush hl, by simp, fun _ => ⟨rfl, by simp [Rec.isData], fun h => .flush rfl h⟩⟩, h, by simpa [FlushedStarts] using hfl⟩
  | @batch _ _ junk cs mem nbytes tid np _ ms' hb h =>
    have hfl' : FlushedStarts false ops := hfl
    obtain ⟨more, hmem⟩ := hb.mem
    have hpre : st.shadow <+: st.all := by rw [hinv.shadow]; exact List.take_prefix _ _
    by_cases hsp : 9 ≤ cfg.output - st.buf.length
    · obtain ⟨pre, suf, body, q1, q2, q3, q4, q5, q6⟩ := encodeLogMsgs_queue cfg junk hpre more cs
        (queue_of_prints hb.prints) (cfg.output - st.buf.length) nbytes tid np hb.tid hsp hb.limit
      have hpl : pre = cs.take pre.length := by rw [q1]; simp
      have hle := q3.length_le2
      rw [queueSize_prefix hpre q3.ok] at hle
      have hsz := q6 (fun c hc => hb.small c (by rw [q1]; simp [hc]))
      have hxl := extentBytes_length tid np body
      have hh := extentHeaderSize_le hb.tid
      have hhalf := hb.half
      have hst := hcfg.staging
      have hholds : Holds (cfg.staging + 9) ck st.shadow [.ext tid np pre body]
          (ms'.take pre.length ++ []) := by
        refine .ext q3 ?_ hb.tid (by omega) (by omega) .nil
        apply prints_restrict hpre _ q3.ok
        have := hb.prints
        rw [q1] at this
        exact forall₂_append_left this
      rw [List.append_nil] at hholds
      refine ⟨ck, { st with buf := st.buf ++ extentBytes tid np body },
        some (queueSize st.all pre : Int), [.ext tid np pre body], ms'.take pre.length,
        ⟨?_, ⟨hinv.shadow, hinv.pos, by
          have := hinv.buf; simp only [List.length_append]; omega, hinv.sites⟩, hholds, rfl, ?_, ?_,
          by simp, fun _ => ⟨rfl, by simp [Rec.isData], fun hF => ?_⟩⟩, h, hfl'.mono _⟩
      · rw [EncSt.step, hmem, q2]
      · simp [recBytes, Rec.bytes]
      · intro ops ns ms2 h2
        have := Logged.batch (np := np) (junk := junk) (k := pre.length) hb (by rw [q1]; simp) h2
        rw [← hpl] at this
        exact this
      · have := RunExts.batch (cfg := cfg) (ck := ck) (st := st) (np := np) (junk := junk)
          (st1 := { st with buf := st.buf ++ extentBytes tid np body }) (k := pre.length) hb
          (by rw [q1]; simp) (by rw [← hpl, EncSt.step, hmem, q2])
          (by
            intro he
            have := congrArg List.length he
            simp only [List.length_append] at this
            simp only [extentHeaderSize] at hxl
            omega) hF
        simpa [recExts, List.take_take] using this
    · refine ⟨ck, st, some 0, [], [], ⟨?_, hinv, .nil, rfl, by simp [recBytes], ?_, by simp,
        fun _ => ⟨rfl, by simp [Rec.isData], fun hF => .skip (st1 := st) (n := some 0) ?_ rfl hF⟩⟩, h,
        hfl'.mono _⟩
      · rw [EncSt.step, encodeLogMsgs, if_pos (by omega)]
        simp only [List.append_nil]
      · intro ops ns ms2 h2
        have := Logged.batch (np := np) (junk := junk) (k := 0) hb (by simp) h2
        simpa [queueSize] using this
      · rw [EncSt.step, encodeLogMsgs, if_pos (by omega)]
        simp only [List.append_nil]

/-- A whole run, with the records and messages of every operation. -/
inductive Trace (cfg : Config) : Checkpoint → EncSt → List EncOp → Checkpoint → EncSt → List Int →
    List (List Rec) → List (List OutMsg) → Prop where
  | nil {ck st} (hi : st.Inv cfg) : Trace cfg ck st [] ck st [] [] []
  | cons {ck st op ck1 st1 n rs ms ops ck2 st2 ns rss mss} (hi : st.Inv cfg)
      (h : StepOK cfg ck st op ck1 st1 n rs ms)
      (ht : Trace cfg ck1 st1 ops ck2 st2 ns rss mss) :
      Trace cfg ck st (op :: ops) ck2 st2 (n.toList ++ ns) (rs :: rss) (ms :: mss)

theorem run_trace (cfg : Config) (hcfg : cfg.OK) {ops : List EncOp} {ck : Checkpoint} {st : EncSt}
    (hok : OpsOK cfg ck st.all ops) (hinv : st.Inv cfg)
    (hfl : FlushedStarts (decide (st.buf = [])) ops) :
    ∃ ck' st' ns rss mss, Trace cfg ck st ops ck' st' ns rss mss := by
  induction ops generalizing ck st with
  | nil => exact ⟨_, _, _, _, _, .nil hinv⟩
  | cons op ops ih =>
    obtain ⟨ck1, st1, n, rs, ms, h1, h2, h3⟩ := step_ok cfg hcfg hok hinv hfl
    obtain ⟨ck', st', ns, rss, mss, h⟩ := ih h2 h1.inv h3
    exact ⟨_, _, _, _, _, .cons hinv h1 h⟩

theorem Trace.inv {cfg ck st ops ck' st' ns rss mss}
    (h : Trace cfg ck st ops ck' st' ns rss mss) : st'.Inv cfg := by
  induction h with
  | nil hi => exact hi
  | cons _ _ _ ih => exact ih

theorem Trace.run {cfg ck st ops ck' st' ns rss mss}
    (h : Trace cfg ck st ops ck' st' ns rss mss) : st.run cfg ops = some (st', ns) := by
  induction h with
  | nil => rfl
  | cons hi h ht ih => simp only [EncSt.run, h.step, ih]

theorem Trace.logged {cfg ck st ops ck' st' ns rss mss}
    (h : Trace cfg ck st ops ck' st' ns rss mss) :
    Logged cfg ck st.all ops ns mss.flatten := by
  induction h with
  | nil => exact .nil
  | cons hi h ht ih => exact h.logged ih

theorem Trace.bytes {cfg ck st ops ck' st' ns rss mss}
    (h : Trace cfg ck st ops ck' st' ns rss mss) :
    st'.file ++ st'.buf = st.file ++ st.buf ++ recBytes rss.flatten := by
  induction h with
  | nil => simp [recBytes]
  | cons hi h ht ih => rw [ih, h.bytes]; simp [recBytes]

theorem after_append (ck : Checkpoint) (known : List Site) (a b : List Rec) :
    after ck known (a ++ b) = after (after ck known a).1 (after ck known a).2 b := by
  induction a generalizing ck known with
  | nil => rfl
  | cons r a ih => cases r <;> simp [after, ih]

theorem Holds.append {cap : Nat} {ck : Checkpoint} {known : List Site} {a b : List Rec}
    {ms ms' : List OutMsg} (ha : Holds cap ck known a ms)
    (hb : Holds cap (after ck known a).1 (after ck known a).2 b ms') :
    Holds cap ck known (a ++ b) (ms ++ ms') := by
  induction ha with
  | nil => exact hb
  | ckpt hc hj h ih => exact .ckpt hc hj (ih hb)
  | dict hn hl h ih => exact .dict hn hl (ih hb)
  | ext he hp ht hl hcap h ih =>
    rw [List.append_assoc]; exact .ext he hp ht hl hcap (ih hb)
  | pad hz h ih => exact .pad hz (ih hb)

theorem Trace.holds {cfg ck st ops ck' st' ns rss mss}
    (h : Trace cfg ck st ops ck' st' ns rss mss) :
    Holds (cfg.staging + 9) ck st.shadow rss.flatten mss.flatten ∧
    after ck st.shadow rss.flatten = (ck', st'.shadow) := by
  induction h with
  | nil => exact ⟨.nil, rfl⟩
  | cons hi h ht ih =>
    refine ⟨?_, ?_⟩
    · rw [List.flatten_cons, List.flatten_cons]
      exact h.holds.append (by rw [h.after]; exact ih.1)
    · rw [List.flatten_cons, after_append, h.after]; exact ih.2

theorem Trace.split {cfg ck st a b ck' st' ns rss mss}
    (h : Trace cfg ck st (a ++ b) ck' st' ns rss mss) :
    ∃ ck1 st1 ns1 ns2 rs1 rs2 ms1 ms2, Trace cfg ck st a ck1 st1 ns1 rs1 ms1 ∧
      Trace cfg ck1 st1 b ck' st' ns2 rs2 ms2 ∧ ns = ns1 ++ ns2 ∧ rss = rs1 ++ rs2 ∧
      mss = ms1 ++ ms2 := by
  induction a generalizing ck st ns rss mss with
  | nil =>
    have hi : st.Inv cfg := by cases h <;> assumption
    exact ⟨_, _, _, _, _, _, _, _, .nil hi, h, rfl, rfl, rfl⟩
  | cons op a ih =>
    cases h with
    | cons hi h ht =>
      obtain ⟨ck1, st1, ns1, ns2, rs1, rs2, ms1, ms2, h1, h2, rfl, rfl, rfl⟩ := ih ht
      exact ⟨_, _, _, _, _, _, _, _, .cons hi h h1, h2, by simp, rfl, rfl⟩

theorem Trace.starts {cfg ck st jk c all ops ck' st' ns rss mss}
    (h : Trace cfg ck st (.start jk c all :: ops) ck' st' ns rss mss) :
    ∃ rs', rss.flatten = .ckpt jk c :: rs' := by
  cases h with
  | cons hi h ht => rw [List.flatten_cons, h.start _ _ _ rfl]; exact ⟨_, rfl⟩

theorem run_holds (cfg : Config) (hcfg : cfg.OK) {ck : Checkpoint} {all : List Site}
    {ops : List EncOp} (hok : OpsOK cfg ck all ops) (st : EncSt) (hinv : st.Inv cfg)
    (hall : st.all = all) (hfl : FlushedStarts (decide (st.buf = [])) ops) :
    ∃ st' ns ms rs, st.run cfg ops = some (st', ns) ∧ Logged cfg ck all ops ns ms ∧
      Holds (cfg.staging + 9) ck st.shadow rs ms ∧
      st'.file ++ st'.buf = st.file ++ st.buf ++ recBytes rs ∧
      (∀ jk c all' ops', ops = .start jk c all' :: ops' → ∃ rs', rs = .ckpt jk c :: rs') ∧
      st'.Inv cfg := by
  subst hall
  obtain ⟨ck', st', ns, rss, mss, h⟩ := run_trace cfg hcfg hok hinv hfl
  refine ⟨st', ns, mss.flatten, rss.flatten, h.run, h.logged, h.holds.1, h.bytes, ?_, h.inv⟩
  rintro jk c all' ops' rfl
  exact h.starts

end NanoLog
