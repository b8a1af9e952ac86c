import Verif.MemOrderedFile
import Verif.Props.Ordered

/-!
# C50 for ordered decoding (`decompressTo`), with the decoder's memory
-/

namespace NanoLog

/-- **C50**, ordered decoding of one execution (partial as `C50_file_partial`, and on the order as
`C26_chronological_partial`).  The calls of the messages consumed by the encoder are those of the extents
`G`.  A new decoder, with any old memory, any pool of buffers and any choice among equal time stamps, opens
the file, ends without error, and prints the calls of `G`, each once, those of every extent in their order;
if the time stamps of the calls are close to the order of logging (`Ordered`), the output is chronological. -/
theorem C50_ordered_partial {ss : List PStmt} {ls : List (List LitItem)} (hok : StmtsOK ss ls)
    {es : List PEntry} {fns : GenFns} (hp : Program ss es fns) (cfg : Config) (ho : cfg.output < 2 ^ 32)
    (hs : cfg.staging + 9 < 2 ^ 32) {junk : Nat → Nat} {j : Nat} {c : Checkpoint} {ops : List POp}
    (h : OpsP cfg es fns none true (.start junk j c :: ops ++ [.flush]))
    (hno : ∀ op ∈ ops, ∀ jk j c, op ≠ .start jk j c) :
    ∃ st ns b G, PSt.run cfg es fns ⟨[], []⟩ (.start junk j c :: ops ++ [.flush]) = some (st, ns) ∧
      ConsumedP fns none (.start junk j c :: ops ++ [.flush]) ns (G.map Prod.snd).flatten ∧ st.buf = [] ∧
      checkpointP junk j cfg.output c es = some b ∧ RunExtsP cfg es fns c ⟨[], b⟩ (ops ++ [.flush]) G ∧
      ∀ (raw : List Byte) (bf : BufFrag) (pool : List BufFrag) (pick : Nat → List BufFrag → Nat),
        2 * cfg.output ≤ raw.length → (∀ bf ∈ pool, bf.stor.length = cfg.staging + 9) → Picks pick →
        ∃ s s' F, openM raw bf st.file = some (true, s) ∧ s.ordered (cfg.staging + 9) pool pick = some s' ∧
          s'.mode = .done ∧ s'.good = true ∧ ShowsExts ss G F ∧ Merge (F.map Prod.snd) s'.out ∧
          (Ordered (stampsOf G) pool.isEmpty → Chrono s'.out) := by
  obtain ⟨f1, -⟩ := stmts_fit hok hp.entries
  obtain ⟨st, ns, G, F, b, X, h1, h2, h3, hc, hb, h6, h7, h8, h9⟩ := execFile_body hp hs h hno
  refine ⟨st, ns, b, G, h1, h2, h3, hb, h6, ?_⟩
  intro raw bf pool pick hraw hpool hpick
  obtain ⟨T, hT, hT0⟩ : ∃ T, (∀ bf ∈ pool, bf.ts ≤ T) ∧ (pool.isEmpty = true → T = 0) := by
    cases pool with
    | nil => exact ⟨0, by simp, fun _ => rfl⟩
    | cons a l =>
      obtain ⟨T, hT⟩ := pool_bound (a :: l)
      exact ⟨T, hT, fun h => by cases h⟩
  obtain ⟨s, s', o, o', r1, r2, r3, r4, r5, r6, r7⟩ := orderedM_all (pick := pick) f1 ho hpick
    (ExecsM.cons hc hb h9 .nil) (by simp) (fun bf hbf => ⟨hpool bf hbf, hT bf hbf⟩) (fun h => absurd rfl h) hraw bf
  cases r7
  rw [List.append_nil] at r1 r5
  rw [← h7] at r1
  refine ⟨s, s', F, r1, r2, r3, r4, h8, ?_, fun hord => ?_⟩
  · rw [r5]; have := r6.merge (by simp); simpa [ASt.pend] using this
  · have oF := h8.ordered hord
    rw [r5]
    refine (r6.chrono (.init oF.chrono oF.apart oF.prog ?_)).1
    rintro ⟨e, he, he0⟩
    cases hpe : pool.isEmpty with
    | true => exact hT0 hpe
    | false => exact absurd he0 (oF.empty hpe e he)

/-- **C50**, ordered decoding of a file to which several executions of the program were appended (partial
also in that the time stamps of every execution must be close to the order of logging; compare
`C27_ordered_partial`): first the calls of the first execution are printed, in chronological order, then
those of the second, and so on. -/
theorem C50_ordered_many_partial {ss : List PStmt} {ls : List (List LitItem)} (hok : StmtsOK ss ls)
    {es : List PEntry} {fns : GenFns} (hp : Program ss es fns) (cfg : Config) (ho : cfg.output < 2 ^ 32)
    (hs : cfg.staging + 9 < 2 ^ 32) {file : List Byte} {G : ExtsP} {Gs : List ExtsP}
    (h : ExecFiles cfg es fns file (G :: Gs)) (hord : Ordered (stampsOf G) true)
    (hords : ∀ G ∈ Gs, Ordered (stampsOf G) false)
    (raw : List Byte) (bf : BufFrag) (hraw : 2 * cfg.output ≤ raw.length)
    {pick : Nat → List BufFrag → Nat} (hpick : Picks pick) :
    ∃ s s' F Fs, openM raw bf file = some (true, s) ∧ s.ordered (cfg.staging + 9) [] pick = some s' ∧
      s'.mode = .done ∧ s'.good = true ∧ All2 (ShowsExts ss) (G :: Gs) (F :: Fs) ∧ PrintsAll (F :: Fs) s'.out := by
  obtain ⟨f1, -⟩ := stmts_fit hok hp.entries
  obtain ⟨Fs0, h1, h2⟩ := h.execsM hp hs
  cases h2 with
  | @cons _ F _ Fs hg hgs =>
  have oF := hg.ordered hord
  have oFs : ∀ F ∈ Fs, Ordered F false := by
    clear h h1
    induction hgs with
    | nil => simp
    | cons hg _ ih =>
      intro F hF
      rcases List.mem_cons.1 hF with rfl | hF
      · exact hg.ordered (hords _ List.mem_cons_self)
      · exact ih (fun G hG => hords G (List.mem_cons_of_mem _ hG)) F hF
  have hJ : ASt.J 0 ⟨[], [], F, 0, .fill⟩ := .init oF.chrono oF.apart oF.prog (fun _ => rfl)
  obtain ⟨s, s', o, o', r1, r2, r3, r4, r5, r6, r7⟩ := orderedM_all (pick := pick) f1 ho hpick h1 oFs
    (pool := []) (T := 0) (by simp) (fun _ => ⟨0, hJ⟩) hraw bf
  refine ⟨s, s', F, Fs, r1, r2, r3, r4, .cons hg hgs, ?_⟩
  rw [r5]
  refine .cons ?_ (r6.chrono hJ).1 r7
  have := r6.merge (by simp)
  simpa [ASt.pend] using this

/-! ## Examples -/

/-- A batch of one message into an empty buffer. -/
theorem exBatch {c : PCall} {q more : List Byte} (hq : QueuedP exFns [c] q) {junk : Nat → Nat} {tid : Nat} {np : Bool}
    {ops : List POp} {f : List Byte} {ck : Checkpoint} {G : ExtsP} (ht : tid < 2 ^ 32) (hc : pSize exFns c ≤ 68)
    (h : RunExtsP Config.default exEntries exFns ck ⟨f, []⟩
      (.batch junk [c] (q ++ more) (pSize exFns c) tid np :: .flush :: ops) G) :
    ∃ f' G', G = (np, [(tid, ck, c)]) :: G' ∧ RunExtsP Config.default exEntries exFns ck ⟨f', []⟩ ops G' := by
  have hsm : ∀ x ∈ [c], pSize exFns x < Config.default.staging / 2 := by
    intro x hx
    rw [List.mem_singleton.1 hx]
    have : (68 : Nat) < Config.default.staging / 2 := by decide
    omega
  have hsz : pSizes exFns [c] = pSize exFns c := by simp [pSizes]
  have hout : (2 : Nat) ^ 20 ≤ Config.default.output := by decide
  obtain ⟨st', n, p1, p2⟩ := C50_progress Config.default exEntries exFns f junk more hq np (nbytes := pSize exFns c)
    ht (Nat.le_of_eq hsz.symm) hsm (Nat.le_refl _) (by omega)
  have hpos : 0 < pSize exFns c := by
    obtain ⟨fs, ok⟩ := hq.oks c List.mem_cons_self
    obtain ⟨bytes, -, hb, -⟩ := call_facts ok
    omega
  obtain ⟨k', body, k1, k2, k3, k4, k5, -⟩ := encodeLogMsgsP_queue Config.default junk more hq
    Config.default.output (pSize exFns c) tid np ht (by omega) (Nat.le_of_eq hsz.symm) hsm
  obtain ⟨x, xs, hx, -⟩ := extentBytes_head tid np body ht
  have hst : PSt.step Config.default exEntries exFns ⟨f, []⟩ (.batch junk [c] (q ++ more) (pSize exFns c) tid np) =
      some (⟨f, extentBytes tid np body⟩, some (pSizes exFns ([c].take k') : Int)) := by
    rw [PSt.step]; simp [k2]
  cases h with
  | @batch _ _ _ _ _ _ _ st1 _ G k hk hs hw h =>
    rw [p1] at hs
    simp only [Option.some.injEq, Prod.mk.injEq] at hs
    obtain ⟨rfl, rfl⟩ := hs
    have hk1 : k = 1 := by
      cases k with
      | zero => simp [pSizes] at p2; omega
      | succ k => simp at hk; omega
    subst hk1
    cases h with
    | @flush _ st2 n ops G hs h =>
      rw [PSt.step] at hs
      simp only [Option.some.injEq, Prod.mk.injEq] at hs
      obtain ⟨rfl, -⟩ := hs
      exact ⟨_, G, rfl, h⟩
  | skip hs hw h =>
    rw [hst] at hs
    simp only [Option.some.injEq, Prod.mk.injEq] at hs
    obtain ⟨rfl, -⟩ := hs
    simp [hx] at hw

/-- Three extents, the second one, of another thread, with an older message. -/
def exOrdOps (q0 q1 : List Byte) : List POp :=
  [.flush, .batch (fun _ => 0) [exPCall] (q1 ++ [1, 2, 3]) (pSize exFns exPCall) 3 true, .flush,
   .batch (fun n => n) [exPCall0] (q0 ++ [7]) (pSize exFns exPCall0) 70000 false, .flush,
   .batch (fun n => n) [exPCall] q1 (pSize exFns exPCall) 3 true]

/-- Its extents. -/
def exOrdG (c : Checkpoint) : ExtsP :=
  [(true, [(3, c, exPCall)]), (false, [(70000, c, exPCall0)]), (true, [(3, c, exPCall)])]

theorem exOrdered (c : Checkpoint) (b : Bool) : Ordered (stampsOf (exOrdG c)) b :=
  ⟨by unfold Chrono; exact of_decide_eq_true (by rfl), .of_bounded (of_decide_eq_true (by rfl)),
    .of_bounded (of_decide_eq_true (by rfl)) (of_decide_eq_true (by rfl)), fun _ => of_decide_eq_true (by rfl)⟩

theorem exOrdOpsP {q0 q1 : List Byte} (h0 : QueuedP exFns [exPCall0] q0) (h1 : QueuedP exFns [exPCall] q1) :
    OpsP Config.default exEntries exFns none true (.start (fun _ => 0) 0 exTimes :: exOrdOps q0 q1 ++ [.flush]) ∧
    OpsP Config.default exEntries exFns none true (.start (fun n => n) 5 exTimes' :: exOrdOps q0 q1 ++ [.flush]) := by
  have hsz : ∀ c, pSizes exFns [c] = pSize exFns c := by simp [pSizes]
  have hsm0 : ∀ c ∈ [exPCall0], pSize exFns c < Config.default.staging / 2 := by
    intro c hc
    rw [List.mem_singleton.1 hc, exSize.2]; decide
  have hsm1 : ∀ c ∈ [exPCall], pSize exFns c < Config.default.staging / 2 := by
    intro c hc
    rw [List.mem_singleton.1 hc, exSize.1]; decide
  have ha : pSize exFns exPCall ≤ Config.default.staging / 2 := by rw [exSize.1]; decide
  have hb : pSize exFns exPCall0 ≤ Config.default.staging / 2 := by rw [exSize.2]; decide
  have main : ∀ c, OpsP Config.default exEntries exFns (some c) false (exOrdOps q0 q1 ++ [.flush]) := fun c =>
    .flush <| .batch h1 (Nat.le_of_eq (hsz _).symm) (by omega) hsm1 (by decide) <| .flush <|
    .batch h0 (Nat.le_of_eq (hsz _).symm) (by omega) hsm0 (by decide) <| .flush <|
    by simpa using (OpsP.batch (more := []) h1 (Nat.le_of_eq (hsz _).symm) (by omega) hsm1 (by decide) (.flush .nil) :
      OpsP Config.default exEntries exFns (some c) true _)
  exact ⟨.start exTimes_ok.1 (by decide) exFit.1 (main _), .start exTimes_ok.2 (by decide) exFit.2 (main _)⟩

theorem exOrdNo (q0 q1 : List Byte) : ∀ op ∈ exOrdOps q0 q1, ∀ jk j c, op ≠ .start jk j c := by
  intro op h
  simp only [exOrdOps, List.mem_cons, List.not_mem_nil, or_false] at h
  rcases h with rfl | rfl | rfl | rfl | rfl | rfl <;> intros <;> simp

theorem exOrdG_eq {q0 q1 : List Byte} (h0 : QueuedP exFns [exPCall0] q0) (h1 : QueuedP exFns [exPCall] q1)
    {c : Checkpoint} {b : List Byte} {G : ExtsP}
    (h : RunExtsP Config.default exEntries exFns c ⟨[], b⟩ (exOrdOps q0 q1 ++ [.flush]) G) : G = exOrdG c := by
  simp only [exOrdOps, List.cons_append, List.nil_append] at h
  cases h with
  | @flush _ st1 n ops G hs g6 =>
    rw [PSt.step] at hs
    simp only [Option.some.injEq, Prod.mk.injEq] at hs
    obtain ⟨rfl, -⟩ := hs
    obtain ⟨f1, G1, rfl, k1⟩ := exBatch h1 (by decide) (Nat.le_of_eq exSize.1) g6
    obtain ⟨f2, G2, rfl, k2⟩ := exBatch (tid := 70000) h0 (by decide) (by rw [exSize.2]; decide) k1
    have k2' := k2
    rw [← List.append_nil q1] at k2'
    obtain ⟨f3, G3, rfl, k3⟩ := exBatch h1 (by decide) (Nat.le_of_eq exSize.1) k2'
    cases k3
    rfl

theorem exOrdQueued : (∃ q, QueuedP exFns [exPCall0] q) ∧ ∃ q, QueuedP exFns [exPCall] q := by
  obtain ⟨b1, e1, -⟩ := call_facts exPCall_ok.1
  obtain ⟨b0, e0, -⟩ := call_facts exPCall_ok.2
  exact ⟨⟨_, .cons exPCall_ok.2 e0 .nil⟩, ⟨_, .cons exPCall_ok.1 e1 .nil⟩⟩

/-- `C50_ordered_partial` for this execution: the output is chronological, although the file is not. -/
example : ∃ q0 q1 st ns, PSt.run Config.default exEntries exFns ⟨[], []⟩
      (.start (fun _ => 0) 0 exTimes :: exOrdOps q0 q1 ++ [.flush]) = some (st, ns) ∧
    ∀ (raw : List Byte) (bf : BufFrag), 2 * Config.default.output ≤ raw.length →
      ∃ s s' F, openM raw bf st.file = some (true, s) ∧
        s.ordered (Config.default.staging + 9) [] (fun _ => firstMin) = some s' ∧
        s'.mode = .done ∧ s'.good = true ∧ ShowsExts exStmts (exOrdG exTimes) F ∧
        Merge (F.map Prod.snd) s'.out ∧ Chrono s'.out := by
  obtain ⟨⟨q0, h0⟩, q1, h1⟩ := exOrdQueued
  obtain ⟨st, ns, b, G, g1, -, -, -, g5, g6⟩ := C50_ordered_partial exStmts_ok exProgram Config.default (by decide)
    (by decide) (exOrdOpsP h0 h1).1 (exOrdNo q0 q1)
  obtain rfl := exOrdG_eq h0 h1 g5
  refine ⟨q0, q1, st, ns, g1, fun raw bf hraw => ?_⟩
  obtain ⟨s, s', F, r1, r2, r3, r4, r5, r6, r7⟩ := g6 raw bf [] _ hraw (by simp) firstMin_picks
  exact ⟨s, s', F, r1, r2, r3, r4, r5, r6, r7 (exOrdered _ _)⟩

/-- `C50_ordered_many_partial` for two executions. -/
example : ∃ file, ExecFiles Config.default exEntries exFns file [exOrdG exTimes, exOrdG exTimes'] ∧
    Ordered (stampsOf (exOrdG exTimes)) true ∧ Ordered (stampsOf (exOrdG exTimes')) false := by
  obtain ⟨⟨q0, h0⟩, q1, h1⟩ := exOrdQueued
  obtain ⟨o1, o2⟩ := exOrdOpsP h0 h1
  obtain ⟨st, ns, b, G, g1, -, -, g4, g5, -⟩ := C50_ordered_partial exStmts_ok exProgram Config.default (by decide)
    (by decide) o1 (exOrdNo q0 q1)
  obtain ⟨st', ns', b', G', g1', -, -, g4', g5', -⟩ := C50_ordered_partial exStmts_ok exProgram Config.default
    (by decide) (by decide) o2 (exOrdNo q0 q1)
  obtain rfl := exOrdG_eq h0 h1 g5
  obtain rfl := exOrdG_eq h0 h1 g5'
  exact ⟨_, .cons ⟨_, _, _, _, _, _, _, o1, g1, rfl, g4, g5⟩
    (.cons ⟨_, _, _, _, _, _, _, o2, g1', rfl, g4', g5'⟩ .nil), exOrdered _ _, exOrdered _ _⟩

end NanoLog
