import Verif.OrderedFile

/-!
# Theorems about ordered decompression: C25, C26, and the ordered parts of C27 and C29

All theorems hold for every oracle `pick` that chooses among fragments with the smallest time
stamp (see `Verif/Ordered.lean`).
-/

namespace NanoLog

/-! ## Lemmas -/

theorem pool_bound (pool : List BufFrag) : ∃ T, ∀ bf ∈ pool, bf.ts ≤ T := by
  induction pool with
  | nil => exact ⟨0, by simp⟩
  | cons b l ih =>
    obtain ⟨T, h⟩ := ih
    refine ⟨T + b.ts, fun bf hb => ?_⟩
    rcases List.mem_cons.1 hb with rfl | hb
    · omega
    · have := h bf hb; omega

/-- Opening the file and decompressing the first execution. -/
theorem first_run {cfg c all ops st ns ms F} (h : FileRun cfg c all ops st ns ms)
    (hF : ExecExts cfg c all ops F) {pick : Nat → List BufFrag → Nat} (hp : Picks pick)
    {file : List Byte} (ht : TailOK file) {pool : List BufFrag} {T : Nat}
    (hpool : ∀ bf ∈ pool, bf.stor.length = cfg.staging + 9 ∧ bf.ts ≤ T)
    (hJ : file ≠ [] → ∃ L, ASt.J L ⟨[], [], F, T, .fill⟩) (s0 : Dec) :
    ∃ s o s1 T', s0.openFile (st.contents ++ file) = some (true, s) ∧
      ARun ⟨[], [], F, T, .fill⟩ o ∧ OStar (cfg.staging + 9) pick (s.startOrdered pool) s1 ∧
      s1.out = o ∧ Sim (cfg.staging + 9) c file s1 ⟨[], [], [], T', .fin⟩ := by
  obtain ⟨jk, bs, -, h2, h3, h4⟩ := h.body' hF
  have ho : s0.openFile (st.contents ++ file) =
      some (true, { s0 with file := ⟨bs ++ file, false⟩, good := true, ck := c
                            dict := Dict.empty, out := [] }) := by
    rw [h3, List.append_assoc, Dec.openFile, readDictionary_ok h2]
  obtain ⟨s1, q1, q2, q3⟩ := sim_open (pick := pick) hp (h4 file)
    { s0 with file := ⟨bs ++ file, false⟩, good := true, ck := c, dict := Dict.empty, out := [] }
    rfl rfl rfl rfl hpool
  obtain ⟨o, s2, T', r1, r2, r3, r4⟩ := sim_run (pick := pick) hp ht _ (Nat.le_refl _) q3 hJ
  exact ⟨_, o, s2, T', ho, r1, q1.star.trans r2, by rw [r3, q2]; simp, r4⟩

theorem room_of_stor {cap : Nat} {pool : List BufFrag} (h : ∀ bf ∈ pool, bf.stor.length = cap) :
    ∀ bf ∈ pool, bf.room ≤ cap + 5 := by
  intro bf hbf; have := h bf hbf; unfold BufFrag.room; omega

/-- The whole file. -/
theorem ordered_all {cfg : Config} {pick : Nat → List BufFrag → Nat} (hp : Picks pick)
    {c all ops st ns ms F} (h : FileRun cfg c all ops st ns ms) (hF : ExecExts cfg c all ops F)
    {file : List Byte} {Fs : List Exts} (ht : Execs cfg file Fs) (ho : ∀ F ∈ Fs, Ordered F false)
    {pool : List BufFrag} {T : Nat}
    (hpool : ∀ bf ∈ pool, bf.stor.length = cfg.staging + 9 ∧ bf.ts ≤ T)
    (hJ : file ≠ [] → ∃ L, ASt.J L ⟨[], [], F, T, .fill⟩) (s0 : Dec) :
    ∃ s s' o o', s0.openFile (st.contents ++ file) = some (true, s) ∧
      s.ordered (cfg.staging + 9) pool pick = some s' ∧ s'.mode = .done ∧ s'.good = true ∧
      s'.out = o ++ o' ∧ ARun ⟨[], [], F, T, .fill⟩ o ∧ PrintsAll Fs o' := by
  obtain ⟨s, o, s1, T', r1, r2, r3, r4, r5⟩ := first_run h hF hp ht.tailOK hpool hJ s0
  obtain ⟨o', s2, g1, g2, g3, g4, g5⟩ := execs_run (pick := pick) hp ht ho r5
  exact ⟨s, s2, o, o', r1,
    OStar.done hp (room_of_stor fun bf hbf => (hpool bf hbf).1) (r3.trans g1) g3, g3, g4,
    by rw [g2, r4], r2, g5⟩

/-! ## C25 Ordered decompression neither loses nor duplicates messages -/

/-- **C25** for files with one execution, whatever the time stamps and pass flags (any number
of threads, extents, messages; `pool` are fragments left by earlier decompressions): ordered
decompression ends normally and what it prints is an interleaving of the extents, each in its
own order; in particular each message of the run exactly once.
Missing for the full property: files with several executions, for which it is false
(`C25_appended_false`); `C27_ordered_partial` states when it holds for them. -/
theorem C25_ordered_partial {cfg c all ops st ns ms} (h : FileRun cfg c all ops st ns ms)
    (hno : ∀ op ∈ ops.tail, ∀ jk c all, op ≠ .start jk c all)
    {pick : Nat → List BufFrag → Nat} (hp : Picks pick)
    {pool : List BufFrag} (hpool : ∀ bf ∈ pool, bf.stor.length = cfg.staging + 9) (s0 : Dec) :
    ∃ s s' F, s0.openFile st.contents = some (true, s) ∧
      s.ordered (cfg.staging + 9) pool pick = some s' ∧ s'.mode = .done ∧ s'.good = true ∧
      ExecExts cfg c all ops F ∧ Merge (F.map Prod.snd) s'.out ∧ s'.out.Perm ms := by
  obtain ⟨jk, bs, F, hF, hfl, -⟩ := h.body hno
  obtain ⟨T, hT⟩ := pool_bound pool
  obtain ⟨s, s', o, o', r1, r2, r3, r4, r5, r6, r7⟩ := ordered_all (pick := pick) hp h hF (.nil)
    (by simp) (fun bf hbf => ⟨hpool bf hbf, hT bf hbf⟩) (fun h => absurd rfl h) s0
  cases r7
  rw [List.append_nil] at r1 r5
  have hm : Merge (F.map Prod.snd) s'.out := by
    rw [r5]; have := r6.merge (by simp); simpa [ASt.pend] using this
  exact ⟨s, s', F, r1, r2, r3, r4, hF, hm, by rw [← hfl]; exact hm.perm⟩

/-! ## Concrete logs

A log of calls `NANO_LOG(NOTICE, "x=%d\n", 5)` of one thread, given by the pass flags and time
stamps of its extents. -/

/-- A call at time `t`. -/
def exTsCall (t : Nat) : LogCall := ⟨0, t, [.int .i32 5]⟩

/-- What it must print. -/
def exTsMsg (ck : Checkpoint) (t : Nat) : OutMsg :=
  ⟨1, 0, t, ck, [97, 46, 99, 99], 7, 3, [⟨[120, 61, 37, 100, 10], none, none, some (.scalar (.int 5))⟩]⟩

/-- One batch. -/
def exTsBatch (g : Bool × List Nat) : EncOp :=
  .batch (fun _ => 0) (g.2.map exTsCall) (queueBytes exSites (g.2.map exTsCall))
    (queueSize exSites (g.2.map exTsCall)) 1 g.1

/-- The operations. -/
def exTsOps (ck : Checkpoint) (gs : List (Bool × List Nat)) : List EncOp :=
  .start 0 ck exSites :: .dict 2 :: gs.map exTsBatch

/-- The extents. -/
def exTsExts (ck : Checkpoint) (gs : List (Bool × List Nat)) : Exts :=
  gs.map fun g => (g.1, g.2.map (exTsMsg ck))

theorem exTsQueue (ts : List Nat) : queueSize exSites (ts.map exTsCall) = 20 * ts.length := by
  induction ts with
  | nil => rfl
  | cons t ts ih =>
    have : callSize exSites (exTsCall t) = 20 := rfl
    simp only [queueSize, List.map_cons, List.sum_cons, List.length_cons] at ih ⊢
    omega

theorem exTsBatch_ok {ck : Checkpoint} {ts : List Nat} (h1 : ts.length ≤ 6)
    (h2 : ∀ t ∈ ts, t < 2 ^ 64) :
    BatchOK exCfg exSites 1 ck (ts.map exTsCall) (queueBytes exSites (ts.map exTsCall))
      (queueSize exSites (ts.map exTsCall)) (ts.map (exTsMsg ck)) where
  mem := ⟨[], by simp⟩
  prints := by
    clear h1
    induction ts with
    | nil => exact .nil
    | cons t ts ih =>
      exact .cons (exCall_int 5 (by decide) t (h2 t (by simp)) 1 ck)
        (ih fun t ht => h2 t (by simp [ht]))
  limit := Nat.le_refl _
  half := by rw [exTsQueue]; show _ ≤ 128; omega
  small := by
    intro c hc
    obtain ⟨t, -, rfl⟩ := List.mem_map.1 hc
    show 20 < 128
    decide
  tid := by decide

/-- Extents small enough for `exCfg`. -/
def ExTs (gs : List (Bool × List Nat)) : Prop := ∀ g ∈ gs, g.2.length ≤ 6 ∧ ∀ t ∈ g.2, t < 2 ^ 64

instance exTsDec (gs : List (Bool × List Nat)) : Decidable (ExTs gs) := by
  unfold ExTs; infer_instance

theorem exTsRun {ck : Checkpoint} (hc : ck.Plain) {gs : List (Bool × List Nat)} (hg : ExTs gs) :
    ∃ st ns ms, FileRun exCfg ck exSites (exTsOps ck gs) st ns ms := by
  refine C18_run_exists _ ⟨by decide, by decide, by decide⟩ _ _ _ _
    (.start hc exSites_ok (by decide) (.dict ?_)) ?_
  · induction gs with
    | nil => exact .nil
    | cons g gs ih =>
      have := hg g (by simp)
      exact .batch (exTsBatch_ok this.1 this.2) (ih fun g h => hg g (by simp [h]))
  · simp only [FlushedStarts, true_and]
    clear hg
    induction gs with
    | nil => trivial
    | cons g gs ih => exact ih

/-- Every batch writes one extent with all its messages (checked by computation). -/
def exTsAll : EncSt → List (Bool × List Nat) → Bool
  | _, [] => true
  | st, g :: gs =>
    match st.step exCfg (exTsBatch g) with
    | some (st1, some n) =>
      decide (n = (20 * g.2.length : Nat)) && decide (st1.buf ≠ st.buf) && exTsAll st1 gs
    | _ => false

/-- The same from the start of the run. -/
def exTsStart (ck : Checkpoint) (gs : List (Bool × List Nat)) : Bool :=
  match EncSt.init.step exCfg (.start 0 ck exSites) with
  | some (st1, _) =>
    match st1.step exCfg (.dict 2) with
    | some (st2, _) => decide (st2.all = exSites) && exTsAll st2 gs
    | none => false
  | none => false

theorem exTsRunExts {ck : Checkpoint} {gs : List (Bool × List Nat)} (hg : ExTs gs) {st : EncSt}
    (ha : st.all = exSites) (h : exTsAll st gs = true) :
    RunExts exCfg ck st (gs.map exTsBatch) (exTsExts ck gs) := by
  induction gs generalizing st with
  | nil => exact .nil
  | cons g gs ih =>
    unfold exTsAll at h
    split at h
    · rename_i st1 n hs
      simp only [Bool.and_eq_true, decide_eq_true_eq] at h
      obtain ⟨⟨hn, hw⟩, hr⟩ := h
      have h1 := hg g (by simp)
      have hr := ih (fun g h => hg g (by simp [h])) (by rw [EncSt.step_all hs (by simp [exTsBatch]), ha]) hr
      have hq : ((queueSize st.all ((g.2.map exTsCall).take (g.2.map exTsCall).length) : Nat) : Int) = n := by
        rw [ha, List.take_length, exTsQueue, ← hn]
      have := RunExts.batch (cfg := exCfg) (ck := ck) (k := (g.2.map exTsCall).length)
        (by rw [ha]; exact exTsBatch_ok (ck := ck) h1.1 h1.2) (Nat.le_refl _)
        (by rw [hq]; exact hs) hw hr
      rw [List.length_map, ← List.length_map (as := g.2) (f := exTsMsg ck), List.take_length] at this
      exact this
    · simp at h

theorem exTsExecExts {ck : Checkpoint} {gs : List (Bool × List Nat)} (hg : ExTs gs)
    (h : exTsStart ck gs = true) : ExecExts exCfg ck exSites (exTsOps ck gs) (exTsExts ck gs) := by
  unfold exTsStart at h
  split at h
  · rename_i st1 n hs
    split at h
    · rename_i st2 n2 hs2
      simp only [Bool.and_eq_true, decide_eq_true_eq] at h
      exact ⟨0, _, st1, n, rfl, hs, .dict hs2 (exTsRunExts hg h.1 h.2)⟩
    · simp at h
  · simp at h

/-- Position of the first smallest element. -/
def firstMin : List BufFrag → Nat
  | [] => 0
  | b :: l => if ∀ x ∈ l, b.ts ≤ x.ts then 0 else firstMin l + 1

theorem firstMin_picks : Picks fun _ => firstMin := by
  intro _ l
  induction l with
  | nil => simp
  | cons b l ih =>
    intro _
    simp only [firstMin]
    split
    · rename_i h
      exact ⟨b, rfl, by simpa using h⟩
    · rename_i h
      have hne : l ≠ [] := by rintro rfl; simp at h
      obtain ⟨bf, h1, h2⟩ := ih hne
      refine ⟨bf, by simpa using h1, fun x hx => ?_⟩
      rcases List.mem_cons.1 hx with rfl | hx
      · simp only [not_forall, Nat.not_le] at h
        obtain ⟨y, hy, hlt⟩ := h
        have := h2 y hy; omega
      · exact h2 x hx

/-- Three extents, out of order. -/
def exGs : List (Bool × List Nat) := [(true, [30, 31]), (false, [10, 12]), (true, [11, 40])]

/-- `C25_ordered_partial` applies to a run with six messages, out of order. -/
example : ∃ st ns ms, FileRun exCfg exCk exSites (exTsOps exCk exGs) st ns ms ∧
    (∀ op ∈ (exTsOps exCk exGs).tail, ∀ jk c all, op ≠ .start jk c all) ∧
    (Picks fun _ => firstMin) ∧ ms.length = 6 := by
  obtain ⟨st, ns, ms, h⟩ := exTsRun exCk_plain (by decide : ExTs exGs)
  have hF := exTsExecExts (ck := exCk) (by decide : ExTs exGs) (by decide +kernel)
  obtain ⟨jk, bs, hfl, -⟩ := h.body' hF
  refine ⟨st, ns, ms, h, ?_, firstMin_picks, by rw [← hfl]; rfl⟩
  obtain ⟨jk, ops', st1, n, e, -, hr⟩ := hF
  rw [e]
  exact hr.noStart

/-! ## C26 Ordered decompression is chronological -/

theorem Apart.of_bounded {n : Nat} {gs : List (List OutMsg)}
    (h : ∀ i < gs.length, ∀ j < gs.length, i + n ≤ j →
      ∀ x ∈ gs.getD i [], ∀ y ∈ gs.getD j [], x.ts ≤ y.ts) : Apart n gs := by
  intro i j x y gi gj hij hi hj hx hy
  have hi' := (List.getElem?_eq_some_iff.1 hi).1
  have hj' := (List.getElem?_eq_some_iff.1 hj).1
  exact h i hi' j hj' hij x (by simpa [List.getD, hi] using hx) y (by simpa [List.getD, hj] using hy)

theorem Progress.of_bounded {gs : List (List OutMsg)} (h1 : ∀ g ∈ gs, g ≠ [])
    (h : ∀ i < gs.length, i + 1 < gs.length →
      ∀ x ∈ gs.getD i [], ∃ y ∈ gs.getD (i + 1) [], x.ts ≤ y.ts) : Progress gs := by
  refine ⟨h1, fun i x gi gj hi hj hx => ?_⟩
  have hi' := (List.getElem?_eq_some_iff.1 hi).1
  have hj' := (List.getElem?_eq_some_iff.1 hj).1
  simpa [List.getD, hj] using h i hi' hj' x (by simpa [List.getD, hi] using hx)

/-- The log of `C26_false`. -/
def exBadGs : List (Bool × List Nat) :=
  [(true, [10]), (true, [5]), (true, [6]), (true, [20, 30]), (true, [15])]

/-- The times printed by ordered decompression of a file by a new decoder. -/
def orderedTimes (cfg : Config) (file : List Byte) : Option (List Nat) :=
  match (Dec.new (cfg.staging + 9)).openFile file with
  | some (true, s) =>
    match s.ordered (cfg.staging + 9) [] (fun _ => firstMin) with
    | some s' => if s'.mode = .done then some (s'.out.map OutMsg.ts) else none
    | none => none
  | _ => none

theorem orderedTimes_some {cfg : Config} {file : List Byte} {ts : List Nat}
    (h : orderedTimes cfg file = some ts) :
    ∃ s s', (Dec.new (cfg.staging + 9)).openFile file = some (true, s) ∧
      s.ordered (cfg.staging + 9) [] (fun _ => firstMin) = some s' ∧ s'.mode = .done ∧
      s'.out.map OutMsg.ts = ts := by
  unfold orderedTimes at h
  split at h
  · rename_i s h1
    split at h
    · rename_i s' h2
      split at h
      · rename_i h3
        exact ⟨s, s', h1, h2, h3, by simpa using h⟩
      · simp at h
    · simp at h
  · simp at h

theorem Chrono.times {ms : List OutMsg} (h : Chrono ms) : (ms.map OutMsg.ts).Pairwise (· ≤ ·) :=
  List.pairwise_map.2 h

/-- **C26 is false of the code.**  In this log the messages of each extent are in time order
and messages three passes (and also: three of the decoder's stages) apart are in time order,
but the message of time 20 is printed before the one of time 15: extents (each the first of a
new pass) with the times 10; 5; 6; 20, 30; 15.  When the first three stages are merged, all of
5, 6, 10 are printed; only the last of these empties the first stage, so that only one stage
is refilled although all three are empty.  Therefore 20 is printed before the extent with 15
is read. -/
theorem C26_false :
    ∃ cfg c all ops st ns ms F pick s s', FileRun cfg c all ops st ns ms ∧
      ExecExts cfg c all ops F ∧ (∀ e ∈ F, Chrono e.2) ∧ Apart 3 (passesOf [] F) ∧
      Apart 3 (stagesOf [] F) ∧ Picks pick ∧
      (Dec.new (cfg.staging + 9)).openFile st.contents = some (true, s) ∧
      s.ordered (cfg.staging + 9) [] pick = some s' ∧ s'.mode = .done ∧ ¬ Chrono s'.out := by
  obtain ⟨st, ns, ms, h⟩ := exTsRun exCk_plain (by decide : ExTs exBadGs)
  have hF := exTsExecExts (ck := exCk) (by decide : ExTs exBadGs) (by decide +kernel)
  have hc : ((EncSt.init.run exCfg (exTsOps exCk exBadGs)).map fun x =>
      orderedTimes exCfg x.1.contents) = some (some [5, 6, 10, 20, 15, 30]) := by decide +kernel
  rw [h.run] at hc
  simp only [Option.map_some, Option.some.injEq] at hc
  obtain ⟨s, s', h1, h2, h3, h4⟩ := orderedTimes_some hc
  refine ⟨_, _, _, _, st, ns, ms, _, _, s, s', h, hF, ?_, .of_bounded ?_, .of_bounded ?_,
    firstMin_picks, h1, h2, h3, fun hc => ?_⟩
  · unfold Chrono; decide +kernel
  · decide +kernel
  · decide +kernel
  · have := hc.times
    rw [h4] at this
    revert this; decide

theorem passesOf_zero (acc : List OutMsg) (F : Exts) :
    ∃ p, (passesOf acc F)[0]? = some p ∧ ∀ x ∈ acc, x ∈ p := by
  induction F generalizing acc with
  | nil => exact ⟨acc, rfl, fun _ h => h⟩
  | cons e F ih =>
    obtain ⟨np, ms⟩ := e
    cases np with
    | true => exact ⟨acc, rfl, fun _ h => h⟩
    | false =>
      obtain ⟨p, h1, h2⟩ := ih (acc ++ ms)
      exact ⟨p, h1, fun x hx => h2 x (by simp [hx])⟩

theorem stage_in_pass (F : Exts) (acc : List (List OutMsg)) (acc' : List OutMsg)
    (ha : ∀ x ∈ acc.flatten, x ∈ acc') (j : Nat) (g : List OutMsg) (x : OutMsg)
    (hg : (stagesOf acc F)[j]? = some g) (hx : x ∈ g) :
    ∃ k p, (k = j ∨ k = j + 1) ∧ (passesOf acc' F)[k]? = some p ∧ x ∈ p := by
  induction F generalizing acc acc' j with
  | nil =>
    simp only [stagesOf] at hg
    split at hg
    · simp at hg
    · cases j with
      | zero =>
        simp only [List.getElem?_cons_zero, Option.some.injEq] at hg
        subst hg
        exact ⟨0, acc', .inl rfl, rfl, ha x hx⟩
      | succ j => simp at hg
  | cons e F ih =>
    obtain ⟨np, ms⟩ := e
    cases np with
    | true =>
      simp only [stagesOf, passesOf, if_true] at hg ⊢
      cases j with
      | zero =>
        simp only [List.getElem?_cons_zero, Option.some.injEq] at hg
        subst hg
        simp only [List.flatten_append, List.flatten_cons, List.flatten_nil, List.append_nil,
          List.mem_append] at hx
        rcases hx with hx | hx
        · exact ⟨0, acc', .inl rfl, rfl, ha x hx⟩
        · obtain ⟨p, h1, h2⟩ := passesOf_zero ms F
          exact ⟨1, p, .inr rfl, by simpa using h1, h2 x hx⟩
      | succ j =>
        simp only [List.getElem?_cons_succ] at hg
        obtain ⟨k, p, h1, h2, h3⟩ := ih [] ms (by simp) j hg
        exact ⟨k + 1, p, by omega, by simpa using h2, h3⟩
    | false =>
      simp only [stagesOf, passesOf, Bool.false_eq_true, if_false] at hg ⊢
      exact ih (acc ++ [ms]) (acc' ++ ms) (by
        intro x hx
        simp only [List.flatten_append, List.flatten_cons, List.flatten_nil, List.append_nil,
          List.mem_append] at hx ⊢
        exact hx.imp (ha x) id) j hg

/-- If messages two passes apart are in time order, so are those three stages apart (a stage
takes the first extent of the next pass). -/
theorem apart_stages {F : Exts} (h : Apart 2 (passesOf [] F)) : Apart 3 (stagesOf [] F) := by
  intro i j x y gi gj hij hi hj hx hy
  obtain ⟨k1, p1, a1, b1, c1⟩ := stage_in_pass F [] [] (by simp) i gi x hi hx
  obtain ⟨k2, p2, a2, b2, c2⟩ := stage_in_pass F [] [] (by simp) j gj y hj hy
  exact h k1 k2 x y p1 p2 (by omega) b1 b2 c1 c2

/-- **C26** under two further conditions: the messages of each extent are in time order,
messages three stages apart are in time order (implied by: two passes apart, `apart_stages`;
a stage is what the decoder takes for a pass), and `Progress`: every stage has messages and
its last message is not older than the last one of the preceding stage.  Then ordered
decompression prints all messages of an execution in time order.  `pool`: a new decoder, or
any decoder if there are no empty extents.
Missing: `C26_false` shows that the code does not have the property without `Progress`. -/
theorem C26_chronological_partial {cfg c all ops st ns ms F}
    (h : FileRun cfg c all ops st ns ms) (hF : ExecExts cfg c all ops F)
    (hc : ∀ e ∈ F, Chrono e.2) (ha : Apart 3 (stagesOf [] F)) (hpr : Progress (stagesOf [] F))
    {pick : Nat → List BufFrag → Nat} (hp : Picks pick) {pool : List BufFrag}
    (hpool : ∀ bf ∈ pool, bf.stor.length = cfg.staging + 9)
    (hempty : pool = [] ∨ ∀ e ∈ F, e.2 ≠ []) (s0 : Dec) :
    ∃ s s', s0.openFile st.contents = some (true, s) ∧
      s.ordered (cfg.staging + 9) pool pick = some s' ∧ s'.mode = .done ∧ s'.good = true ∧
      s'.out.Perm ms ∧ Chrono s'.out := by
  obtain ⟨jk, bs, hfl, -⟩ := h.body' hF
  obtain ⟨T, hT, hT0⟩ : ∃ T, (∀ bf ∈ pool, bf.ts ≤ T) ∧ ((∃ e ∈ F, e.2 = []) → T = 0) := by
    rcases hempty with rfl | he
    · exact ⟨0, by simp, fun _ => rfl⟩
    · obtain ⟨T, hT⟩ := pool_bound pool
      exact ⟨T, hT, fun ⟨e, h1, h2⟩ => absurd h2 (he e h1)⟩
  obtain ⟨s, s', o, o', r1, r2, r3, r4, r5, r6, r7⟩ := ordered_all (pick := pick) hp h hF (.nil)
    (by simp) (fun bf hbf => ⟨hpool bf hbf, hT bf hbf⟩) (fun h => absurd rfl h) s0
  cases r7
  rw [List.append_nil] at r1 r5
  have hm : Merge (F.map Prod.snd) s'.out := by
    rw [r5]; have := r6.merge (by simp); simpa [ASt.pend] using this
  exact ⟨s, s', r1, r2, r3, r4, by rw [← hfl]; exact hm.perm, by
    rw [r5]; exact (r6.chrono (.init hc ha hpr hT0)).1⟩

/-- A log with five passes of two or three extents whose messages overlap in time. -/
def exGoodGs : List (Bool × List Nat) :=
  [(true, [10, 30]), (false, [12, 25, 33]), (true, [20, 50]), (false, [11, 48]), (true, [34, 60]),
   (false, [61, 80]), (true, [55, 90]), (false, [91, 95])]

/-- `C26_chronological_partial` applies, in the form with passes. -/
example : ∃ st ns ms F, FileRun exCfg exCk exSites (exTsOps exCk exGoodGs) st ns ms ∧
    ExecExts exCfg exCk exSites (exTsOps exCk exGoodGs) F ∧ (∀ e ∈ F, Chrono e.2) ∧
    Apart 2 (passesOf [] F) ∧ Apart 3 (stagesOf [] F) ∧ Progress (stagesOf [] F) ∧
    (Picks fun _ => firstMin) ∧ (∀ e ∈ F, e.2 ≠ []) ∧ ms.length = 17 := by
  obtain ⟨st, ns, ms, h⟩ := exTsRun exCk_plain (by decide : ExTs exGoodGs)
  have hF := exTsExecExts (ck := exCk) (by decide : ExTs exGoodGs) (by decide +kernel)
  obtain ⟨jk, bs, hfl, -⟩ := h.body' hF
  have ha : Apart 2 (passesOf [] (exTsExts exCk exGoodGs)) := .of_bounded (by decide +kernel)
  exact ⟨st, ns, ms, _, h, hF, by unfold Chrono; decide +kernel, ha, apart_stages ha,
    .of_bounded (by decide +kernel) (by decide +kernel), firstMin_picks, by decide +kernel,
    by rw [← hfl]; rfl⟩

/-! ## C27 Appended executions, ordered decoding -/

/-- **C27, ordered decoding**, for any number of appended executions.  `F`, `Fs` are the
extents of the executions, each message with the static information and checkpoint of its own
execution (`FileRun`, `Prints`).  If each execution satisfies the conditions of
`C26_chronological_partial` (and, behind the first, has no empty extents), ordered
decompression prints the executions one after the other, of each an interleaving of its
extents in time order; so every message exactly once and with its own dictionary.
Missing: without these conditions it is false, `C27_ordered_false`. -/
theorem C27_ordered_partial {cfg c all ops st ns ms F}
    (h : FileRun cfg c all ops st ns ms) (hF : ExecExts cfg c all ops F)
    {file : List Byte} {Fs : List Exts} (ht : Execs cfg file Fs)
    (ho : Ordered F true) (hos : ∀ F ∈ Fs, Ordered F false)
    {pick : Nat → List BufFrag → Nat} (hp : Picks pick) (s0 : Dec) :
    ∃ s s', s0.openFile (st.contents ++ file) = some (true, s) ∧
      s.ordered (cfg.staging + 9) [] pick = some s' ∧ s'.mode = .done ∧ s'.good = true ∧
      PrintsAll (F :: Fs) s'.out ∧ s'.out.Perm (((F :: Fs).flatten.map Prod.snd).flatten) := by
  have hJ : ASt.J 0 ⟨[], [], F, 0, .fill⟩ := .init ho.chrono ho.apart ho.prog fun _ => rfl
  obtain ⟨s, s', o, o', r1, r2, r3, r4, r5, r6, r7⟩ := ordered_all (pick := pick) (pool := [])
    (T := 0) hp h hF ht hos (by simp) (fun _ => ⟨0, hJ⟩) s0
  have hall : PrintsAll (F :: Fs) s'.out := by
    rw [r5]
    refine .cons ?_ (r6.chrono hJ).1 r7
    have := r6.merge (by simp); simpa [ASt.pend] using this
  refine ⟨s, s', r1, r2, r3, r4, hall, ?_⟩
  have : ∀ {Gs : List Exts} {o : List OutMsg}, PrintsAll Gs o →
      o.Perm ((Gs.flatten.map Prod.snd).flatten) := by
    intro Gs o h
    induction h with
    | nil => exact List.Perm.refl _
    | cons hm hc h ih => simpa using hm.perm.append ih
  exact this hall

/-- Another checkpoint. -/
def exCk2 : Checkpoint := { exCk with rdtsc := 77 }

theorem exCk2_plain : exCk2.Plain := ⟨by decide, rfl, rfl⟩

theorem exGood_ordered (ck : Checkpoint) (first : Bool) : Ordered (exTsExts ck exGoodGs) first := by
  refine ⟨?_, .of_bounded ?_, .of_bounded ?_ ?_, fun _ => ?_⟩ <;> simp +decide [exTsExts, exGoodGs,
    Chrono, stagesOf, exTsMsg, Nat.forall_lt_succ_right]

/-- Two executions with different checkpoints. -/
example : ∃ st ns ms st2 ns2 ms2 F F2, FileRun exCfg exCk exSites (exTsOps exCk exGoodGs) st ns ms ∧
    ExecExts exCfg exCk exSites (exTsOps exCk exGoodGs) F ∧
    FileRun exCfg exCk2 exSites (exTsOps exCk2 exGoodGs) st2 ns2 ms2 ∧
    Execs exCfg (st2.contents ++ []) [F2] ∧ Ordered F true ∧ Ordered F2 false := by
  obtain ⟨st, ns, ms, h⟩ := exTsRun exCk_plain (by decide : ExTs exGoodGs)
  obtain ⟨st2, ns2, ms2, h2⟩ := exTsRun exCk2_plain (by decide : ExTs exGoodGs)
  have hF := exTsExecExts (ck := exCk) (by decide : ExTs exGoodGs) (by decide +kernel)
  have hF2 := exTsExecExts (ck := exCk2) (by decide : ExTs exGoodGs) (by decide +kernel)
  exact ⟨st, ns, ms, st2, ns2, ms2, _, _, h, hF, h2, .cons h2 hF2 .nil, exGood_ordered _ _,
    exGood_ordered _ _⟩

/-- The statement of the second execution of `C27_ordered_false`: as `exSite0`, line 8. -/
def exSite8 : Site := ⟨⟨[97, 46, 99, 99], 8, 3, [120, 61, 37, 100, 10]⟩, [.nonString], [.int .i32]⟩

theorem exSite8_supported : exSite8.Supported exItems0 :=
  ⟨exItems0_wf, by decide, by decide, by decide, by decide, by decide, by decide, by decide,
    by decide, by decide, by decide⟩

/-- The first execution of `C27_ordered_false`. -/
def exLateGs : List (Bool × List Nat) := [(true, [10]), (true, [5]), (true, [20])]

/-- The messages printed by ordered decompression of a file by a new decoder. -/
def orderedOut (cfg : Config) (file : List Byte) : Option (List OutMsg) :=
  match (Dec.new (cfg.staging + 9)).openFile file with
  | some (true, s) =>
    match s.ordered (cfg.staging + 9) [] (fun _ => firstMin) with
    | some s' => if s'.mode = .done then some s'.out else none
    | none => none
  | _ => none

theorem orderedOut_some {cfg : Config} {file : List Byte} {o : List OutMsg}
    (h : orderedOut cfg file = some o) :
    ∃ s s', (Dec.new (cfg.staging + 9)).openFile file = some (true, s) ∧
      s.ordered (cfg.staging + 9) [] (fun _ => firstMin) = some s' ∧ s'.mode = .done ∧
      s'.out = o := by
  unfold orderedOut at h
  split at h
  · rename_i s h1
    split at h
    · rename_i s' h2
      split at h
      · rename_i h3
        exact ⟨s, s', h1, h2, h3, by simpa using h⟩
      · simp at h
    · simp at h
  · simp at h

/-- **C27 is false of the code for ordered decoding** (and so is C25, see
`C25_appended_false`).  Of two executions, the second without messages, the last message of
the first is printed with the source line and the clock calibration of the second.  The
extents of the first (each the first of a new pass) have the times 10; 5; 20.  After 5 and 10
are printed, the first stage is the emptied second one while 20 waits in the next; the
checkpoint of the second execution is then read because only the first stage is checked for
remaining messages (runtime/Log.cc:1866). -/
theorem C27_ordered_false :
    ∃ cfg c1 all1 ops1 st1 ns1 ms1 c2 all2 ops2 st2 ns2 pick s s' m,
      FileRun cfg c1 all1 ops1 st1 ns1 ms1 ∧ FileRun cfg c2 all2 ops2 st2 ns2 [] ∧ Picks pick ∧
      (Dec.new (cfg.staging + 9)).openFile (st1.contents ++ st2.contents) = some (true, s) ∧
      s.ordered (cfg.staging + 9) [] pick = some s' ∧ s'.mode = .done ∧
      (∀ x ∈ ms1, x.ck = c1 ∧ x.line = 7) ∧ m ∈ s'.out ∧ m.ck = c2 ∧ m.ck ≠ c1 ∧ m.line = 8 := by
  obtain ⟨st, ns, ms, h⟩ := exTsRun exCk_plain (by decide : ExTs exLateGs)
  have hF := exTsExecExts (ck := exCk) (by decide : ExTs exLateGs) (by decide +kernel)
  obtain ⟨jk, bs, hfl, -⟩ := h.body' hF
  have hS : SitesOK [exSite8] := by
    intro s hs; simp only [List.mem_singleton] at hs; subst hs; exact ⟨_, exSite8_supported⟩
  obtain ⟨st2, ns2, ms2, h2⟩ := C18_run_exists exCfg ⟨by decide, by decide, by decide⟩ 3 exCk2
    [exSite8] [.dict 1] (.start exCk2_plain hS (by decide) (.dict .nil)) (by simp [FlushedStarts])
  have hms2 : ms2 = [] := by
    have := h2.logged
    cases this with | start _ _ _ h => cases h with | dict h => cases h; rfl
  subst hms2
  have hc : ((EncSt.init.run exCfg (exTsOps exCk exLateGs)).bind fun x =>
      (EncSt.init.run exCfg [.start 3 exCk2 [exSite8], .dict 1]).map fun y =>
        (orderedOut exCfg (x.1.contents ++ y.1.contents)).map fun o =>
          decide (∃ m ∈ o, m.ck = exCk2 ∧ m.line = 8)) = some (some true) := by decide +kernel
  rw [h.run] at hc
  simp only [Option.bind_some] at hc
  rw [h2.run] at hc
  simp only [Option.map_some, Option.some.injEq, Option.map_eq_some_iff, decide_eq_true_eq] at hc
  obtain ⟨o, ho, m, hm, hm1, hm2⟩ := hc
  obtain ⟨s, s', q1, q2, q3, q4⟩ := orderedOut_some ho
  refine ⟨_, _, _, _, st, ns, ms, _, _, _, st2, ns2, _, s, s', m, h, h2, firstMin_picks, q1, q2, q3,
    ?_, by rw [q4]; exact hm, hm1, by rw [hm1]; decide, hm2⟩
  rw [← hfl]
  decide +kernel

/-- **C25 is false of the code for appended executions**: what is printed is not a permutation
of the messages. -/
theorem C25_appended_false :
    ∃ cfg c1 all1 ops1 st1 ns1 ms1 c2 all2 ops2 st2 ns2 pick s s',
      FileRun cfg c1 all1 ops1 st1 ns1 ms1 ∧ FileRun cfg c2 all2 ops2 st2 ns2 [] ∧ Picks pick ∧
      (Dec.new (cfg.staging + 9)).openFile (st1.contents ++ st2.contents) = some (true, s) ∧
      s.ordered (cfg.staging + 9) [] pick = some s' ∧ s'.mode = .done ∧ ¬ s'.out.Perm ms1 := by
  obtain ⟨cfg, c1, all1, ops1, st1, ns1, ms1, c2, all2, ops2, st2, ns2, pick, s, s', m, h1, h2, h3,
    h4, h5, h6, h7, h8, -, h9, -⟩ := C27_ordered_false
  refine ⟨cfg, c1, all1, ops1, st1, ns1, ms1, c2, all2, ops2, st2, ns2, pick, s, s', h1, h2, h3, h4,
    h5, h6, fun hp => ?_⟩
  exact h9 (h7 m (hp.mem_iff.1 h8)).1

/-! ## C29 Ordered decompression terminates -/

/-- For every file content, every decoder state and every oracle that picks smallest elements:
any higher bound on the number of steps gives the same result, and the loop ends because its
condition is false (`none`: the program aborted).  Logs of preprocessor
mode: `C29_memory_ordered_partial`; missing for all theorems on C29: generated functions, see `Verif.Props.MemTerm`. -/
theorem C29_ordered_terminates_partial {cap : Nat} {pick : Nat → List BufFrag → Nat}
    (hp : Picks pick) (s : Dec) {pool : List BufFrag} (hpool : ∀ bf ∈ pool, bf.stor.length = cap)
    (k : Nat) :
    OSt.loop cap pick (OSt.fuel cap s.file + k) (s.startOrdered pool) = s.ordered cap pool pick ∧
    ∀ s', s.ordered cap pool pick = some s' → s'.mode = .done :=
  OSt.loop_fuel hp s (room_of_stor hpool) k

/-- There is no infinite execution. -/
theorem C29_no_infinite_ordered_partial {cap : Nat} {pick : Nat → List BufFrag → Nat}
    (hp : Picks pick) (s : Dec) {pool : List BufFrag} (hpool : ∀ bf ∈ pool, bf.stor.length = cap)
    (f : Nat → OSt) (h0 : f 0 = s.startOrdered pool) :
    ¬ ∀ i, (f i).mode ≠ .done ∧ (f i).step cap pick = some (f (i + 1)) := by
  intro h
  have hl : ∀ n i, OSt.loop cap pick n (f i) = some (f (i + n)) := by
    intro n
    induction n with
    | zero => intro i; rfl
    | succ n ih =>
      intro i
      rw [OSt.loop, if_neg (h i).1, (h i).2]
      simp only [ih]
      congr 2; omega
  have h1 := hl (OSt.fuel cap s.file) 0
  rw [h0] at h1
  exact (h _).1 ((OSt.loop_fuel hp s (room_of_stor hpool) 0).2 _ h1)

/-- The hypotheses are met by `firstMin` and a pool with a fragment. -/
example : (Picks fun _ => firstMin) ∧ ∀ bf ∈ [BufFrag.init 300], bf.stor.length = 300 :=
  by
  refine ⟨firstMin_picks, fun bf h => ?_⟩
  rw [List.mem_singleton.1 h]
  exact List.length_replicate ..

end NanoLog
