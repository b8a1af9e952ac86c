import Verif.Props.EndToEnd
import Verif.Props.Damage
import Verif.FileGrowth

/-!
# C79: several processes append to one log file

The log file is opened with `O_APPEND` (runtime/RuntimeLogger.cc:75-76, 641-642; runtime/Config.h:28) and its default name
is fixed (runtime/Config.h:31), so the log of a process usually stands behind those of earlier ones; likewise if `setLogFile` is called
with the name of the file in use.  The decoder is compiled with the same size of staging buffers.
-/

namespace NanoLog

/-! ## Lemmas -/

/-- A part of a file: nothing, or the records of an execution. -/
def PartOf (cap : Nat) (f : List Byte) (ms : List OutMsg) : Prop :=
  ∃ rs, f = recBytes rs ∧ (rs = [] ∨ ∃ jk c rs', rs = .ckpt jk c :: rs') ∧ ∀ ck known, Holds cap ck known rs ms

theorem PartOf.nil (cap : Nat) : PartOf cap [] [] := ⟨[], rfl, .inl rfl, fun _ _ => .nil⟩

theorem PartOf.append {cap : Nat} {f g : List Byte} {ms ms' : List OutMsg} (h : PartOf cap f ms) (h' : PartOf cap g ms') :
    PartOf cap (f ++ g) (ms ++ ms') := by
  obtain ⟨rs, rfl, h1, h2⟩ := h
  obtain ⟨rs', rfl, h3, h4⟩ := h'
  refine ⟨rs ++ rs', (recBytes_append _ _).symm, ?_, fun ck known => (h2 ck known).append (h4 _ _)⟩
  rcases h1 with rfl | ⟨jk, c, rs1, rfl⟩
  · simpa using h3
  · exact .inr ⟨jk, c, rs1 ++ rs', rfl⟩

theorem partOf_holds {cap : Nat} {c : Checkpoint} {jk : Nat} {rs : List Rec} {ms : List OutMsg}
    (h : Holds cap c [] (.ckpt jk c :: rs) ms) : PartOf cap (recBytes (.ckpt jk c :: rs)) ms := by
  refine ⟨_, rfl, .inr ⟨jk, c, rs, rfl⟩, fun ck known => ?_⟩
  cases h with | ckpt hc hj h => exact .ckpt hc hj h

theorem PartOf.decode {cap : Nat} {f : List Byte} {ms : List OutMsg} (h : PartOf cap f ms) : decodeFile cap f = some ms := by
  obtain ⟨rs, rfl, rfl | ⟨jk, c, rs', rfl⟩, h2⟩ := h
  · have h3 := h2 exCk []
    cases h3
    simpa [recBytes] using decodeFile_nil cap
  · exact decodeFile_complete (h2 c [])

/-- The beginning of the log of an execution. -/
def CutOf (cap : Nat) (f : List Byte) : Prop :=
  f = [] ∨ ∃ c jk rs ms n, Holds cap c [] (.ckpt jk c :: rs) ms ∧ n ≤ (recBytes (.ckpt jk c :: rs)).length ∧
    f = (recBytes (.ckpt jk c :: rs)).take n

/-- What stands behind complete logs is decoded as if it were alone. -/
theorem decodeFile_behind {cap : Nat} {f g : List Byte} {ms : List OutMsg} (hf : PartOf cap f ms) (hg : CutOf cap g) :
    ∃ m, decodeFile cap g = some m ∧ decodeFile cap (f ++ g) = some (ms ++ m) := by
  rcases hg with rfl | ⟨c2, jk2, rs2, ms2, n, h2, hn, rfl⟩
  · exact ⟨[], decodeFile_nil _, by simpa using hf.decode⟩
  obtain ⟨rs, rfl, hrs, hall⟩ := hf
  obtain ⟨a2, b2, m, e1, e2, e3, e4⟩ := decodeFile_cut h2 n hn
  refine ⟨m, e4, ?_⟩
  rcases hrs with rfl | ⟨jk, c, rs', rfl⟩
  · have h3 := hall exCk []
    cases h3
    simpa [recBytes] using e4
  have hsec : ∀ ck known, Holds cap ck known (.ckpt jk2 c2 :: rs2) ms2 := by
    intro ck known
    cases h2 with | ckpt hc hj h => exact .ckpt hc hj h
  have hJ : Holds cap c [] (.ckpt jk c :: (rs' ++ .ckpt jk2 c2 :: rs2)) (ms ++ ms2) := (hall c []).append (hsec _ _)
  have hlen : (recBytes (.ckpt jk c :: (rs' ++ .ckpt jk2 c2 :: rs2))).length =
      (recBytes (.ckpt jk c :: rs')).length + (recBytes (.ckpt jk2 c2 :: rs2)).length := by
    rw [← List.cons_append, recBytes_append, List.length_append]
  have htake : recBytes (.ckpt jk c :: rs') ++ (recBytes (.ckpt jk2 c2 :: rs2)).take n =
      (recBytes (.ckpt jk c :: (rs' ++ .ckpt jk2 c2 :: rs2))).take ((recBytes (.ckpt jk c :: rs')).length + n) := by
    rw [← List.cons_append, recBytes_append, List.take_append,
      List.take_of_length_le (l := recBytes (.ckpt jk c :: rs')) (by omega), Nat.add_sub_cancel_left]
  rw [htake]
  -- messages of a prefix of the second log, behind the first
  have hap : ∀ {a b ma}, Rec.ckpt jk2 c2 :: rs2 = a ++ b → Holds cap c2 [] a ma → Holds cap c [] (.ckpt jk c :: rs' ++ a) (ms ++ ma) := by
    intro a b ma hab ha
    refine (hall c []).append ?_
    cases a with
    | nil => cases ha; exact .nil
    | cons r a =>
      simp only [List.cons_append, List.cons.injEq] at hab
      obtain ⟨rfl, -⟩ := hab
      cases ha with | ckpt hc hj h => exact .ckpt hc hj h
  have huniq : ∀ {a m1 m2}, Holds cap c [] a m1 → Holds cap c [] a m2 → m1 = m2 :=
    fun h1 h2 => Holds.unique (by intro s hs; simp at hs) h1 h2
  obtain ⟨A, B, M, f1, f2, f3, f4⟩ := decodeFile_cut hJ ((recBytes (.ckpt jk c :: rs')).length + n) (by omega)
  obtain ⟨M', g1, -, g3⟩ := decodeFile_take hJ ((recBytes (.ckpt jk c :: rs')).length + n) (by omega)
  rw [f4] at g1
  obtain rfl := Option.some.inj g1
  rw [f4]
  have hlow : ms ++ m <+: M := by
    refine g3 (.ckpt jk c :: rs' ++ a2) b2 _ ?_ ?_ (hap e1 e3)
    · rw [List.append_assoc, ← e1, List.cons_append]
    · rw [recBytes_append, List.length_append]; omega
  obtain ⟨m', h3, -, h4⟩ := decodeFile_take h2 n hn
  rw [e4] at h3
  obtain rfl := Option.some.inj h3
  have hup : M <+: ms ++ m := by
    rw [← List.cons_append] at f1
    rcases List.append_eq_append_iff.1 f1 with ⟨z, hz1, hz2⟩ | ⟨z, hz1, hz2⟩
    · -- the cut is in the second log
      subst hz1
      obtain ⟨m1, m2, rfl, k1, k2⟩ := f3.split
      obtain rfl := huniq k1 (hall c [])
      rw [List.prefix_append_right_inj]
      refine h4 z B m2 hz2 ?_ ?_
      · rw [recBytes_append, List.length_append] at f2; omega
      · cases z with
        | nil => cases k2; exact .nil
        | cons r z =>
          simp only [List.cons_append, List.cons.injEq] at hz2
          obtain ⟨rfl, -⟩ := hz2
          cases k2 with | ckpt hc hj h => exact .ckpt hc hj h
    · -- in the first
      have hw := hall c []
      rw [hz1] at hw
      obtain ⟨m1, m2, rfl, k1, -⟩ := hw.split
      obtain rfl := huniq k1 f3
      exact (List.prefix_append _ _).trans (List.prefix_append _ _)
  rw [hlow.eq_of_length_le hup.length_le]

/-- What was found in a part of a file is found whatever is appended, if decompression does not abort. -/
theorem decodeFile_kept {cap : Nat} {f : List Byte} (h : CutOf cap f) (junk : List Byte) {m out : List OutMsg}
    (h1 : decodeFile cap f = some m) (h2 : decodeFile cap (f ++ junk) = some out) : m <+: out := by
  rcases h with rfl | ⟨c, jk, rs, ms, n, hh, hn, rfl⟩
  · rw [decodeFile_nil] at h1; cases h1; exact List.nil_prefix
  obtain ⟨a, b, m1, e1, e2, e3, e4⟩ := decodeFile_cut hh n hn
  rw [e4] at h1
  obtain rfl := Option.some.inj h1
  cases a with
  | nil => cases e3; exact List.nil_prefix
  | cons r a =>
    have e5 := e1
    simp only [List.cons_append, List.cons.injEq] at e5
    obtain ⟨rfl, e5⟩ := e5
    obtain ⟨w, hw⟩ : ∃ w, (recBytes (.ckpt jk c :: rs)).take n = recBytes (.ckpt jk c :: a) ++ w := by
      rw [e1, recBytes_append, List.take_append, List.take_of_length_le e2]
      exact ⟨_, rfl⟩
    rw [hw, List.append_assoc, recBytes_ckpt, List.append_assoc] at h2
    obtain ⟨ho, hh'⟩ := open_ok e3 (Dec.new cap) (recBytes a ++ (w ++ junk))
    rw [decodeFile, ho] at h2
    simp only [Option.map_eq_some_iff, Prod.exists] at h2
    obtain ⟨g, s', h3, rfl⟩ := h2
    unfold Dec.unordered at h3
    split at h3
    · simp at h3
    · rename_i s1 hl
      simp only [Option.some.injEq, Prod.mk.injEq] at h3
      have := unordered_prefix hh' (w ++ junk) _ _ s1 (.inl rfl) (measure_le _) rfl rfl describes_empty
        (by simp [Dec.new, BufFrag.init]) hl
      rw [← h3.2]
      simpa using this

/-- The iterator finds the same in such a file. -/
theorem cutOf_iterate {cap : Nat} {f : List Byte} (h : CutOf cap f) {m : List OutMsg} (h1 : decodeFile cap f = some m) :
    (f.length < 40 ∧ m = []) ∨ ∃ s s', (Dec.new cap).openFile f = some (true, s) ∧
      (∀ k, m.length < k → s.iterate k = some s') ∧ s'.out = m := by
  rcases h with rfl | ⟨c, jk, rs, ms, n, hh, hn, rfl⟩
  · rw [decodeFile_nil] at h1; cases h1; exact .inl ⟨by simp, rfl⟩
  have hplain : c.Plain := by cases hh with | ckpt hc hj h => exact hc
  have h40 : (checkpointBytes jk c).length = 40 := checkpointBytes_length hplain.1
  by_cases hlt : n < 40
  · rw [decodeFile, Dec.openFile, readDictionary_cut _ _ (by rw [List.length_take]; omega)] at h1
    cases h1
    exact .inl ⟨by rw [List.length_take]; omega, rfl⟩
  · rw [recBytes_ckpt, List.length_append] at hn
    have htake : (recBytes (.ckpt jk c :: rs)).take n =
        checkpointBytes jk c ++ (recBytes rs).take (n - 40) := by
      rw [recBytes_ckpt, List.take_append, List.take_of_length_le (by omega), h40]
    obtain ⟨ho, hh⟩ := open_ok hh (Dec.new cap) ((recBytes rs).take (n - 40))
    obtain ⟨a, b, m1, m2, -, -, -, -, ⟨s', u1, u2⟩, s2, i1, i2⟩ := decode_cut hh (n - 40) (by omega)
      { Dec.new cap with
          file := ⟨(recBytes rs).take (n - 40), false⟩
          good := true, ck := c, dict := Dict.empty, out := [], bf := BufFrag.init cap }
      ⟨rfl, rfl, rfl⟩ rfl rfl describes_empty (by simp [BufFrag.init])
    have hm : m1 = m := by
      have hul := u1.loop
      simp only at hul
      rw [decodeFile, htake, ho] at h1
      simp only [Dec.unordered] at h1
      rw [hul] at h1
      simpa [u2] using h1
    subst hm
    refine .inr ⟨_, s2, by rw [htake]; exact ho, fun k hk => ?_, by simpa using i2⟩
    obtain ⟨j, rfl⟩ : ∃ j, k = m1.length + (j + 1) := ⟨k - m1.length - 1, by omega⟩
    exact i1 j

/-- The beginning of a log, behind complete logs. -/
theorem PartOf.cut {cap : Nat} {f g : List Byte} {ms : List OutMsg} (hf : PartOf cap f ms) (hg : CutOf cap g) :
    CutOf cap (f ++ g) := by
  obtain ⟨rs, rfl, hrs, hall⟩ := hf
  rcases hrs with rfl | ⟨jk, c, rs', rfl⟩
  · simpa [recBytes] using hg
  rcases hg with rfl | ⟨c2, jk2, rs2, ms2, n, h2, hn, rfl⟩
  · exact .inr ⟨c, jk, rs', ms, _, hall c [], Nat.le_refl _, by simp⟩
  have hsec : ∀ ck known, Holds cap ck known (.ckpt jk2 c2 :: rs2) ms2 := by
    intro ck known
    cases h2 with | ckpt hc hj h => exact .ckpt hc hj h
  refine .inr ⟨c, jk, rs' ++ .ckpt jk2 c2 :: rs2, ms ++ ms2, (recBytes (.ckpt jk c :: rs')).length + n,
    (hall c []).append (hsec _ _), ?_, ?_⟩
  · rw [← List.cons_append, recBytes_append, List.length_append]; omega
  · rw [← List.cons_append, recBytes_append, List.take_append,
      List.take_of_length_le (l := recBytes (.ckpt jk c :: rs')) (by omega), Nat.add_sub_cancel_left]

/-- Complete logs behind each other. -/
theorem partOf_all {cap : Nat} {fs : List (List Byte)} {mss : List (List OutMsg)}
    (h : List.Forall₂ (PartOf cap) fs mss) :
    PartOf cap fs.flatten mss.flatten ∧ fs.map (decodeFile cap) = mss.map some := by
  induction h with
  | nil => exact ⟨.nil _, rfl⟩
  | cons hab _ ih => exact ⟨by simpa using hab.append ih.1, by simp [hab.decode, ih.2]⟩

section
variable {cfg : Config} {prog : List Site}

/-- The files of the runtime: all but the current one are complete, and this one if nothing is being written. -/
theorem files_parts {s : Rt} (h : FInv cfg prog s) :
    (∃ mss, List.Forall₂ (PartOf (cfg.staging + 9)) (s.closed.map (·.1)) mss) ∧ CutOf (cfg.staging + 9) s.disk ∧
    (s.aio = none → ∃ ms, PartOf (cfg.staging + 9) s.disk ms) := by
  refine ⟨?_, files_cut h s.disk (by simp [Rt.files]), fun ha => ?_⟩
  · have : ∀ l : List (List Byte × List (Nat × LogCall)), (∀ p ∈ l, ClosedFile cfg s.sites s.bids p.1 p.2) →
        ∃ mss, List.Forall₂ (PartOf (cfg.staging + 9)) (l.map (·.1)) mss := by
      intro l hl
      induction l with
      | nil => exact ⟨[], .nil⟩
      | cons p l ih =>
        obtain ⟨mss, h'⟩ := ih fun p hp => hl p (by simp [hp])
        obtain ⟨c, jk, rs, k, ⟨ms, h1, -, -⟩, -, -, he⟩ := hl p (by simp)
        exact ⟨ms :: mss, .cons (by simp only; rw [← he]; exact partOf_holds h1) h'⟩
    exact this _ h.closed
  · obtain ⟨c, jk, rsD, rsO, rsB, rs', k1, k2, ⟨msD, d1, -, -⟩, -, -, ⟨e4, -⟩, -, e6⟩ := h.cur
    rw [ha] at e6
    obtain ⟨rfl, hd⟩ := e6
    rw [hd]
    cases rsD with
    | nil => exact ⟨[], .nil _⟩
    | cons r rsD =>
      simp only [List.append_nil, List.cons_append, List.cons.injEq] at e4
      obtain ⟨rfl, -⟩ := e4
      exact ⟨msD, partOf_holds d1⟩

/-- The data invariant behind an execution over byte-wise staging buffers. -/
theorem CrExec.finv (hP : ProgOK cfg prog) (h0 : 0 < cfg.staging) {ls : List CLbl} {c : Cr} (h : CrExec cfg prog ls c) :
    ∃ s, FInv cfg prog s ∧ s.closed.map (·.1) = c.rt.closed.map (·.1) ∧ s.disk = c.rt.disk ∧ s.aio = c.rt.aio := by
  obtain ⟨s0, als, ⟨G, kls, r, τ, held, hR⟩, -⟩ := h.sim hP h0
  exact ⟨c.rt.over G, (hR.exec.rt.inv hP).2, by rw [← hR.closed]; rfl, rfl, rfl⟩

end

/-! ## Specification -/

/-- A process: its program, what it has done, its state at the end or now (runtime/RuntimeLogger.h:152-154: one logger
per process). -/
structure Proc where
  prog : List Site
  ls : List CLbl
  c : Cr

/-- It is a possible process (with at most 2^32 threads, see C34). -/
def Proc.OK (cfg : Config) (p : Proc) : Prop :=
  ProgOK cfg p.prog ∧ CrExec cfg p.prog p.ls p.c ∧ allocs (calls p.ls) ≤ 2 ^ 32

/-- All that a process has written, with `setLogFile` for the file in use (if any; otherwise there is one file)
(runtime/RuntimeLogger.cc:608-616, 641-668). -/
def Proc.wrote (p : Proc) : List Byte := p.c.rt.files.flatten

/-! ## C79 -/

section
variable {cfg : Config}

theorem procs_parts (h0 : 0 < cfg.staging) {ps : List Proc} (hps : ∀ p ∈ ps, p.OK cfg)
    (hd : ∀ p ∈ ps, p.c.rt.aio = none) :
    ∃ outs, List.Forall₂ (fun (p : Proc) os => p.c.rt.files.map (decodeFile (cfg.staging + 9)) = os.map some) ps outs ∧
      PartOf (cfg.staging + 9) (ps.flatMap Proc.wrote) outs.flatten.flatten := by
  induction ps with
  | nil => exact ⟨[], .nil, .nil _⟩
  | cons p ps ih =>
    obtain ⟨outs, h1, h2⟩ := ih (fun p hp => hps p (by simp [hp])) fun p hp => hd p (by simp [hp])
    obtain ⟨hP, hE, -⟩ := hps p (by simp)
    obtain ⟨s, f1, f2, f3, f4⟩ := hE.finv hP h0
    obtain ⟨⟨mss, g1⟩, -, g2⟩ := files_parts f1
    obtain ⟨ms, g3⟩ := g2 (by rw [f4]; exact hd p (by simp))
    obtain ⟨k1, k2⟩ := partOf_all g1
    rw [f2] at k1 k2
    rw [f3] at g3
    refine ⟨(mss ++ [ms]) :: outs, .cons ?_ h1, ?_⟩
    · rw [Rt.files, List.map_append, k2, List.map_append, List.map_singleton, g3.decode]; rfl
    · simp only [List.flatMap_cons, Proc.wrote, Rt.files, List.flatten_append, List.flatten_cons, List.flatten_nil,
        List.append_nil]
      exact (k1.append g3).append h2

theorem procs_joint (h0 : 0 < cfg.staging) {ps : List Proc} (hps : ∀ p ∈ ps, p.OK cfg)
    (hd : ∀ p ∈ ps.dropLast, p.c.rt.aio = none) :
    ∃ outs, List.Forall₂ (fun (p : Proc) os => p.c.rt.files.map (decodeFile (cfg.staging + 9)) = os.map some) ps outs ∧
      decodeFile (cfg.staging + 9) (ps.flatMap Proc.wrote) = some outs.flatten.flatten ∧
      CutOf (cfg.staging + 9) (ps.flatMap Proc.wrote) := by
  rcases List.eq_nil_or_concat ps with rfl | ⟨qs, p, rfl⟩
  · exact ⟨[], .nil, decodeFile_nil _, .inl rfl⟩
  rw [List.concat_eq_append] at hps hd ⊢
  rw [List.dropLast_concat] at hd
  obtain ⟨outs, h1, h2⟩ := procs_parts h0 (fun p hp => hps p (by simp [hp])) hd
  obtain ⟨hP, hE, -⟩ := hps p (by simp)
  obtain ⟨s, f1, f2, f3, f4⟩ := hE.finv hP h0
  obtain ⟨⟨mss, g1⟩, g2, -⟩ := files_parts f1
  obtain ⟨k1, k2⟩ := partOf_all g1
  rw [f2] at k1 k2
  rw [f3] at g2
  have he : (qs ++ [p]).flatMap Proc.wrote = (qs.flatMap Proc.wrote ++ (p.c.rt.closed.map (·.1)).flatten) ++ p.c.rt.disk := by
    simp [Proc.wrote, Rt.files]
  have hp := h2.append k1
  obtain ⟨m, e1, e2⟩ := decodeFile_behind hp g2
  refine ⟨outs ++ [mss ++ [m]], Forall₂.app h1 (.cons ?_ .nil), ?_, by rw [he]; exact hp.cut g2⟩
  · rw [Rt.files, List.map_append, k2, List.map_append, List.map_singleton, e1]; rfl
  · rw [he, e2]; simp

/-- **C79**: a log file to which any number of processes have appended one after the other, all but the last of them until
nothing was being written any more, the last at any moment of its execution (or killed then).  Its decompression (unordered)
prints what that of their logs in files of their own would print, one after the other. -/
theorem C79_appended (h0 : 0 < cfg.staging) {ps : List Proc} (hps : ∀ p ∈ ps, p.OK cfg)
    (hd : ∀ p ∈ ps.dropLast, p.c.rt.aio = none) :
    ∃ outs, List.Forall₂ (fun (p : Proc) os => p.c.rt.files.map (decodeFile (cfg.staging + 9)) = os.map some) ps outs ∧
      decodeFile (cfg.staging + 9) (ps.flatMap Proc.wrote) = some outs.flatten.flatten := by
  obtain ⟨outs, h1, h2, -⟩ := procs_joint h0 hps hd
  exact ⟨outs, h1, h2⟩

/-- **C79**, in terms of the log statements: process by process, for every thread the messages of the first calls that it
had to record, each once, in call order, with the time stamps taken in these calls, and nothing else. -/
theorem C79_processes (h0 : 0 < cfg.staging) {ps : List Proc} (hps : ∀ p ∈ ps, p.OK cfg)
    (hd : ∀ p ∈ ps.dropLast, p.c.rt.aio = none) :
    ∃ outs : List (List OutMsg), decodeFile (cfg.staging + 9) (ps.flatMap Proc.wrote) = some outs.flatten ∧
      List.Forall₂ (fun (p : Proc) out =>
        (∀ t b, (p.c.rt.thr t).bid = some b → ∃ n,
          List.Forall₂ (MsgOf p.prog b) ((mustRecord p.prog t (calls p.ls)).take n) (out.filter fun m => m.tid == b) ∧
          (out.filter fun m => m.tid == b).map OutMsg.ts = (stamps t (calls p.ls)).take n) ∧
        (∀ m ∈ out, ∃ t, (p.c.rt.thr t).bid = some m.tid) ∧
        (p.c.rt.mem p.c.rt.encPtr = [] → p.c.rt.aio = none → ∀ t b, (p.c.rt.thr t).bid = some b →
          (p.c.sb t).got = (p.c.sb t).pub → ((p.c.rt.thr t).pc = .idle ∨ (p.c.rt.thr t).pc = .exited) →
          List.Forall₂ (MsgOf p.prog b) (mustRecord p.prog t (calls p.ls)) (out.filter fun m => m.tid == b))) ps outs := by
  obtain ⟨outs, h1, h2⟩ := C79_appended h0 hps hd
  refine ⟨outs.map List.flatten, by rw [h2, List.flatten_flatten], ?_⟩
  clear h2 hd
  induction h1 with
  | nil => exact .nil
  | @cons p os ps outs hab _ ih =>
    refine .cons ?_ (ih fun p hp => hps p (by simp [hp]))
    obtain ⟨hP, hE, hn⟩ := hps p (by simp)
    obtain ⟨os', f1, f2, f3⟩ := C66_prefix hP h0 hE hn
    rw [hab] at f1
    obtain rfl := some_inj f1
    refine ⟨f2, f3, fun hw ha => ?_⟩
    obtain ⟨os', g1, g2⟩ := C66_complete hP h0 hE hn hw ha
    rw [hab] at g1
    obtain rfl := some_inj g1
    exact g2

/-- **C79**, iterator: if the file has at least the 40 bytes of a checkpoint, `getNextLogStatement` delivers the same
messages, one per call, and then `false`.  (Otherwise nothing is printed, and the file is not accepted.) -/
theorem C79_iterator (h0 : 0 < cfg.staging) {ps : List Proc} (hps : ∀ p ∈ ps, p.OK cfg)
    (hd : ∀ p ∈ ps.dropLast, p.c.rt.aio = none) {m : List OutMsg}
    (h1 : decodeFile (cfg.staging + 9) (ps.flatMap Proc.wrote) = some m) :
    ((ps.flatMap Proc.wrote).length < 40 ∧ m = []) ∨
    ∃ s s', (Dec.new (cfg.staging + 9)).openFile (ps.flatMap Proc.wrote) = some (true, s) ∧
      (∀ k, m.length < k → s.iterate k = some s') ∧ s'.out = m := by
  obtain ⟨-, -, -, h3⟩ := procs_joint h0 hps hd
  exact cutOf_iterate h3 h1

/-- **C79**, whatever is appended later (by a newer version of the program, by accident, behind a write that was cut
short): what was printed is still printed, first, in the same order, unless decompression aborts. -/
theorem C79_kept_partial (h0 : 0 < cfg.staging) {ps : List Proc} (hps : ∀ p ∈ ps, p.OK cfg)
    (hd : ∀ p ∈ ps.dropLast, p.c.rt.aio = none) (junk : List Byte) {m out : List OutMsg}
    (h1 : decodeFile (cfg.staging + 9) (ps.flatMap Proc.wrote) = some m)
    (h2 : decodeFile (cfg.staging + 9) (ps.flatMap Proc.wrote ++ junk) = some out) : m <+: out := by
  obtain ⟨-, -, -, h3⟩ := procs_joint h0 hps hd
  exact decodeFile_kept h3 junk h1 h2

end

/-! ## Concrete processes -/

/-- Thread 1 logs a message; when `k` bytes of the log (79 bytes) have been written the process is killed. -/
def exKilled (k : Nat) : List CLbl :=
  exCr1 ++ exCrDrain 1 22 ++ exRt [.top, .dict false] ++ exRead 20 ++ exRt [.scanned none, .aio, .write, .disk k]

theorem exKilled_allocs (k : Nat) : allocs (calls (exKilled k)) ≤ 2 ^ 32 := by
  have : allocs (calls (exKilled k)) = 1 := rfl
  omega

theorem exCrB_allocs : allocs (calls exCrB) ≤ 2 ^ 32 := by decide +kernel

/-- Case for `C79_appended`, `C79_processes`, `C79_iterator` and `C79_kept_partial`: two processes; the first has written two messages, the
second is killed before all of its first message is written.  Five bytes of something else follow. -/
example : ∃ (p q : Proc) (m out : List OutMsg), (∀ r ∈ [p, q], r.OK exCfg) ∧
    (∀ r ∈ [p, q].dropLast, r.c.rt.aio = none) ∧ 0 < exCfg.staging ∧ q.c.rt.aio ≠ none ∧
    p.wrote.length = 92 ∧ q.wrote.length = 75 ∧ p.c.rt.mem p.c.rt.encPtr = [] ∧
    decodeFile (exCfg.staging + 9) ([p, q].flatMap Proc.wrote) = some m ∧ m.map OutMsg.ts = [1000, 1010] ∧
    decodeFile (exCfg.staging + 9) ([p, q].flatMap Proc.wrote ++ [0, 0, 0, 0, 0]) = some out ∧ out.length = 3 := by
  obtain ⟨c, h, hp⟩ := exCrExec (ls := exCrB)
    (p := fun c => exCrCheck (exKilled 75) fun d => c.rt.aio == none && d.rt.aio != none &&
      c.rt.files.flatten.length == 92 && d.rt.files.flatten.length == 75 && c.rt.mem c.rt.encPtr == [] &&
      (decodeFile (exCfg.staging + 9) (c.rt.files.flatten ++ d.rt.files.flatten)).map (List.map OutMsg.ts) ==
        some [1000, 1010] &&
      (decodeFile (exCfg.staging + 9) (c.rt.files.flatten ++ d.rt.files.flatten ++ [0, 0, 0, 0, 0])).map List.length ==
        some 3) (by decide +kernel) (by decide +kernel)
  obtain ⟨d, h', hp⟩ := exCrExec (by decide +kernel) hp
  simp only [Bool.and_eq_true, beq_iff_eq, bne_iff_ne, ne_eq, Option.map_eq_some_iff] at hp
  obtain ⟨⟨⟨⟨⟨⟨p1, p2⟩, p3⟩, p4⟩, p5⟩, m, p6, p7⟩, out, p8, p9⟩ := hp
  refine ⟨⟨exSites, exCrB, c⟩, ⟨exSites, exKilled 75, d⟩, m, out, ?_, ?_, by decide, p2, p3, p4, p5, ?_, p7, ?_, p9⟩
  · intro r hr
    simp only [List.mem_cons, List.not_mem_nil, or_false] at hr
    rcases hr with rfl | rfl
    · exact ⟨exProgOK, h, exCrB_allocs⟩
    · exact ⟨exProgOK, h', exKilled_allocs _⟩
  · intro r hr
    simp only [List.dropLast, List.mem_singleton] at hr
    subst hr; exact p1
  · simpa [Proc.wrote] using p6
  · simpa [Proc.wrote] using p8

/-- **C79 is false of the code behind a write that was cut short**: a process is killed when 45 bytes of its log are
written; the next process appends its complete log.  Of the two messages in it none is printed, since the decoder takes the
checkpoint of the second process for the rest of the dictionary of the first (runtime/Log.cc:991-1066). -/
theorem C79_killed_false : ∃ p q : Proc, p.OK exCfg ∧ q.OK exCfg ∧ q.c.rt.aio = none ∧
    (decodeFile (exCfg.staging + 9) q.wrote).map List.length = some 2 ∧
    decodeFile (exCfg.staging + 9) (p.wrote ++ q.wrote) = some [] := by
  obtain ⟨c, h, hp⟩ := exCrExec (ls := exKilled 45)
    (p := fun c => exCrCheck exCrB fun d => d.rt.aio == none &&
      (decodeFile (exCfg.staging + 9) d.rt.files.flatten).map List.length == some 2 &&
      decodeFile (exCfg.staging + 9) (c.rt.files.flatten ++ d.rt.files.flatten) == some []) (by decide +kernel)
      (by decide +kernel)
  obtain ⟨d, h', hp⟩ := exCrExec (by decide +kernel) hp
  simp only [Bool.and_eq_true, beq_iff_eq] at hp
  exact ⟨⟨exSites, _, c⟩, ⟨exSites, _, d⟩, ⟨exProgOK, h, exKilled_allocs _⟩, ⟨exProgOK, h', exCrB_allocs⟩,
    hp.1.1, hp.1.2, hp.2⟩

/-- **C79 is false of the code behind a write that was cut short**, the other way: if 75 bytes are written, in the middle of
an extent, the decoder aborts or misbehaves on the file with both logs, although it accepts each of them alone. -/
theorem C79_abort_false : ∃ p q : Proc, p.OK exCfg ∧ q.OK exCfg ∧ q.c.rt.aio = none ∧
    (decodeFile (exCfg.staging + 9) p.wrote).isSome ∧ (decodeFile (exCfg.staging + 9) q.wrote).map List.length = some 2 ∧
    decodeFile (exCfg.staging + 9) (p.wrote ++ q.wrote) = none := by
  obtain ⟨c, h, hp⟩ := exCrExec (ls := exKilled 75)
    (p := fun c => exCrCheck exCrB fun d => d.rt.aio == none &&
      (decodeFile (exCfg.staging + 9) c.rt.files.flatten).isSome &&
      (decodeFile (exCfg.staging + 9) d.rt.files.flatten).map List.length == some 2 &&
      decodeFile (exCfg.staging + 9) (c.rt.files.flatten ++ d.rt.files.flatten) == none) (by decide +kernel)
      (by decide +kernel)
  obtain ⟨d, h', hp⟩ := exCrExec (by decide +kernel) hp
  simp only [Bool.and_eq_true, beq_iff_eq] at hp
  exact ⟨⟨exSites, _, c⟩, ⟨exSites, _, d⟩, ⟨exProgOK, h, exKilled_allocs _⟩, ⟨exProgOK, h', exCrB_allocs⟩,
    hp.1.1.1, hp.1.1.2, hp.1.2, hp.2⟩

end NanoLog
