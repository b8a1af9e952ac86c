import Verif.Props.Restarts
import Verif.Props.ComposedCut

/-!
# C79: several processes, each of which ends regularly

A process that leaves `main` runs the destructor of `RuntimeLogger` (runtime/RuntimeLogger.cc:109-137, Verif.Props.ComposedDestroy).
Then nothing is being written any more, so the hypothesis of C79 on all processes but the last is met.
-/

namespace NanoLog

/-! ## Specification -/

/-- A process that has ended: its program; what it did before the destructor of the logger, and its state then; the thread
that runs the destructor; what happened during the destructor; and the states when it has begun, before it ends and when it
has ended (runtime/RuntimeLogger.cc:109-137). -/
structure Life where
  prog : List Site
  ls : List CLbl
  c : Cr
  t : Nat
  d1 : Cd
  ls' : List CLbl
  d2 : Cd
  d3 : Cd

/-- It is a possible process, without the cases for which the destructor is known to lose messages (C59_spurious_false,
C80_delete_false; see also C80_no_cut) and with at most 2^32 threads (see C34). -/
def Life.OK (cfg : Config) (p : Life) : Prop :=
  ProgOK cfg p.prog ∧ CrExec cfg p.prog p.ls p.c ∧ (Cd.mk p.c .alive).act cfg p.prog (.destroy p.t) = .ok p.d1 ∧
  p.d1.run cfg p.prog (p.ls'.map .cr) = .ok p.d2 ∧ (∀ l ∈ p.ls', l.OK cfg p.prog) ∧
  p.d2.act cfg p.prog .finish = .ok p.d3 ∧ .rt (.spurious p.t) ∉ p.ls' ∧
  (∀ x ∈ p.d1.cr.trace cfg p.prog p.ls', ¬ CutsPass cfg p.prog x) ∧ allocs (calls (p.ls ++ p.ls')) ≤ 2 ^ 32

/-- All that the process has written (runtime/RuntimeLogger.cc:608-616, 641-668). -/
def Life.wrote (p : Life) : List Byte := p.d3.cr.rt.files.flatten

/-- The same process as one of C79 (runtime/RuntimeLogger.cc:109-137: the destructor begins like `setLogFile`). -/
def Life.proc (p : Life) : Proc := ⟨p.prog, p.ls ++ .rt (.setFile p.t true) :: p.ls', p.d3.cr⟩

section
variable {cfg : Config}

/-- **C79**: a process that has ended regularly is one of those that may be followed by others. -/
theorem C79_regular (h0 : 0 < cfg.staging) {p : Life} (h : p.OK cfg) : p.proc.OK cfg ∧ p.proc.c.rt.aio = none := by
  obtain ⟨prog, ls, c, t, d1, ls', d2, d3⟩ := p
  obtain ⟨hP, hE, hd, hr, hok, hf, -, -, hc⟩ := h
  simp only at hP hE hd hr hok hf hc
  obtain ⟨-, -, -, hE⟩ := cd_exec hE hd hr hok
  obtain ⟨t', -, -, hdead, rfl⟩ := cd_finish hf
  refine ⟨⟨hP, hE, ?_⟩, ?_⟩
  · simp only [Life.proc]
    rw [(calls_setFile (prog := prog) (ls := ls) (ls' := ls') (t := t) 0).2.1]; omega
  · obtain ⟨s0, als, ⟨G, kls, r, τ, held, hR⟩, -⟩ := hE.sim hP h0
    have htg : d2.cr.tgt = none := by
      cases hx : d2.cr.tgt with
      | none => rfl
      | some u =>
        have := (hR.cc.tgt u hx).1
        rw [hdead] at this; cases this
    have hg : (d2.cr.rt.over G).pc = .dead := by
      show G.pc = _
      rw [(hR.cc.none htg).1, hdead]
    exact (hR.exec.inv hP).1.pcAio (.inr (.inr hg))

/-- **C79** for any number of processes that have ended regularly, followed by one at any moment of its execution: the file
is decompressed to the messages of the processes one after the other; those of a process that has ended are, for every
thread, the messages of its first calls, each once, in call order, among them all that had returned, with their stores in
memory, when its destructor began; and nothing else.  What is missing: the conditions in `Life.OK`. -/
theorem C79_ended_partial (h0 : 0 < cfg.staging) {ps : List Life} (hps : ∀ p ∈ ps, p.OK cfg) {q : Proc} (hq : q.OK cfg) :
    ∃ (outs : List (List OutMsg)) (last : List OutMsg),
      decodeFile (cfg.staging + 9) (ps.flatMap Life.wrote ++ q.wrote) = some (outs.flatten ++ last) ∧
      List.Forall₂ (fun (p : Life) out =>
        (∀ u b, (p.d3.cr.rt.thr u).bid = some b → ∃ n, ((p.c.sb u).buf = [] → finished u p.ls ≤ n) ∧
          n ≤ (mustRecord p.prog u (calls (p.ls ++ p.ls'))).length ∧
          List.Forall₂ (MsgOf p.prog b) ((mustRecord p.prog u (calls (p.ls ++ p.ls'))).take n)
            (out.filter fun m => m.tid == b)) ∧
        ∀ m ∈ out, ∃ u, (p.d3.cr.rt.thr u).bid = some m.tid) ps outs ∧
      ∃ os : List (List OutMsg), q.c.rt.files.map (decodeFile (cfg.staging + 9)) = os.map some ∧ last = os.flatten := by
  have hall : ∀ p ∈ ps.map Life.proc ++ [q], p.OK cfg := by
    intro p hp
    rcases List.mem_append.1 hp with hp | hp
    · obtain ⟨l, hl, rfl⟩ := List.mem_map.1 hp
      exact (C79_regular h0 (hps l hl)).1
    · rw [List.mem_singleton.1 hp]; exact hq
  obtain ⟨outs, h1, h2⟩ := C79_appended h0 hall (by
    intro p hp
    rw [List.dropLast_concat] at hp
    obtain ⟨l, hl, rfl⟩ := List.mem_map.1 hp
    exact (C79_regular h0 (hps l hl)).2)
  have hw : (ps.map Life.proc ++ [q]).flatMap Proc.wrote = ps.flatMap Life.wrote ++ q.wrote := by
    simp only [List.flatMap_append, List.flatMap_map, List.flatMap_cons, List.flatMap_nil, List.append_nil]
    rfl
  rw [hw] at h2
  clear hw hall
  suffices ∃ (os1 : List (List (List OutMsg))) (os : List (List OutMsg)), outs = os1 ++ [os] ∧
      q.c.rt.files.map (decodeFile (cfg.staging + 9)) = os.map some ∧
      List.Forall₂ (fun (p : Life) o => p.d3.cr.rt.files.map (decodeFile (cfg.staging + 9)) = o.map some) ps os1 by
    obtain ⟨os1, os, rfl, e1, e2⟩ := this
    refine ⟨os1.map List.flatten, os.flatten, ?_, ?_, os, e1, rfl⟩
    · rw [h2]; simp [List.flatten_flatten]
    · clear h1 h2
      induction e2 with
      | nil => exact .nil
      | @cons p o ps os1 hab _ ih =>
        refine .cons ?_ (ih fun p hp => hps p (by simp [hp]))
        have hp := hps p (by simp)
        obtain ⟨⟨k1, k2, k3⟩, -⟩ := C79_regular h0 hp
        obtain ⟨hP, hE, hd, hr, hok, hf, hs, hnd, hc⟩ := hp
        obtain ⟨o', f1, f2⟩ := cd_decoded_cut hP h0 hE hd hr hok hf hs hnd hc
        obtain ⟨o2, g1, -, g3⟩ := C66_prefix k1 h0 k2 k3
        rw [show p.proc.c = p.d3.cr from rfl] at g1 g3
        rw [hab] at f1 g1
        obtain rfl := some_inj f1
        obtain rfl := some_inj g1
        exact ⟨f2, g3⟩
  clear hps h2
  induction ps generalizing outs with
  | nil =>
    cases h1 with
    | cons hab hn =>
      cases hn
      exact ⟨[], _, rfl, hab, .nil⟩
  | cons p ps ih =>
    simp only [List.map_cons, List.cons_append] at h1
    cases h1 with
    | cons hab hn =>
      obtain ⟨os1, os, rfl, e1, e2⟩ := ih _ hn
      exact ⟨_ :: os1, os, rfl, e1, .cons hab e2⟩

end

/-! ## A concrete case -/

/-- Case for `C79_regular` and `C79_ended_partial`: two runs of a program that logs one message, which is written during the
destructor; then a third process, which is killed when 75 of the 79 bytes of its log are written. -/
example : ∃ (p : Life) (q : Proc), p.OK exCfg ∧ q.OK exCfg ∧ 0 < exCfg.staging ∧ p.c.rt.files = [[]] ∧
    finished 1 p.ls = 1 ∧ (p.c.sb 1).buf = [] ∧ (p.d3.cr.rt.thr 1).bid = some 0 ∧ q.c.rt.aio ≠ none ∧ q.wrote.length = 75 ∧
    (decodeFile (exCfg.staging + 9) ([p, p].flatMap Life.wrote ++ q.wrote)).map (List.map OutMsg.ts) = some [1000, 1000] := by
  obtain ⟨c, d1, d2, d3, d4, h1, h2, h3, h4, h5, h6, hp⟩ := exCdCheck_ok (ls := exCdMain) (ls' := exCdEnd) (ls'' := exCdAfter)
    (t := 3) (p := fun c d3 _ => exCrCheck (exKilled 75) fun d => (c.rt.bufs.length ≤ 1) && (c.sb 1).buf = [] && (d3.cr.rt.thr 1).bid = some 0 &&
      c.rt.files = [[]] && d.rt.aio != none && d.rt.files.flatten.length == 75 &&
      (decodeFile (exCfg.staging + 9) (d3.cr.rt.files.flatten ++ d3.cr.rt.files.flatten ++ d.rt.files.flatten)).map
        (List.map OutMsg.ts) == some [1000, 1000])
    (by decide +kernel) (by decide +kernel) (by decide +kernel)
  obtain ⟨d, h', hp⟩ := exCrExec (by decide +kernel) hp
  simp only [Bool.and_eq_true, decide_eq_true_eq, beq_iff_eq, bne_iff_ne, ne_eq] at hp
  obtain ⟨⟨⟨⟨⟨⟨p7, p1⟩, p2⟩, p3⟩, p4⟩, p5⟩, p6⟩ := hp
  have ha : allocs (calls (exCdMain ++ exCdEnd)) ≤ 2 ^ 32 := by decide +kernel
  have hfin : finished 1 exCdMain = 1 := by decide +kernel
  have hn : exCdEnd.all (fun l => match l with | .rt (.spurious _) | .rt (.push _) => false | _ => true) = true := by
    decide +kernel
  obtain ⟨hact, -⟩ := cd_destroy h2
  have hcut := C80_no_cut (ls' := .rt (.setFile 3 true) :: exCdEnd) exProgOK (by decide) h1 (by
    intro l hl
    rcases List.mem_cons.1 hl with rfl | hl
    · trivial
    · exact h4 l hl) (.inr ⟨p7, fun u hu => by
    rcases List.mem_cons.1 hu with hu | hu
    · cases hu
    · cases List.all_eq_true.1 hn _ hu⟩)
  refine ⟨⟨exSites, exCdMain, c, 3, d1, exCdEnd, d2, d3⟩, ⟨exSites, exKilled 75, d⟩,
    ⟨exProgOK, h1, h2, h3, h4, h5, fun h => ?_,
      fun p hp => hcut p (by simp only [Cr.trace, hact, List.mem_cons]; exact .inr hp), ha⟩, ⟨exProgOK, h', exKilled_allocs _⟩, by decide, p3,
    hfin, p1, p2, p4, p5, ?_⟩
  · have := List.all_eq_true.1 hn _ h
    cases this
  · simpa [Proc.wrote, Life.wrote] using p6

end NanoLog
