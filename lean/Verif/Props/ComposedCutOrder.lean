import Verif.Props.ComposedCutLive
import Verif.Props.EndToEndOrder

/-!
# C80: `sync` and the ordered output, when threads have ended

`C74_sync_partial` and `C76_sync_partial` without a condition on the ends of threads.
-/

namespace NanoLog

section
variable {cfg : Config} {prog : List Site} {ls ls' ls'' : List CLbl} {c c1 c2 c3 : Cr} {t : Nat}

/-- **C80**, `sync` and the ordered decompressor: when `sync` has been woken, not spuriously, every file is accepted and the
output has for every thread the messages of its first calls, each once, among them all that had returned, with their stores in
memory, when `sync` was called; in call order if the time stamps of the thread increase.  What is missing: see
`C80_sync_partial`. -/
theorem C80_printed_partial (hP : ProgOK cfg prog) (h0 : 0 < cfg.staging) {l : Lbl}
    {sw : Bool} (h : CrExec cfg prog ls c) (hl : l = .sync t ∨ l = .setFile t true)
    (ha : c.act cfg prog (.rt l) = .ok c1) (hr : c1.run cfg prog ls' = .ok c2) (hok : ∀ l' ∈ ls', l'.OK cfg prog)
    (hw : (c2.rt.thr t).pc = .woken sw) (hs : .rt (.spurious t) ∉ ls')
    (hnd : ∀ p ∈ c1.trace cfg prog ls', ¬ CutsPass cfg prog p) (hn : allocs (calls (ls ++ .rt l :: ls')) ≤ 2 ^ 32)
    {o : Objs} (hu : Used (cfg.staging + 9) o) :
    (c.sb t).buf = [] ∧
    ∃ outs : List (List OutMsg), c2.rt.files.map (orderedFile (cfg.staging + 9) o) = outs.map some ∧
      ∀ u b, (c2.rt.thr u).bid = some b → ∃ n msgs, ((c.sb u).buf = [] → finished u ls ≤ n) ∧
        n ≤ (mustRecord prog u (calls (ls ++ .rt l :: ls'))).length ∧
        List.Forall₂ (MsgOf prog b) ((mustRecord prog u (calls (ls ++ .rt l :: ls'))).take n) msgs ∧
        (outs.flatten.filter fun m => m.tid == b).Perm msgs ∧
        ((stamps u (calls (ls ++ .rt l :: ls'))).Pairwise (· < ·) → (outs.flatten.filter fun m => m.tid == b) = msgs) := by
  obtain ⟨f0, ms, f1, f2⟩ := C80_sync_partial hP h0 h hl ha hr hok hw hs hnd hn
  have hx : CrExec cfg prog (ls ++ .rt l :: ls') c2 := by
    refine h.more (by simp only [Cr.run, ha]; exact hr) fun l' hm => ?_
    rcases List.mem_cons.1 hm with rfl | hm
    · rcases hl with rfl | rfl <;> trivial
    · exact hok l' hm
  obtain ⟨ms', outs, g1, g2, g3, g4⟩ := exec_ordered hP h0 hx hn hu
  rw [f1] at g1
  obtain rfl := some_inj g1
  refine ⟨f0, outs, g2, fun u b hb => ?_⟩
  obtain ⟨n, k1, k2, k3⟩ := f2 u b hb
  exact ⟨n, _, k1, k2, k3, g3.1.filter _, g4 u b hb⟩

/-- **C80**, `sync` separates: whenever the log is decompressed later (state `c3`), a message `x` of a call that had returned,
with its stores in memory, when `sync` was called is printed before a message `y` of any thread's call made after `sync` has
returned, if the time stamp of `y` is larger.  What is missing: see `C80_sync_partial` and `C76_sync_partial`. -/
theorem C80_separates_partial (hP : ProgOK cfg prog) (h0 : 0 < cfg.staging) {l : Lbl}
    {sw : Bool} (h : CrExec cfg prog ls c) (hl : l = .sync t ∨ l = .setFile t true)
    (ha : c.act cfg prog (.rt l) = .ok c1) (hr : c1.run cfg prog ls' = .ok c2) (hok : ∀ l' ∈ ls', l'.OK cfg prog)
    (hw : (c2.rt.thr t).pc = .woken sw) (hsp : .rt (.spurious t) ∉ ls')
    (hnd : ∀ p ∈ c1.trace cfg prog ls', ¬ CutsPass cfg prog p)
    (hr' : c2.run cfg prog ls'' = .ok c3) (hok' : ∀ l' ∈ ls'', l'.OK cfg prog)
    (hn : allocs (calls (ls ++ .rt l :: ls' ++ ls'')) ≤ 2 ^ 32)
    (hs : ∀ t, (stamps t (calls (ls ++ .rt l :: ls' ++ ls''))).Pairwise (· < ·)) {o : Objs} (hu : Used (cfg.staging + 9) o) :
    ∃ outs : List (List OutMsg), c3.rt.files.map (orderedFile (cfg.staging + 9) o) = outs.map some ∧
      ∀ u bu v bv, (c2.rt.thr u).bid = some bu → (c.sb u).buf = [] → (c3.rt.thr v).bid = some bv →
        ∀ i j x y, i < finished u ls → (mustRecord prog v (calls (ls ++ .rt l :: ls'))).length ≤ j →
          (outs.flatten.filter fun m => m.tid == bu)[i]? = some x → (outs.flatten.filter fun m => m.tid == bv)[j]? = some y →
          x.ts < y.ts → [x, y].Sublist outs.flatten := by
  refine sync_separates hP h0 h hl ha hr hok (C80_sync_partial hP h0 h hl ha hr hok hw hsp hnd ?_).2 hr' hok' hn hs hu
  rw [calls_append, allocs_append] at hn
  omega

end

/-! ## Concrete execution -/

/-- After `sync` has returned thread 3 logs, and this is written. -/
def exGoneAfter : List CLbl :=
  exRt [.ret 3, .call 3 0 [.int .i32 70000], .readId 3 false, .stamp 3 2000, .reserve 3, .takeId 3, .push 3] ++
  exStores 3 (entryBytes exSite0 ⟨0, 2000, [.int .i32 70000]⟩) ++ exCrDrain 3 22 ++
  exRt [.write, .top, .dict false] ++ exEmpty ++ exRead 20 ++ exRt [.scanned none, .aio, .write, .disk 13]

/-- Case for `C80_printed_partial` and `C80_separates_partial`: thread 1 has logged and ended, its buffer has been deleted, thread
2 has logged; thread 3 calls `sync`, which returns, and then logs at time 2000 (its first message: `j = 0`). -/
example : ∃ c c1 c2 c3, CrExec exCfg exSites exGone c ∧ c.act exCfg exSites (.rt (.sync 3)) = .ok c1 ∧
    c1.run exCfg exSites exGoneSynced = .ok c2 ∧ (∀ l ∈ exGoneSynced, l.OK exCfg exSites) ∧
    (c2.rt.thr 3).pc = .woken false ∧ .rt (.spurious 3) ∉ exGoneSynced ∧
    (∀ p ∈ c1.trace exCfg exSites exGoneSynced, ¬ CutsPass exCfg exSites p) ∧
    c2.run exCfg exSites exGoneAfter = .ok c3 ∧ (∀ l ∈ exGoneAfter, l.OK exCfg exSites) ∧
    allocs (calls (exGone ++ .rt (.sync 3) :: exGoneSynced ++ exGoneAfter)) = 3 ∧
    (∀ t, (stamps t (calls (exGone ++ .rt (.sync 3) :: exGoneSynced ++ exGoneAfter))).Pairwise (· < ·)) ∧
    (c2.rt.thr 2).bid = some 1 ∧ (c.sb 2).buf = [] ∧ (c3.rt.thr 3).bid = some 2 ∧ finished 2 exGone = 1 ∧ .exit 1 ∈ exGone ∧
    (mustRecord exSites 3 (calls (exGone ++ .rt (.sync 3) :: exGoneSynced))).length = 0 ∧
    (c2.rt.files.map (orderedFile 265 (Objs.new 265))).map (Option.map (List.map OutMsg.ts)) = [some [1000, 1010, 1020]] ∧
    (c3.rt.files.map (orderedFile 265 (Objs.new 265))).map (Option.map (List.map OutMsg.ts)) = [some [1000, 1010, 1020, 2000]] := by
  obtain ⟨c, c1, c2, h1, h2, h3, hp⟩ := exCrSync_ok (ls := exGone) (l := .sync 3) (ls' := exGoneSynced)
    (p := fun c c2 => match c2.run exCfg exSites exGoneAfter with
      | .ok c3 => (c2.rt.thr 3).pc = .woken false && (c.sb 2).buf = [] && (c2.rt.thr 2).bid = some 1 &&
        (c.rt.bufs.length ≤ 1) && (c3.rt.thr 3).bid = some 2 &&
        (c2.rt.files.map (orderedFile 265 (Objs.new 265))).map (Option.map (List.map OutMsg.ts)) = [some [1000, 1010, 1020]] &&
        (c3.rt.files.map (orderedFile 265 (Objs.new 265))).map (Option.map (List.map OutMsg.ts)) = [some [1000, 1010, 1020, 2000]]
      | _ => false)
    (by decide +kernel) (by decide +kernel)
  split at hp <;> try cases hp
  rename_i c3 hc3
  simp only [Bool.and_eq_true, decide_eq_true_eq] at hp
  obtain ⟨⟨⟨⟨⟨⟨p1, p2⟩, p3⟩, p4⟩, p5⟩, p6⟩, p7⟩ := hp
  have hall : ∀ ls : List CLbl, ls.all exCLbl = true → ∀ l ∈ ls, l.OK exCfg exSites := by
    intro ls h l hl
    have := List.all_eq_true.1 h l hl
    cases l <;> first | exact exLbl_ok this | trivial
  have hok := hall exGoneSynced (by decide +kernel)
  have hn : exGoneSynced.all (fun l => match l with | .rt (.spurious _) | .rt (.push _) => false | _ => true) = true := by
    decide +kernel
  have hcut := C80_no_cut (ls' := .rt (.sync 3) :: exGoneSynced) exProgOK (by decide) h1 (by
    intro l hl
    rcases List.mem_cons.1 hl with rfl | hl
    · trivial
    · exact hok l hl) (.inr ⟨p4, fun u hu => by
    rcases List.mem_cons.1 hu with hu | hu
    · cases hu
    · cases List.all_eq_true.1 hn _ hu⟩)
  exact ⟨c, c1, c2, c3, h1, h2, h3, hok, p1, fun h => (by cases List.all_eq_true.1 hn _ h),
    fun p hp => hcut p (by simp only [Cr.trace, h2, List.mem_cons]; exact .inr hp), hc3, hall _ (by decide +kernel),
    by decide +kernel, fun t => List.Pairwise.sublist (stamps_allStamps t _) (by decide +kernel :
      (allStamps (exGone ++ .rt (.sync 3) :: exGoneSynced ++ exGoneAfter)).Pairwise (· < ·)), p3, p2, p5, by decide +kernel,
    by simp [exGone, exCrC], by decide +kernel, p6, p7⟩

end NanoLog
