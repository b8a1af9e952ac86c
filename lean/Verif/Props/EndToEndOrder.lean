import Verif.FileGrowth
import Verif.Props.EndToEndLive

/-!
# C75, C76: ordered decompression never turns an ordered pair of messages round

What `decompressTo` prints is in general not in the order of time (`C73_chronological_false`).  Here: two messages that are
in the log file in the order of their time stamps are printed in this order; a file in the order of time is printed as it
is; what was in the files at some moment, for example when `sync` returned, is printed before all messages with later time
stamps that come after it.  `[x, y].Sublist out` says that `x` is printed before `y`.
-/

namespace NanoLog

/-! ## Lemmas -/

/-- Messages are found once only, if the time stamps of each thread increase. -/
theorem nodup_of_rising {ms : List OutMsg} (h : ∀ b, Rising (ms.filter fun m => m.tid == b)) : ms.Nodup := by
  rw [List.Nodup, List.pairwise_iff_forall_sublist]
  rintro a b ha rfl
  have := (ha.filter fun m => m.tid == a.tid)
  simp only [beq_self_eq_true, List.filter_cons_of_pos, List.filter_nil] at this
  have := (h a.tid).sublist this
  simp at this

theorem nodup_order {α : Type} {l : List α} {x y : α} (h : l.Nodup) (h1 : [x, y].Sublist l) (h2 : [y, x].Sublist l) : False := by
  induction l with
  | nil => cases h1
  | cons z l ih =>
    rw [List.nodup_cons] at h
    cases h1 with
    | cons _ h1 =>
      cases h2 with
      | cons _ h2 => exact ih h.2 h1 h2
      | cons_cons _ h2 => exact h.1 (h1.subset (by simp))
    | cons_cons _ h1 =>
      cases h2 with
      | cons _ h2 => exact h.1 (h2.subset (by simp))
      | cons_cons _ h2 => exact h.1 (h1.subset (by simp))

open Classical in
/-- A pair of messages in the order of time keeps its order. -/
theorem Resorted.pair {ms out : List OutMsg} (h : Resorted ms out) (ht : ∀ b, Rising (ms.filter fun m => m.tid == b))
    {x y : OutMsg} (hxy : [x, y].Sublist ms) (hlt : x.ts < y.ts) : [x, y].Sublist out := by
  have hnd := nodup_of_rising ht
  have hp := h.2 (fun m => decide (m = x ∨ m = y)) ?_ ?_
  · have := hxy.filter fun m => decide (m = x ∨ m = y)
    rw [← hp] at this
    simp only [true_or, or_true, decide_true, List.filter_cons_of_pos, List.filter_nil] at this
    exact this.trans List.filter_sublist
  · rw [Rising, List.pairwise_iff_forall_sublist]
    intro a b hab
    have ha := (List.mem_filter.1 (hab.subset (a := a) (by simp))).2
    have hb := (List.mem_filter.1 (hab.subset (a := b) (by simp))).2
    have hms := hab.trans List.filter_sublist
    simp only [decide_eq_true_eq] at ha hb
    rcases ha with rfl | rfl <;> rcases hb with rfl | rfl
    · exact absurd rfl (List.pairwise_iff_forall_sublist.1 hnd hms)
    · exact hlt
    · exact (nodup_order hnd hxy hms).elim
    · exact absurd rfl (List.pairwise_iff_forall_sublist.1 hnd hms)
  · intro b
    exact List.Pairwise.imp (R := fun a c : OutMsg => a.ts < c.ts)
      (S := fun z y' : OutMsg => decide (y' = x ∨ y' = y) = true → z.ts ≤ y'.ts) (fun h _ => Nat.le_of_lt h) (ht b)

section
variable {cfg : Config} {prog : List Site} {ls : List CLbl} {c : Cr}

/-- The time stamps of each thread in the files, in the order of the files. -/
theorem exec_stamps (hP : ProgOK cfg prog) (h0 : 0 < cfg.staging) (h : CrExec cfg prog ls c) (hn : allocs (calls ls) ≤ 2 ^ 32)
    {ms : List (List OutMsg)} (hm : c.rt.files.map (decodeFile (cfg.staging + 9)) = ms.map some) (b : Nat) :
    ∃ t n, (ms.flatten.filter fun m => m.tid == b).map OutMsg.ts = (stamps t (calls ls)).take n := by
  obtain ⟨ms', f1, f2, f3⟩ := C66_prefix hP h0 h hn
  rw [hm] at f1
  obtain rfl := some_inj f1
  by_cases hb : ∃ t, (c.rt.thr t).bid = some b
  · obtain ⟨t, hb⟩ := hb
    obtain ⟨n, -, k⟩ := f2 t b hb
    exact ⟨t, n, k⟩
  · refine ⟨0, 0, ?_⟩
    rw [List.take_zero, List.map_eq_nil_iff, List.filter_eq_nil_iff]
    intro m hm he
    obtain ⟨t, ht⟩ := f3 m hm
    exact hb ⟨t, by rw [ht]; simpa using he⟩

theorem exec_rising (hP : ProgOK cfg prog) (h0 : 0 < cfg.staging) (h : CrExec cfg prog ls c) (hn : allocs (calls ls) ≤ 2 ^ 32)
    (hs : ∀ t, (stamps t (calls ls)).Pairwise (· < ·))
    {ms : List (List OutMsg)} (hm : c.rt.files.map (decodeFile (cfg.staging + 9)) = ms.map some) (b : Nat) :
    Rising (ms.flatten.filter fun m => m.tid == b) := by
  obtain ⟨t, n, k⟩ := exec_stamps hP h0 h hn hm b
  have : ((stamps t (calls ls)).take n).Pairwise (· < ·) := (hs t).sublist (List.take_sublist _ _)
  rw [← k, List.pairwise_map] at this
  exact this

/-! ## C75 -/

/-- **C75**, at every moment of every execution in which the time stamps of no thread decrease: if the messages of some
kind (`p`) are in the files in the order of time, they are printed in this order, whatever is printed between them.  All
messages in the files are printed, once. -/
theorem C75_kinds (hP : ProgOK cfg prog) (h0 : 0 < cfg.staging) (h : CrExec cfg prog ls c) (hn : allocs (calls ls) ≤ 2 ^ 32)
    (hs : ∀ t, (stamps t (calls ls)).Pairwise (· ≤ ·)) {o : Objs} (hu : Used (cfg.staging + 9) o) :
    ∃ ms outs : List (List OutMsg), c.rt.files.map (decodeFile (cfg.staging + 9)) = ms.map some ∧
      c.rt.files.map (orderedFile (cfg.staging + 9) o) = outs.map some ∧ outs.flatten.Perm ms.flatten ∧
      ∀ p : OutMsg → Bool, (ms.flatten.filter p).Pairwise (fun x y => x.ts < y.ts) →
        outs.flatten.filter p = ms.flatten.filter p := by
  obtain ⟨ms, outs, g1, g2, g3, -⟩ := exec_ordered hP h0 h hn hu
  refine ⟨ms, outs, g1, g2, g3.1, fun p hp => g3.2 p hp fun b => ?_⟩
  obtain ⟨t, n, k⟩ := exec_stamps hP h0 h hn g1 b
  have : ((stamps t (calls ls)).take n).Pairwise (· ≤ ·) := (hs t).sublist (List.take_sublist _ _)
  rw [← k, List.pairwise_map] at this
  exact List.Pairwise.imp (R := fun a c : OutMsg => a.ts ≤ c.ts)
    (S := fun z y : OutMsg => p y = true → z.ts ≤ y.ts) (fun h _ => h) this

/-- **C75**: files in the order of time are printed as they are. -/
theorem C75_sorted (hP : ProgOK cfg prog) (h0 : 0 < cfg.staging) (h : CrExec cfg prog ls c) (hn : allocs (calls ls) ≤ 2 ^ 32)
    (hs : ∀ t, (stamps t (calls ls)).Pairwise (· ≤ ·)) {o : Objs} (hu : Used (cfg.staging + 9) o) :
    ∃ ms outs : List (List OutMsg), c.rt.files.map (decodeFile (cfg.staging + 9)) = ms.map some ∧
      c.rt.files.map (orderedFile (cfg.staging + 9) o) = outs.map some ∧
      (ms.flatten.Pairwise (fun x y => x.ts < y.ts) → outs.flatten = ms.flatten) := by
  obtain ⟨ms, outs, g1, g2, -, g4⟩ := C75_kinds hP h0 h hn hs hu
  refine ⟨ms, outs, g1, g2, fun hr => ?_⟩
  have := g4 (fun _ => true) (by rw [List.filter_true]; exact hr)
  rwa [List.filter_true, List.filter_true] at this

/-- **C75**, if the time stamps of each thread increase: of two messages in the files in the order of time, the first one is
printed before the other. -/
theorem C75_pair (hP : ProgOK cfg prog) (h0 : 0 < cfg.staging) (h : CrExec cfg prog ls c) (hn : allocs (calls ls) ≤ 2 ^ 32)
    (hs : ∀ t, (stamps t (calls ls)).Pairwise (· < ·)) {o : Objs} (hu : Used (cfg.staging + 9) o) :
    ∃ ms outs : List (List OutMsg), c.rt.files.map (decodeFile (cfg.staging + 9)) = ms.map some ∧
      c.rt.files.map (orderedFile (cfg.staging + 9) o) = outs.map some ∧ outs.flatten.Perm ms.flatten ∧ outs.flatten.Nodup ∧
      ∀ x y, [x, y].Sublist ms.flatten → x.ts < y.ts → [x, y].Sublist outs.flatten := by
  obtain ⟨ms, outs, g1, g2, g3, -⟩ := exec_ordered hP h0 h hn hu
  have hr := exec_rising hP h0 h hn hs g1
  exact ⟨ms, outs, g1, g2, g3.1, g3.1.nodup_iff.2 (nodup_of_rising hr), fun x y hxy hlt => g3.pair hr hxy hlt⟩

theorem CrExec.more (h : CrExec cfg prog ls c) {ls' : List CLbl} {c' : Cr} (hr : c.run cfg prog ls' = .ok c')
    (hok : ∀ l ∈ ls', l.OK cfg prog) : CrExec cfg prog (ls ++ ls') c' := by
  obtain ⟨jk, k, c0, e1, e2, e3, e4, e5⟩ := h
  refine ⟨jk, k, c0, e1, e2, e3, fun l hl => ?_, Cr.run_app e5 hr⟩
  rcases List.mem_append.1 hl with hm | hm
  · exact e4 l hm
  · exact hok l hm

theorem calls_append (a b : List CLbl) : calls (a ++ b) = calls a ++ calls b := by
  simp [calls]

theorem allocs_append (a b : List Lbl) : allocs (a ++ b) = allocs a + allocs b := by
  simp [allocs]

/-- **C75**: what was in the files at some moment (state `c`) is found there for ever (state `c'`, any time later), in front of
everything that comes later; and every message of it is printed before the later ones with larger time stamps. -/
theorem C75_later (hP : ProgOK cfg prog) (h0 : 0 < cfg.staging) (h : CrExec cfg prog ls c) {ls' : List CLbl} {c' : Cr}
    (hr : c.run cfg prog ls' = .ok c') (hok : ∀ l ∈ ls', l.OK cfg prog) (hn : allocs (calls (ls ++ ls')) ≤ 2 ^ 32)
    (hs : ∀ t, (stamps t (calls (ls ++ ls'))).Pairwise (· < ·)) {o : Objs} (hu : Used (cfg.staging + 9) o) :
    ∃ (ms ms' outs : List (List OutMsg)) (new : List OutMsg),
      c.rt.files.map (decodeFile (cfg.staging + 9)) = ms.map some ∧
      c'.rt.files.map (decodeFile (cfg.staging + 9)) = ms'.map some ∧ ms'.flatten = ms.flatten ++ new ∧
      c'.rt.files.map (orderedFile (cfg.staging + 9) o) = outs.map some ∧ outs.flatten.Perm (ms.flatten ++ new) ∧
      outs.flatten.Nodup ∧
      ∀ x ∈ ms.flatten, ∀ y ∈ new, x.ts < y.ts → [x, y].Sublist outs.flatten := by
  have h' := h.more hr hok
  have hn1 : allocs (calls ls) ≤ 2 ^ 32 := by rw [calls_append, allocs_append] at hn; omega
  obtain ⟨ms, f1, -, -⟩ := C66_prefix hP h0 h hn1
  obtain ⟨ms', outs, g1, g2, g3, g4, g5⟩ := C75_pair hP h0 h' hn hs hu
  obtain ⟨als, s, k1, k2, -⟩ := C66_refinement hP h0 h'
  obtain ⟨-, hF⟩ := k1.inv hP
  have hg := run_accrues hr
  obtain ⟨new, hnew⟩ : ms.flatten <+: ms'.flatten := by
    refine decode_accrues hF ?_ f1 (by rw [k2]; exact g1)
    rw [k2]
    exact hg.files
  refine ⟨ms, ms', outs, new, f1, g1, hnew.symm, g2, by rw [hnew]; exact g3, g4, fun x hx y hy hlt => g5 x y ?_ hlt⟩
  rw [← hnew]
  exact (List.singleton_sublist.2 hx).append (List.singleton_sublist.2 hy)

/-- What follows from the files at the return of `sync` for those of any later time. -/
theorem sync_separates (hP : ProgOK cfg prog) (h0 : 0 < cfg.staging) {ls' ls'' : List CLbl} {c1 c2 c3 : Cr} {t : Nat}
    {l : Lbl} (h : CrExec cfg prog ls c) (hl : l = .sync t ∨ l = .setFile t true)
    (ha : c.act cfg prog (.rt l) = .ok c1) (hr : c1.run cfg prog ls' = .ok c2) (hok : ∀ l' ∈ ls', l'.OK cfg prog)
    (hf : ∃ ms : List (List OutMsg), c2.rt.files.map (decodeFile (cfg.staging + 9)) = ms.map some ∧
      ∀ u b, (c2.rt.thr u).bid = some b → ∃ n, ((c.sb u).buf = [] → finished u ls ≤ n) ∧
        n ≤ (mustRecord prog u (calls (ls ++ .rt l :: ls'))).length ∧
        List.Forall₂ (MsgOf prog b) ((mustRecord prog u (calls (ls ++ .rt l :: ls'))).take n)
          (ms.flatten.filter fun m => m.tid == b))
    (hr' : c2.run cfg prog ls'' = .ok c3) (hok' : ∀ l' ∈ ls'', l'.OK cfg prog)
    (hn : allocs (calls (ls ++ .rt l :: ls' ++ ls'')) ≤ 2 ^ 32)
    (hs : ∀ t, (stamps t (calls (ls ++ .rt l :: ls' ++ ls''))).Pairwise (· < ·)) {o : Objs} (hu : Used (cfg.staging + 9) o) :
    ∃ outs : List (List OutMsg), c3.rt.files.map (orderedFile (cfg.staging + 9) o) = outs.map some ∧
      ∀ u bu v bv, (c2.rt.thr u).bid = some bu → (c.sb u).buf = [] → (c3.rt.thr v).bid = some bv →
        ∀ i j x y, i < finished u ls → (mustRecord prog v (calls (ls ++ .rt l :: ls'))).length ≤ j →
          (outs.flatten.filter fun m => m.tid == bu)[i]? = some x → (outs.flatten.filter fun m => m.tid == bv)[j]? = some y →
          x.ts < y.ts → [x, y].Sublist outs.flatten := by
  obtain ⟨ms, f1, f2⟩ := hf
  have hlok : l.OK cfg prog := by rcases hl with rfl | rfl <;> trivial
  have hx : CrExec cfg prog (ls ++ .rt l :: ls') c2 := by
    refine h.more (by simp only [Cr.run, ha]; exact hr) fun l' hm => ?_
    rcases List.mem_cons.1 hm with rfl | hm
    · exact hlok
    · exact hok l' hm
  have hx3 := hx.more hr' hok'
  obtain ⟨ms0, ms', outs, new, g1, g2, g3, g4, g5, g6, g7⟩ := C75_later hP h0 hx hr' hok' hn hs hu
  rw [f1] at g1
  obtain rfl := some_inj g1
  have hn2 : allocs (calls (ls ++ .rt l :: ls')) ≤ 2 ^ 32 := by rw [calls_append, allocs_append] at hn; omega
  obtain ⟨ms2, k1, -, k3⟩ := C66_prefix hP h0 hx hn2
  rw [f1] at k1
  obtain rfl := some_inj k1
  have hbid := (run_accrues hr').bid hx.fresh
  have huniq : ∀ t u b, (c3.rt.thr t).bid = some b → (c3.rt.thr u).bid = some b → t = u := by
    obtain ⟨als, s, r1, -, -, -, r5, r6, -⟩ := C66_refinement hP h0 hx3
    intro t u b h1 h2
    exact C34_unique_partial r1 (by rw [r6]; exact hn) t u b (by rw [r5]; exact h1) (by rw [r5]; exact h2)
  obtain ⟨ms'', outs', q1, q2, -, q4⟩ := exec_ordered hP h0 hx3 hn hu
  rw [g2] at q1
  obtain rfl := some_inj q1
  rw [g4] at q2
  obtain rfl := some_inj q2
  refine ⟨outs, g4, fun u bu v bv hbu hbuf hbv i j x y hi hj hix hjy hlt => g7 x ?_ y ?_ hlt⟩
  · rw [q4 u bu (hbid u bu hbu) (hs u), g3, List.filter_append] at hix
    obtain ⟨n, n1, n2, n3⟩ := f2 u bu hbu
    have hlen := n3.length_eq
    rw [List.length_take] at hlen
    have := n1 hbuf
    rw [List.getElem?_append_left (by omega)] at hix
    exact (List.mem_filter.1 (List.mem_of_getElem? hix)).1
  · rw [q4 v bv hbv (hs v), g3, List.filter_append] at hjy
    have hle : (ms.flatten.filter fun m => m.tid == bv).length ≤ j := by
      cases hv : (c2.rt.thr v).bid with
      | some b =>
        have := hbid v b hv
        rw [hbv, Option.some.injEq] at this
        subst this
        obtain ⟨n, n1, n2, n3⟩ := f2 v _ hv
        have hlen := n3.length_eq
        rw [List.length_take] at hlen
        omega
      | none =>
        have : (ms.flatten.filter fun m => m.tid == bv) = [] := by
          rw [List.filter_eq_nil_iff]
          intro m hm he
          obtain ⟨t', ht'⟩ := k3 m hm
          rw [show m.tid = bv by simpa using he] at ht'
          have := huniq _ _ _ (hbid t' bv ht') hbv
          rw [this, hv] at ht'
          cases ht'
        rw [this]; exact Nat.zero_le _
    rw [List.getElem?_append_right hle] at hjy
    exact (List.mem_filter.1 (List.mem_of_getElem? hjy)).1

/-- Full claim: what was logged before `sync` is printed before what is logged after it has returned (false of the code as
for C74, and because of the time stamps: a thread may take its time stamp before another one and log after it).
Proved here: under the hypotheses of `C74_sync_partial`, whenever the log is decompressed later (state `c3`): a message `x` of
a call that had returned when `sync` was called, with its stores in memory, is printed before a message `y` of any thread's call
made after `sync` has returned, if the time stamp of `y` is larger.  (By `C73_prefix` the `i`-th message of a thread is that
of its `i`-th recorded call.) -/
theorem C76_sync_partial (hP : ProgOK cfg prog) (h0 : 0 < cfg.staging) {ls' ls'' : List CLbl} {c1 c2 c3 : Cr} {t : Nat}
    {l : Lbl} {sw : Bool} (h : CrExec cfg prog ls c) (hl : l = .sync t ∨ l = .setFile t true)
    (ha : c.act cfg prog (.rt l) = .ok c1) (hr : c1.run cfg prog ls' = .ok c2) (hok : ∀ l' ∈ ls', l'.OK cfg prog)
    (hw : (c2.rt.thr t).pc = .woken sw) (hsp : .rt (.spurious t) ∉ ls')
    (hc : allocs (calls (ls ++ .rt l :: ls')) ≤ 1 ∨
      allocs (calls (ls ++ .rt l :: ls')) ≤ 2 ^ 32 ∧ ∀ u, .exit u ∉ ls ++ .rt l :: ls')
    (hr' : c2.run cfg prog ls'' = .ok c3) (hok' : ∀ l' ∈ ls'', l'.OK cfg prog)
    (hn : allocs (calls (ls ++ .rt l :: ls' ++ ls'')) ≤ 2 ^ 32)
    (hs : ∀ t, (stamps t (calls (ls ++ .rt l :: ls' ++ ls''))).Pairwise (· < ·)) {o : Objs} (hu : Used (cfg.staging + 9) o) :
    ∃ outs : List (List OutMsg), c3.rt.files.map (orderedFile (cfg.staging + 9) o) = outs.map some ∧
      ∀ u bu v bv, (c2.rt.thr u).bid = some bu → (c.sb u).buf = [] → (c3.rt.thr v).bid = some bv →
        ∀ i j x y, i < finished u ls → (mustRecord prog v (calls (ls ++ .rt l :: ls'))).length ≤ j →
          (outs.flatten.filter fun m => m.tid == bu)[i]? = some x → (outs.flatten.filter fun m => m.tid == bv)[j]? = some y →
          x.ts < y.ts → [x, y].Sublist outs.flatten :=
  sync_separates hP h0 h hl ha hr hok (C66_sync_partial hP h0 h hl ha hr hok hw hsp hc).2 hr' hok' hn hs hu

end

/-! ## Cases -/

/-- What a thread takes is what is taken by all. -/
theorem stamps_allStamps (t : Nat) (ls : List CLbl) : (stamps t (calls ls)).Sublist (allStamps ls) := by
  induction ls with
  | nil => exact List.Sublist.refl _
  | cons l ls ih =>
    have e1 : calls (l :: ls) = calls [l] ++ calls ls := calls_append [l] ls
    have e2 : allStamps (l :: ls) = allStamps [l] ++ allStamps ls := by
      rw [show l :: ls = [l] ++ ls from rfl, allStamps, List.filterMap_append]; rfl
    rw [e1, e2, stamps, List.filterMap_append]
    refine List.Sublist.append ?_ ih
    cases l with
    | rt l =>
      cases l <;> simp only [calls, allStamps, List.filterMap_cons, List.filterMap_nil] <;> try exact List.Sublist.refl _
      split
      · exact List.nil_sublist _
      · rename_i h
        split at h <;> cases h
        exact List.Sublist.refl _
    | _ => exact List.nil_sublist _

/-- The time stamps of `exChrono` increase. -/
theorem exChrono_stamps (t : Nat) : (stamps t (calls exChrono)).Pairwise (· < ·) :=
  List.Pairwise.sublist (stamps_allStamps t _) (by decide +kernel)

set_option maxRecDepth 4000 in
/-- Case for `C75_kinds`, `C75_pair`, and `C75_later` (from the state after `exCh1`): the two threads' messages are in the file in
the order 1 2 3 10 5 6 20 15 and are printed in the order 1 2 3 5 6 10 20 15: one of the pairs that are not in the order of
time is turned round, none of the others. -/
theorem exChrono_files : ∃ c c', CrExec exCfg64 exSites exCh1 c ∧
    c.run exCfg64 exSites (exCh2 ++ exCh3 ++ exCh4 ++ exCh5) = .ok c' ∧
    (c.rt.files.map (decodeFile (exCfg64.staging + 9))).map (Option.map (List.map OutMsg.ts)) = [some [1, 2, 3]] ∧
    (c.rt.files.map (orderedFile (exCfg64.staging + 9) (Objs.new (exCfg64.staging + 9)))).map (Option.map (List.map OutMsg.ts)) =
      [some [1, 2, 3]] ∧
    (c'.rt.files.map (decodeFile (exCfg64.staging + 9))).map (Option.map (List.map OutMsg.ts)) =
      [some [1, 2, 3, 10, 5, 6, 20, 15]] ∧
    (c'.rt.files.map (orderedFile (exCfg64.staging + 9) (Objs.new (exCfg64.staging + 9)))).map (Option.map (List.map OutMsg.ts)) =
      [some [1, 2, 3, 5, 6, 10, 20, 15]] := by
  obtain ⟨c, h, hp, -⟩ := exExec64 (ls := exCh1)
    (p := fun c => match c.run exCfg64 exSites (exCh2 ++ exCh3 ++ exCh4 ++ exCh5) with
      | .ok c' => (c.rt.files.map (decodeFile (exCfg64.staging + 9))).map (Option.map (List.map OutMsg.ts)) = [some [1, 2, 3]] &&
        (c.rt.files.map (orderedFile (exCfg64.staging + 9) (Objs.new (exCfg64.staging + 9)))).map (Option.map (List.map OutMsg.ts)) =
          [some [1, 2, 3]] &&
        (c'.rt.files.map (decodeFile (exCfg64.staging + 9))).map (Option.map (List.map OutMsg.ts)) =
          [some [1, 2, 3, 10, 5, 6, 20, 15]] &&
        (c'.rt.files.map (orderedFile (exCfg64.staging + 9) (Objs.new (exCfg64.staging + 9)))).map (Option.map (List.map OutMsg.ts)) =
          [some [1, 2, 3, 5, 6, 10, 20, 15]]
      | _ => false)
    (by decide +kernel) (by decide +kernel)
  split at hp
  · rename_i c' hc'
    simp only [Bool.and_eq_true, decide_eq_true_eq] at hp
    exact ⟨c, c', h, hc', hp.1.1.1, hp.1.1.2, hp.1.2, hp.2⟩
  · cases hp

set_option maxRecDepth 4000 in
/-- Case for `C75_later`: its hypotheses are met by this execution (and those of `C75_kinds` and `C75_pair` by its end). -/
example : ∃ c c', CrExec exCfg64 exSites exCh1 c ∧ c.run exCfg64 exSites (exCh2 ++ exCh3 ++ exCh4 ++ exCh5) = .ok c' ∧
    ∃ (ms ms' outs : List (List OutMsg)) (new : List OutMsg),
      c.rt.files.map (decodeFile (exCfg64.staging + 9)) = ms.map some ∧
      c'.rt.files.map (decodeFile (exCfg64.staging + 9)) = ms'.map some ∧ ms'.flatten = ms.flatten ++ new ∧
      c'.rt.files.map (orderedFile (exCfg64.staging + 9) (Objs.new (exCfg64.staging + 9))) = outs.map some ∧
      ∀ x ∈ ms.flatten, ∀ y ∈ new, x.ts < y.ts → [x, y].Sublist outs.flatten := by
  obtain ⟨c, c', h, hr, -⟩ := exChrono_files
  have hsum : exCh1 ++ (exCh2 ++ exCh3 ++ exCh4 ++ exCh5) = exChrono := by simp [exChrono]
  have hok : ∀ l ∈ exCh2 ++ exCh3 ++ exCh4 ++ exCh5, l.OK exCfg64 exSites := fun l hl =>
    exLbl64_ok (List.all_eq_true.1 (show (exCh2 ++ exCh3 ++ exCh4 ++ exCh5).all exLbl64 = true by decide +kernel) l hl)
  obtain ⟨ms, ms', outs, new, g1, g2, g3, g4, -, -, g7⟩ := C75_later exProgOK64 (by decide) h hr hok
    (by rw [hsum]; decide +kernel) (by rw [hsum]; exact exChrono_stamps) (Used.new)
  exact ⟨c, c', h, hr, ms, ms', outs, new, g1, g2, g3, g4, g7⟩

/-- Case for `C75_sorted`: the messages 1, 2 of one thread and 3 of another one are printed as they are in the file. -/
example : ∃ c, CrExec exCfg64 exSites exCh1 c ∧ ∃ ms outs : List (List OutMsg), ms.flatten.length = 3 ∧
    c.rt.files.map (decodeFile (exCfg64.staging + 9)) = ms.map some ∧
    c.rt.files.map (orderedFile (exCfg64.staging + 9) (Objs.new (exCfg64.staging + 9))) = outs.map some ∧
    outs.flatten = ms.flatten := by
  obtain ⟨c, c', h, -, hf, -⟩ := exChrono_files
  obtain ⟨ms, outs, g1, g2, g3⟩ := C75_sorted exProgOK64 (by decide) h (by decide +kernel)
    (fun t => (List.Pairwise.sublist (stamps_allStamps t _) (by decide +kernel : (allStamps exCh1).Pairwise (· ≤ ·)))) (Used.new)
  rw [g1] at hf
  rcases ms with - | ⟨m, - | ⟨m', ms⟩⟩ <;> simp at hf
  have hr : ([m].flatten).Pairwise (fun x y => x.ts < y.ts) := by
    have : (m.map OutMsg.ts).Pairwise (· < ·) := by rw [hf]; decide
    rw [List.pairwise_map] at this
    simpa using this
  refine ⟨c, h, [m], outs, ?_, g1, g2, g3 hr⟩
  have := congrArg List.length hf
  simpa using this

/-- After `sync` has returned thread 2 logs `x=70000`, and this is written. -/
def exCrAfter : List CLbl :=
  exRt [.ret 2, .call 2 0 [.int .i32 70000], .readId 2 false, .stamp 2 2000, .reserve 2, .takeId 2, .push 2] ++
  exStores 2 (entryBytes exSite0 ⟨0, 2000, [.int .i32 70000]⟩) ++ exCrDrain 2 22 ++
  exRt [.write, .top, .dict false] ++ exEmpty ++ exRead 20 ++ exRt [.scanned none, .aio, .write, .disk 13]

/-- Case for `C76_sync_partial`: thread 1 has logged at time 1000, thread 2 calls `sync`, which returns, and then logs at time
2000 (its first message: `j = 0`). -/
example : ∃ c c1 c2 c3, CrExec exCfg exSites (exCr1 ++ exCrDrain 1 22) c ∧ c.act exCfg exSites (.rt (.sync 2)) = .ok c1 ∧
    c1.run exCfg exSites (exCrSynced 2) = .ok c2 ∧ c2.run exCfg exSites exCrAfter = .ok c3 ∧
    (c3.rt.files.map (orderedFile 265 (Objs.new 265))).map (Option.map (List.map OutMsg.ts)) = [some [1000, 2000]] ∧
    0 < finished 1 (exCr1 ++ exCrDrain 1 22) ∧
    (mustRecord exSites 2 (calls (exCr1 ++ exCrDrain 1 22 ++ .rt (.sync 2) :: exCrSynced 2))).length = 0 ∧
    (c2.rt.thr 1).bid = some 0 ∧ (c.sb 1).buf = [] ∧ (c3.rt.thr 2).bid = some 1 ∧
    ∃ outs : List (List OutMsg), c3.rt.files.map (orderedFile 265 (Objs.new 265)) = outs.map some ∧
      ∀ x y, (outs.flatten.filter fun m => m.tid == 0)[0]? = some x → (outs.flatten.filter fun m => m.tid == 1)[0]? = some y →
        x.ts < y.ts → [x, y].Sublist outs.flatten := by
  obtain ⟨c, c1, c2, h1, h2, h3, hp⟩ := exCrSync_ok (ls := exCr1 ++ exCrDrain 1 22) (l := .sync 2) (ls' := exCrSynced 2)
    (p := fun c c2 => match c2.run exCfg exSites exCrAfter with
      | .ok c3 => (c2.rt.thr 2).pc = .woken false &&
        (c3.rt.files.map (orderedFile 265 (Objs.new 265))).map (Option.map (List.map OutMsg.ts)) = [some [1000, 2000]] &&
        (c2.rt.thr 1).bid = some 0 && (c.sb 1).buf = [] && (c3.rt.thr 2).bid = some 1
      | _ => false)
    (by decide +kernel) (by decide +kernel)
  split at hp
  · rename_i c3 hc3
    simp only [Bool.and_eq_true, decide_eq_true_eq] at hp
    obtain ⟨⟨⟨⟨p1, p2⟩, p3⟩, p4⟩, p5⟩ := hp
    have hok : ∀ ls : List CLbl, ls.all exCLbl = true → ∀ l ∈ ls, l.OK exCfg exSites := by
      intro ls h l hl
      have := List.all_eq_true.1 h l hl
      cases l <;> first | exact exLbl_ok this | trivial
    have hsp : CLbl.rt (.spurious 2) ∉ exCrSynced 2 := by
      intro h
      have : (exCrSynced 2).all (fun l => match l with | .rt (.spurious _) => false | _ => true) = true := by decide +kernel
      have := List.all_eq_true.1 this _ h
      cases this
    obtain ⟨outs, g1, g2⟩ := C76_sync_partial exProgOK (by decide) h1 (.inl rfl) h2 h3 (hok _ (by decide +kernel)) p1 hsp
      (.inl (by decide +kernel)) hc3 (hok _ (by decide +kernel)) (by decide +kernel)
      (fun t => List.Pairwise.sublist (stamps_allStamps t _) (by decide +kernel)) (Used.new)
    have e0 : (mustRecord exSites 2 (calls (exCr1 ++ exCrDrain 1 22 ++ .rt (.sync 2) :: exCrSynced 2))).length = 0 := by
      decide +kernel
    refine ⟨c, c1, c2, c3, h1, h2, h3, hc3, p2, by decide +kernel, e0, p3, p4, p5, outs, g1, fun x y hx hy hlt => ?_⟩
    exact g2 1 0 2 1 p3 p4 p5 0 0 x y (by decide +kernel) (by omega) hx hy hlt
  · cases hp

end NanoLog
