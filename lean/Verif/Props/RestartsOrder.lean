import Verif.Props.RestartsEnd

/-!
# C81: ordered decompression of a log file of several processes

`decompressTo` (runtime/Log.cc:1816-1967) prints a file to which several processes have appended (C79) one process after
the other, if in each part the messages are in time order and no extent is empty.
-/

namespace NanoLog

/-! ## Specification -/

/-- The log of an execution without empty extents, or nothing (runtime/Log.cc:1855-1906: a buffer into
which an empty extent is read keeps the time stamp it had). -/
def NoEmpty (cap : Nat) (f : List Byte) : Prop :=
  f = [] ∨ ∃ c jk rs ms, f = recBytes (.ckpt jk c :: rs) ∧ Holds cap c [] (.ckpt jk c :: rs) ms ∧
    (∀ jk c, Rec.ckpt jk c ∉ rs) ∧ ∀ e ∈ recExts rs ms, e.2 ≠ []

/-- The log of an execution, cut anywhere, or nothing (runtime/RuntimeLogger.cc:608-616: one write after the other). -/
def EndOf (cap : Nat) (g : List Byte) : Prop :=
  g = [] ∨ ∃ c jk rs ms n, Holds cap c [] (.ckpt jk c :: rs) ms ∧ n ≤ (recBytes (.ckpt jk c :: rs)).length ∧
    (∀ jk c, Rec.ckpt jk c ∉ rs) ∧ g = (recBytes (.ckpt jk c :: rs)).take n

/-! ## Extents in time order -/

theorem stagesOf_flatten (F : Exts) : ∀ acc, (stagesOf acc F).flatten = acc.flatten ++ (F.map Prod.snd).flatten := by
  induction F with
  | nil => intro acc; simp only [stagesOf]; split <;> simp_all
  | cons e F ih =>
    intro acc
    obtain ⟨np, ms⟩ := e
    simp only [stagesOf]
    split
    · simp [ih]
    · simp [ih]

theorem stagesOf_ne {F : Exts} (h : ∀ e ∈ F, e.2 ≠ []) :
    ∀ acc : List (List OutMsg), (∀ l ∈ acc, l ≠ []) → ∀ g ∈ stagesOf acc F, g ≠ [] := by
  have hne : ∀ acc : List (List OutMsg), (∀ l ∈ acc, l ≠ []) → acc ≠ [] → acc.flatten ≠ [] := by
    intro acc ha hn he
    cases acc with
    | nil => exact hn rfl
    | cons a acc =>
      simp only [List.flatten_cons, List.append_eq_nil_iff] at he
      exact ha a (by simp) he.1
  induction F with
  | nil =>
    intro acc ha g hg
    simp only [stagesOf] at hg
    split at hg
    · simp at hg
    · rename_i hn
      rw [List.mem_singleton.1 hg]
      exact hne acc ha hn
  | cons e F ih =>
    intro acc ha g hg
    obtain ⟨np, ms⟩ := e
    have ha' : ∀ l ∈ acc ++ [ms], l ≠ [] := by
      intro l hl
      rcases List.mem_append.1 hl with hl | hl
      · exact ha l hl
      · rw [List.mem_singleton.1 hl]; exact h (np, ms) (by simp)
    simp only [stagesOf] at hg
    split at hg
    · rcases List.mem_cons.1 hg with rfl | hg
      · exact hne _ ha' (by simp)
      · exact ih (fun e he => h e (by simp [he])) [] (by simp) g hg
    · exact ih (fun e he => h e (by simp [he])) _ ha' g hg

theorem rising_groups {gs : List (List OutMsg)} (h : Rising gs.flatten) : ∀ (i j : Nat) (x y : OutMsg) gi gj, i < j →
    gs[i]? = some gi → gs[j]? = some gj → x ∈ gi → y ∈ gj → x.ts < y.ts := by
  intro i j x y gi gj hij h1 h2 hx hy
  have := (List.pairwise_flatten.1 h).2
  obtain ⟨l1, e1⟩ := List.getElem?_eq_some_iff.1 h1
  obtain ⟨l2, e2⟩ := List.getElem?_eq_some_iff.1 h2
  have := List.pairwise_iff_getElem.1 this i j l1 l2 hij
  rw [e1, e2] at this
  exact this x hx y hy

theorem ordered_rising {F : Exts} (hr : Rising (F.map Prod.snd).flatten) (hn : ∀ e ∈ F, e.2 ≠ []) : Ordered F false := by
  have hs : Rising (stagesOf [] F).flatten := by rw [stagesOf_flatten]; simpa using hr
  have hne := stagesOf_ne hn [] (by simp)
  refine ⟨fun e he => ?_, ?_, ⟨hne, ?_⟩, fun _ => hn⟩
  · have := (List.pairwise_flatten.1 hr).1 e.2 (List.mem_map.2 ⟨e, he, rfl⟩)
    exact this.imp Nat.le_of_lt
  · intro i j x y gi gj hij h1 h2 hx hy
    exact Nat.le_of_lt (rising_groups hs i j x y gi gj (by omega) h1 h2 hx hy)
  · intro i x gi gj h1 h2 hx
    obtain ⟨y, hy⟩ := List.exists_mem_of_ne_nil gj (hne gj (List.mem_of_getElem? h2))
    exact ⟨y, hy, Nat.le_of_lt (rising_groups hs i (i + 1) x y gi gj (by omega) h1 h2 hx hy)⟩

theorem Resorted.eq {ms out : List OutMsg} (h : Resorted ms out) (hr : Rising ms) : out = ms := by
  have := h.2 (fun _ => true) (by simpa using hr) fun b => ?_
  · simpa using this
  · exact (hr.sublist List.filter_sublist).imp fun h _ => Nat.le_of_lt h

/-! ## Files appended -/

/-- The log of an execution in time order, without empty extents: its messages are `ms` (as `NoEmpty`, runtime/Log.cc:1855-1906). -/
def Timed (cap : Nat) (f : List Byte) (ms : List OutMsg) : Prop :=
  ∃ c jk rs, f = recBytes (.ckpt jk c :: rs) ∧ Holds cap c [] (.ckpt jk c :: rs) ms ∧ (∀ jk c, Rec.ckpt jk c ∉ rs) ∧
    (∀ e ∈ recExts rs ms, e.2 ≠ []) ∧ Rising ms

theorem Timed.body {cap : Nat} {f : List Byte} {ms : List OutMsg} (h : Timed cap f ms) :
    ∃ c jk bs F, c.Plain ∧ f = checkpointBytes jk c ++ bs ∧ (∀ tail, Body cap c tail [] F (bs ++ tail)) ∧
      (F.map Prod.snd).flatten = ms ∧ Ordered F false ∧ Rising ms := by
  obtain ⟨c, jk, rs, rfl, h1, h2, h3, h4⟩ := h
  obtain ⟨hc, h1⟩ : c.Plain ∧ Holds cap c [] rs ms := by cases h1 with | ckpt hc hj h => exact ⟨hc, h⟩
  obtain ⟨g1, g2⟩ := h1.body h2
  refine ⟨c, jk, recBytes rs, recExts rs ms, hc, by rw [recBytes_ckpt], fun tail => ?_, g1, ?_, h4⟩
  · have := g2 (tail := tail) (F := []) (bs := tail) .nil
    simpa using this
  · exact ordered_rising (by rw [g1]; exact h4) h3

theorem EndOf.cut {cap : Nat} {g : List Byte} (h : EndOf cap g) : CutOf cap g := by
  rcases h with rfl | ⟨c, jk, rs, ms, n, h1, h2, -, h4⟩
  · exact .inl rfl
  · exact .inr ⟨c, jk, rs, ms, n, h1, h2, h4⟩

theorem EndOf.tailOK {cap : Nat} {g : List Byte} (h : EndOf cap g) : TailOK g := by
  rcases h with rfl | ⟨c, jk, rs, ms, n, -, -, -, rfl⟩
  · intro b hb; simp at hb
  · intro b hb
    obtain ⟨b', l, e1, e2⟩ := checkpointBytes_head jk c
    rw [recBytes_ckpt, e1] at hb
    cases n with
    | zero => simp at hb
    | succ n =>
      simp only [List.cons_append, List.take_succ_cons, List.head?_cons, Option.some.injEq] at hb
      rw [← hb]; exact e2

theorem timed_tailOK {cap : Nat} {fs : List (List Byte)} {mss : List (List OutMsg)} (h : List.Forall₂ (Timed cap) fs mss)
    {g : List Byte} (hg : EndOf cap g) : TailOK (fs.flatten ++ g) := by
  cases h with
  | nil => exact hg.tailOK
  | cons hab _ =>
    obtain ⟨c, jk, bs, F, -, rfl, -⟩ := hab.body
    intro b hb
    obtain ⟨b', l, e1, e2⟩ := checkpointBytes_head jk c
    simp only [List.flatten_cons, e1, List.cons_append, List.head?_cons, Option.some.injEq] at hb
    rw [← hb]; exact e2

/-- The last log of the file. -/
theorem end_run {cap : Nat} {pick : Nat → List BufFrag → Nat} (hp : Picks pick) {g : List Byte} (hg : EndOf cap g)
    {ck : Checkpoint} {s : OSt} {T : Nat} (hs : Sim cap ck g s ⟨[], [], [], T, .fin⟩) :
    ∃ m o s', decodeFile cap g = some m ∧ OStar cap pick s s' ∧ s'.out = s.out ++ o ∧ s'.mode = .done ∧ Resorted m o := by
  rcases hg with rfl | ⟨c, jk, rs, ms, n, h, hn, hno, rfl⟩
  · obtain ⟨s', h1, h2, h3, -⟩ := sim_end (pick := pick) hs
    exact ⟨[], [], s', decodeFile_nil _, h1.star, by simpa using h2, h3, .nil, fun _ _ _ => rfl⟩
  have hplain : c.Plain := by cases h with | ckpt hc hj h => exact hc
  have h40 : (checkpointBytes jk c).length = 40 := checkpointBytes_length hplain.1
  by_cases hlt : n < 40
  · have he : (recBytes (.ckpt jk c :: rs)).take n = (checkpointBytes jk c).take n := by
      rw [recBytes_ckpt, List.take_append_of_le_length (by omega)]
    rw [he] at hs ⊢
    obtain ⟨s', h1, h2, h3, -⟩ := sim_cut_ckpt (pick := pick) hplain hlt hs
    refine ⟨[], [], s', ?_, h1.star, by simpa using h2, h3, .nil, fun _ _ _ => rfl⟩
    rw [decodeFile, Dec.openFile, readDictionary_cut _ _ (by rw [List.length_take]; omega)]
  · rw [recBytes_ckpt, List.length_append] at hn
    have htake : (recBytes (.ckpt jk c :: rs)).take n =
        checkpointBytes jk c ++ (recBytes rs).take (n - 40) := by
      rw [recBytes_ckpt, List.take_append, List.take_of_length_le (by omega), h40]
    obtain ⟨ho, hh⟩ := open_ok h (Dec.new cap) ((recBytes rs).take (n - 40))
    obtain ⟨a, b, m1, m2, tail, g1, g2, g3, g4, g5, g6, g7, g8⟩ := cut_body hh hno (n - 40) (by omega)
    obtain ⟨s', u1, u2⟩ := g8 { Dec.new cap with
          file := ⟨(recBytes rs).take (n - 40), false⟩
          good := true, ck := c, dict := Dict.empty, out := [], bf := BufFrag.init cap }
      rfl rfl rfl describes_empty (by simp [BufFrag.init])
    have hfl : ((recExts a m1).map Prod.snd).flatten = m1 :=
      (g3.body fun jk c hm => hno jk c (by rw [g1]; simp [hm])).1
    rw [htake] at hs ⊢
    obtain ⟨s1, q1, q2, q3⟩ := sim_next (pick := pick) hp hplain hs g6
    obtain ⟨o', s2, r1, r2, r3, r4, -⟩ := sim_last (pick := pick) hp g7 q3
    refine ⟨m1, o', s2, ?_, (q1.trans r2).star, by rw [r3, q2], r4, by rw [← hfl]; exact r1.resorted g6⟩
    have hul := u1.loop
    simp only at hul
    rw [decodeFile, ho]
    simp only [Dec.unordered]
    rw [hul]
    simpa using u2

theorem timed_run {cap : Nat} {pick : Nat → List BufFrag → Nat} (hp : Picks pick) {fs : List (List Byte)}
    {mss : List (List OutMsg)} (h : List.Forall₂ (Timed cap) fs mss) {g : List Byte} (hg : EndOf cap g)
    {ck : Checkpoint} {s : OSt} {T : Nat} (hs : Sim cap ck (fs.flatten ++ g) s ⟨[], [], [], T, .fin⟩) :
    ∃ m o s', decodeFile cap g = some m ∧ OStar cap pick s s' ∧ s'.out = s.out ++ (mss.flatten ++ o) ∧ s'.mode = .done ∧
      Resorted m o := by
  induction h generalizing ck s T with
  | nil => exact end_run hp hg hs
  | @cons f ms fs mss hab ht ih =>
    obtain ⟨c, jk, bs, F, h2, rfl, h4, h5, oF, hr⟩ := hab.body
    rw [List.flatten_cons, List.append_assoc, List.append_assoc] at hs
    obtain ⟨s1, q1, q2, q3⟩ := sim_next (pick := pick) hp h2 hs (h4 (fs.flatten ++ g))
    have hJ : ASt.J 0 ⟨[], [], F, T, .fill⟩ := ASt.J.init oF.chrono oF.apart oF.prog
      (fun ⟨e, he, hn⟩ => absurd hn (oF.empty rfl e he))
    obtain ⟨o, s2, T', r1, r2, r3, r4⟩ := sim_run (pick := pick) hp (timed_tailOK ht hg) _ (Nat.le_refl _) q3
      (fun _ => ⟨0, hJ⟩)
    obtain ⟨m, o', s3, g0, g1, g2, g3, g4⟩ := ih r4
    refine ⟨m, o', s3, g0, (q1.star.trans r2).trans g1, ?_, g3, g4⟩
    have ho := r1.resorted (h4 (fs.flatten ++ g))
    rw [h5] at ho
    rw [g2, r3, q2, ho.eq hr]; simp

theorem timed_ordered {cap : Nat} (h5 : 5 ≤ cap) {fs : List (List Byte)} {mss : List (List OutMsg)}
    (h : List.Forall₂ (Timed cap) fs mss) {g : List Byte} (hg : EndOf cap g) {o : Objs} (hu : Used cap o) :
    ∃ m out, decodeFile cap g = some m ∧ orderedFile cap o (fs.flatten ++ g) = some (mss.flatten ++ out) ∧ Resorted m out := by
  cases h with
  | nil =>
    rcases hg with rfl | ⟨c, jk, rs, ms, n, h, hn, hno, rfl⟩
    · exact ⟨[], [], decodeFile_nil _, by simpa using orderedFile_nil cap o, .nil, fun _ _ _ => rfl⟩
    · exact recs_ordered h5 h hno n hn hu
  | @cons f ms fs mss hab ht =>
    obtain ⟨c, jk, bs, F, h2, rfl, h4, hfl, oF, hr⟩ := hab.body
    have hpool := hu.pool h5
    obtain ⟨T, hT⟩ := pool_bound (o.free.map o.heap)
    let s : Dec := { Dec.new cap with
      file := ⟨bs ++ (fs.flatten ++ g), false⟩, good := true, ck := c, dict := Dict.empty, out := [] }
    have hop : (Dec.new cap).openFile (((checkpointBytes jk c ++ bs) ++ fs.flatten) ++ g) = some (true, s) := by
      rw [List.append_assoc, List.append_assoc, Dec.openFile, readDictionary_ok h2]
    obtain ⟨pick, hp, hc⟩ := C70_heaps h5 hu s
    obtain ⟨s1, q1, q2, q3⟩ := sim_open (pick := pick) hp (h4 (fs.flatten ++ g)) s rfl rfl rfl rfl
      (fun bf hbf => ⟨hpool bf hbf, hT bf hbf⟩)
    have hJ : ASt.J 0 ⟨[], [], F, T, .fill⟩ := ASt.J.init oF.chrono oF.apart oF.prog
      (fun ⟨e, he, hn⟩ => absurd hn (oF.empty rfl e he))
    obtain ⟨o', s2, T', r1, r2, r3, r4⟩ := sim_run (pick := pick) hp (timed_tailOK ht hg) _ (Nat.le_refl _) q3
      (fun _ => ⟨0, hJ⟩)
    obtain ⟨m, o2, s3, g0, g1, g2, g3, g4⟩ := timed_run hp ht hg r4
    have ho := r1.resorted (h4 (fs.flatten ++ g))
    rw [hfl] at ho
    have hout : s3.out = ms ++ mss.flatten ++ o2 := by rw [g2, r3, q2, ho.eq hr]; simp [s]
    have hrun : s.ordered cap (o.free.map o.heap) pick = some s3 :=
      OStar.done hp (room_of_stor hpool) ((q1.star.trans r2).trans g1) g3
    refine ⟨m, o2, g0, ?_, g4⟩
    rw [orderedFile, List.flatten_cons, List.flatten_cons, hop]
    rcases hc with ⟨-, e⟩ | ⟨r, t', e1, e2, e3, -⟩
    · rw [hrun] at e; simp at e
    · rw [hrun] at e2
      simp only [Option.some.injEq] at e2
      subst e2
      show (s.orderedHeap cap o).map HSt.out = _
      rw [e1, Option.map_some, e3, hout]

/-- Every file of the runtime is such a beginning of a log. -/
theorem files_end {cfg : Config} {prog : List Site} {s : Rt} (h : FInv cfg prog s) : EndOf (cfg.staging + 9) s.disk := by
  obtain ⟨c, jk, rsD, rsO, rsB, rs', k1, k2, ⟨msD, d1, d2, -⟩, ⟨msO, o1, -, -⟩, -, ⟨e4, hno⟩, -, e6⟩ := h.cur
  have hh : Holds (cfg.staging + 9) c [] (rsD ++ rsO) (msD ++ msO) := d1.append (by rw [d2]; exact o1)
  have hdisk : ∃ n, n ≤ (recBytes (rsD ++ rsO)).length ∧ s.disk = (recBytes (rsD ++ rsO)).take n := by
    cases ha : s.aio with
    | none =>
      rw [ha] at e6
      obtain ⟨rfl, hd⟩ := e6
      exact ⟨(recBytes rsD).length, by simp, by simp [hd]⟩
    | some a =>
      rw [ha] at e6
      obtain ⟨hb, hd⟩ := e6
      refine ⟨(recBytes rsD).length + min a.done (recBytes rsO).length, ?_, ?_⟩
      · rw [recBytes_append, List.length_append]; omega
      · rw [hd, recBytes_append, List.take_append,
          List.take_of_length_le (l := recBytes rsD) (by omega), hb, Nat.add_sub_cancel_left]
        congr 1
        rcases Nat.le_total a.done (s.mem s.dbl).length with hl | hl
        · rw [Nat.min_eq_left hl]
        · rw [Nat.min_eq_right hl, List.take_of_length_le hl, List.take_length]
  obtain ⟨n, n1, n2⟩ := hdisk
  cases hr : rsD ++ rsO with
  | nil => left; rw [n2, hr]; simp [recBytes]
  | cons r rs1 =>
    rw [hr] at e4 hh n1 n2
    simp only [List.cons_append, List.cons.injEq] at e4
    obtain ⟨rfl, rfl⟩ := e4
    exact .inr ⟨c, jk, rs1, _, n, hh, n1, fun jk c hm => hno (.ckpt jk c) (by simp [hm]), n2⟩

/-! ## C81 -/

/-- **C81**, any logs appended, the last one cut anywhere: if in each but the last the messages are in time order and no
extent is empty, ordered decompression prints the messages of these logs one after the other, as unordered decompression
does, and then those of the last one, sorted as if it were alone (C74).  The time stamps of different logs are not compared.
What is missing: logs in front that are not in time order (false of the code, C27_ordered_false) or have empty extents. -/
theorem C81_appended_partial {cap : Nat} (h5 : 5 ≤ cap) {fs : List (List Byte)} (hn : ∀ f ∈ fs, NoEmpty cap f)
    (hr : ∀ f ∈ fs, ∀ m, decodeFile cap f = some m → Rising m) {g : List Byte} (hg : EndOf cap g)
    {o : Objs} (hu : Used cap o) :
    ∃ (mss : List (List OutMsg)) (m out : List OutMsg), fs.map (decodeFile cap) = mss.map some ∧
      decodeFile cap g = some m ∧ decodeFile cap (fs.flatten ++ g) = some (mss.flatten ++ m) ∧
      orderedFile cap o (fs.flatten ++ g) = some (mss.flatten ++ out) ∧ Resorted m out := by
  suffices ∃ mss : List (List OutMsg), List.Forall₂ (PartOf cap) fs mss ∧
      ∃ fs' mss' : List _, List.Forall₂ (Timed cap) fs' mss' ∧ fs'.flatten = fs.flatten ∧ mss'.flatten = mss.flatten by
    obtain ⟨mss, h1, fs', mss', h2, e1, e2⟩ := this
    obtain ⟨k1, k2⟩ := partOf_all h1
    obtain ⟨m, f1, f2⟩ := decodeFile_behind k1 hg.cut
    obtain ⟨m', out, g1, g2, g3⟩ := timed_ordered h5 h2 hg hu
    rw [f1] at g1
    cases g1
    exact ⟨mss, m, out, k2, f1, f2, by rw [← e1, ← e2]; exact g2, g3⟩
  induction fs with
  | nil => exact ⟨[], .nil, [], [], .nil, rfl, rfl⟩
  | cons f fs ih =>
    obtain ⟨mss, h1, fs', mss', h2, e1, e2⟩ := ih (fun f hf => hn f (by simp [hf])) fun f hf => hr f (by simp [hf])
    rcases hn f (by simp) with rfl | ⟨c, jk, rs, ms, rfl, g1, g2, g3⟩
    · exact ⟨[] :: mss, .cons (.nil _) h1, fs', mss', h2, by simpa using e1, by simpa using e2⟩
    · have hp := partOf_holds g1
      have hri := hr _ (by simp) ms hp.decode
      exact ⟨ms :: mss, .cons hp h1, _ :: fs', ms :: mss', .cons ⟨c, jk, rs, rfl, g1, g2, g3, hri⟩ h2,
        by simp [e1], by simp [e2]⟩

section
variable {cfg : Config}

/-- **C81** for any number of processes that have appended to a file one after the other until nothing was being written
any more, and in each of which only one thread has logged, with increasing time stamps; and then a process `q`, at any moment of
its execution and with any number of threads.  Ordered decompression prints, process by process, the messages of the first
calls that its thread had to record, each once, in call order, and nothing else; all of them if the buffers are empty.  Then
it prints the messages of `q`, sorted as if its log were alone.  What is missing: empty extents; and several threads in
processes that others follow, for which it is false, `C81_threads_false`. -/
theorem C81_processes_partial (h0 : 0 < cfg.staging) {ps : List Proc} (hps : ∀ p ∈ ps, p.OK cfg)
    (hd : ∀ p ∈ ps, p.c.rt.aio = none) (hn : ∀ p ∈ ps, ∀ f ∈ p.c.rt.files, NoEmpty (cfg.staging + 9) f)
    (ha : ∀ p ∈ ps, allocs (calls p.ls) ≤ 1)
    (hs : ∀ p ∈ ps, ∀ t, (stamps t (calls p.ls)).Pairwise (· < ·)) {q : Proc} (hq : q.OK cfg) (hq1 : q.c.rt.closed = [])
    {o : Objs} (hu : Used (cfg.staging + 9) o) :
    ∃ (outs : List (List OutMsg)) (m last : List OutMsg),
      orderedFile (cfg.staging + 9) o (ps.flatMap Proc.wrote ++ q.wrote) = some (outs.flatten ++ last) ∧
      decodeFile (cfg.staging + 9) (ps.flatMap Proc.wrote ++ q.wrote) = some (outs.flatten ++ m) ∧
      decodeFile (cfg.staging + 9) q.wrote = some m ∧ Resorted m last ∧
      List.Forall₂ (fun (p : Proc) out =>
        (∀ t b, (p.c.rt.thr t).bid = some b → ∃ n,
          List.Forall₂ (MsgOf p.prog b) ((mustRecord p.prog t (calls p.ls)).take n) out ∧
          out.map OutMsg.ts = (stamps t (calls p.ls)).take n) ∧
        (∀ m ∈ out, ∃ t, (p.c.rt.thr t).bid = some m.tid) ∧
        (p.c.rt.mem p.c.rt.encPtr = [] → ∀ t b, (p.c.rt.thr t).bid = some b →
          (p.c.sb t).got = (p.c.sb t).pub → ((p.c.rt.thr t).pc = .idle ∨ (p.c.rt.thr t).pc = .exited) →
          List.Forall₂ (MsgOf p.prog b) (mustRecord p.prog t (calls p.ls)) out)) ps outs := by
  have h1 : ∀ p ∈ ps, ∀ t b t' b', (p.c.rt.thr t).bid = some b → (p.c.rt.thr t').bid = some b' → t = t' := by
    intro p hp t b t' b' hb hb'
    obtain ⟨hP, hE, -⟩ := hps p hp
    have := ha p hp
    obtain ⟨als, s, e1, -, -, -, e3, e4, -⟩ := C66_refinement hP h0 hE
    obtain ⟨j1, j2⟩ := e1.bids.2 (by rw [e4]; omega)
    rw [← e3] at hb hb'
    have g1 := j1 t b hb
    have g2 := j1 t' b' hb'
    rw [e4] at g1 g2
    obtain rfl : b = b' := by omega
    exact j2 t t' b hb hb'
  have hw : ps.flatMap Proc.wrote = (ps.flatMap fun p => p.c.rt.files).flatten := by
    clear hps hd hn ha h1 hs
    induction ps with
    | nil => rfl
    | cons p ps ih => rw [List.flatMap_cons, List.flatMap_cons, List.flatten_append, ih]; rfl
  have hqe : EndOf (cfg.staging + 9) q.wrote := by
    obtain ⟨s, f1, -, f3, -⟩ := hq.2.1.finv hq.1 h0
    have := files_end f1
    rw [f3] at this
    simpa [Proc.wrote, Rt.files, hq1] using this
  have one : ∀ p ∈ ps, ∃ os : List (List OutMsg), p.c.rt.files.map (decodeFile (cfg.staging + 9)) = os.map some ∧
      Rising os.flatten := by
    intro p hp
    obtain ⟨hP, hE, ha⟩ := hps p hp
    obtain ⟨os, f1, f2, f3⟩ := C66_prefix hP h0 hE ha
    refine ⟨os, f1, ?_⟩
    cases hos : os.flatten with
    | nil => exact .nil
    | cons m l =>
      obtain ⟨t, ht⟩ := f3 m (by rw [hos]; simp)
      have hall : (os.flatten.filter fun x => x.tid == m.tid) = os.flatten := by
        refine List.filter_eq_self.2 fun x hx => ?_
        obtain ⟨u, hu⟩ := f3 x hx
        obtain rfl := h1 p hp t m.tid u x.tid ht hu
        rw [ht] at hu
        simpa using hu.symm
      obtain ⟨n, -, g2⟩ := f2 t m.tid ht
      rw [hall, hos] at g2
      have := (hs p hp t).sublist (List.take_sublist n _)
      rw [← g2, List.pairwise_map] at this
      exact this
  obtain ⟨mss, m, last, k1, k2, k3, k4, k5⟩ := C81_appended_partial (cap := cfg.staging + 9) (by omega)
    (fs := ps.flatMap fun p => p.c.rt.files)
    (fun f hf => by
      obtain ⟨p, hp, hf⟩ := List.mem_flatMap.1 hf
      exact hn p hp f hf)
    (fun f hf m hm => by
      obtain ⟨p, hp, hf⟩ := List.mem_flatMap.1 hf
      obtain ⟨os, g1, g2⟩ := one p hp
      have : some m ∈ os.map some := by rw [← g1, ← hm]; exact List.mem_map.2 ⟨f, hf, rfl⟩
      simp only [List.mem_map, Option.some.injEq, exists_eq_right] at this
      exact g2.sublist (List.sublist_flatten_of_mem this)) hqe hu
  obtain ⟨outs, g1, g2⟩ := C79_processes h0 hps fun p hp => hd p (List.dropLast_subset _ hp)
  have hmo : outs.flatten = mss.flatten := by
    obtain ⟨mss', m', -, j1, j2, j3, -⟩ := C81_appended_partial (cap := cfg.staging + 9) (by omega)
      (fs := ps.flatMap fun p => p.c.rt.files) (fun f hf => by
        obtain ⟨p, hp, hf⟩ := List.mem_flatMap.1 hf
        exact hn p hp f hf)
      (fun f hf m hm => by
        obtain ⟨p, hp, hf⟩ := List.mem_flatMap.1 hf
        obtain ⟨os, g1, g2⟩ := one p hp
        have : some m ∈ os.map some := by rw [← g1, ← hm]; exact List.mem_map.2 ⟨f, hf, rfl⟩
        simp only [List.mem_map, Option.some.injEq, exists_eq_right] at this
        exact g2.sublist (List.sublist_flatten_of_mem this)) (.inl rfl) hu
    rw [k1] at j1
    obtain rfl := some_inj j1
    rw [decodeFile_nil] at j2
    cases j2
    rw [hw, ← List.append_nil (List.flatten _), j3] at g1
    simpa using g1.symm
  refine ⟨outs, m, last, by rw [hw, hmo]; exact k4, by rw [hw, hmo]; exact k3, k2, k5, ?_⟩
  clear k1 k2 k3 k4 k5 g1 hw one hn hs hps hmo ha
  induction g2 with
  | nil => exact .nil
  | @cons p out ps outs hab _ ih =>
    refine .cons ?_ (ih (fun p hp => hd p (by simp [hp])) fun p hp => h1 p (by simp [hp]))
    obtain ⟨f1, f2, f3⟩ := hab
    have hall : ∀ t b, (p.c.rt.thr t).bid = some b → (out.filter fun m => m.tid == b) = out := by
      intro t b hb
      refine List.filter_eq_self.2 fun m hm => ?_
      obtain ⟨u, hu⟩ := f2 m hm
      obtain rfl := h1 p (by simp) t b u m.tid hb hu
      rw [hb] at hu
      simpa using hu.symm
    refine ⟨fun t b hb => ?_, f2, fun hw t b hb h2 h3 => ?_⟩
    · obtain ⟨n, e1, e2⟩ := f1 t b hb
      rw [hall t b hb] at e1 e2
      exact ⟨n, e1, e2⟩
    · have := f3 hw (hd p (by simp)) t b hb h2 h3
      rwa [hall t b hb] at this

/-- **C81** for processes that have ended regularly: the messages that ordered decompression prints for such a process are
those of the first calls of its thread, among them all that had returned, with their stores in memory, when its destructor
began.  What is missing: as in `C81_processes_partial` and `C79_ended_partial`. -/
theorem C81_ended_partial (h0 : 0 < cfg.staging) {ps : List Life} (hps : ∀ p ∈ ps, p.OK cfg)
    (hn : ∀ p ∈ ps, ∀ f ∈ p.d3.cr.rt.files, NoEmpty (cfg.staging + 9) f)
    (ha : ∀ p ∈ ps, allocs (calls (p.ls ++ p.ls')) ≤ 1)
    (hs : ∀ p ∈ ps, ∀ t, (stamps t (calls (p.ls ++ p.ls'))).Pairwise (· < ·)) {q : Proc} (hq : q.OK cfg)
    (hq1 : q.c.rt.closed = []) {o : Objs} (hu : Used (cfg.staging + 9) o) :
    ∃ (outs : List (List OutMsg)) (m last : List OutMsg),
      orderedFile (cfg.staging + 9) o (ps.flatMap Life.wrote ++ q.wrote) = some (outs.flatten ++ last) ∧
      decodeFile (cfg.staging + 9) q.wrote = some m ∧ Resorted m last ∧
      List.Forall₂ (fun (p : Life) out =>
        (∀ u b, (p.d3.cr.rt.thr u).bid = some b → ∃ n, ((p.c.sb u).buf = [] → finished u p.ls ≤ n) ∧
          n ≤ (mustRecord p.prog u (calls (p.ls ++ p.ls'))).length ∧
          List.Forall₂ (MsgOf p.prog b) ((mustRecord p.prog u (calls (p.ls ++ p.ls'))).take n)
            (out.filter fun m => m.tid == b)) ∧
        ∀ m ∈ out, ∃ u, (p.d3.cr.rt.thr u).bid = some m.tid) ps outs := by
  obtain ⟨outs, last, f1, f2, os, f3, rfl⟩ := C79_ended_partial h0 hps hq
  have hmem : ∀ P : Proc → Prop, (∀ p ∈ ps, P p.proc) → ∀ p ∈ ps.map Life.proc, P p := by
    intro P h p hp
    obtain ⟨l, hl, rfl⟩ := List.mem_map.1 hp
    exact h l hl
  obtain ⟨outs', m, last, g1, g2, g3, g4, -⟩ := C81_processes_partial h0 (ps := ps.map Life.proc)
    (hmem _ fun p hp => (C79_regular h0 (hps p hp)).1) (hmem _ fun p hp => (C79_regular h0 (hps p hp)).2)
    (hmem _ hn)
    (hmem (fun p => allocs (calls p.ls) ≤ 1) fun p hp => by
      have := (calls_setFile (prog := p.prog) (ls := p.ls) (ls' := p.ls') (t := p.t) 0).2.1
      simp only [Life.proc]
      rw [this]
      exact ha p hp)
    (hmem (fun p => ∀ t, (stamps t (calls p.ls)).Pairwise (· < ·)) fun p hp t => by
      have : stamps t (calls (p.ls ++ .rt (.setFile p.t true) :: p.ls')) = stamps t (calls (p.ls ++ p.ls')) := by
        simp [calls, stamps]
      simp only [Life.proc]
      rw [this]
      exact hs p hp t) hq hq1 hu
  have hw : (ps.map Life.proc).flatMap Proc.wrote = ps.flatMap Life.wrote := by
    rw [List.flatMap_map]; rfl
  rw [hw] at g1 g2
  have hm : os.flatten = m := by
    have : q.c.rt.files = [q.wrote] := by simp [Proc.wrote, Rt.files, hq1]
    rw [this, List.map_singleton, g3] at f3
    have := some_inj (a := [m]) (b := os) (by simpa using f3)
    rw [← this]; simp
  rw [g2, hm] at f1
  have he : outs'.flatten = outs.flatten := by simpa using f1
  exact ⟨outs, m, last, by rw [g1, he], g3, g4, f2⟩

end

/-! ## A concrete case -/

/-- The records in the log of `exCrB`: two messages, one extent each. -/
def exOrderRecs : List Rec :=
  [.dict 1 [exSite0],
   .ext 0 false [⟨0, 1000, [.int .i32 (-5)]⟩] (msgOut 0 0 exSite0 ⟨0, 1000, [.int .i32 (-5)]⟩),
   .ext 0 true [⟨0, 1010, [.int .i32 70000]⟩] (msgOut 0 0 exSite0 ⟨0, 1010, [.int .i32 70000]⟩)]

theorem exOrderCall (n : Int) (hn : ITy.i32.InRange n) (ts : Nat) (hts : ts < 2 ^ 64) :
    Encoded [exSite0] 0 [⟨0, ts, [.int .i32 n]⟩] (msgOut 0 0 exSite0 ⟨0, ts, [.int .i32 n]⟩) ∧
    ∃ m, Prints [exSite0] 0 exCk ⟨0, ts, [.int .i32 n]⟩ m := by
  have hok : LogCall.OK [exSite0] ⟨0, ts, [.int .i32 n]⟩ exSite0 :=
    ⟨rfl, rfl, by simpa [Arg.Valid] using hn, (by decide : (0 : Nat) < 2 ^ 32), hts,
      (by decide : (20 : Nat) < 2 ^ 31 - 16)⟩
  refine ⟨?_, _, Prints.mk (s := exSite0) (is := exItems0) hok exSite0_supported (.conv (as := [.int .i32 n]) (as' := [])
    (.mk _ (ws := []) (ps := []) .absent .absent (.scalar _ rfl (Reads.int .i32 .i32 n (.inl (by decide))))) .nil)⟩
  have := Encoded.cons (last := 0) (junk := 0) hok (.cons (.inl (by decide)) .nil) (.nil (last := ts))
  simpa using this

theorem exOrder_noEmpty : NoEmpty (exCfg.staging + 9) (recBytes (.ckpt 0 exCk :: exOrderRecs)) := by
  obtain ⟨e1, m1, p1⟩ := exOrderCall (-5) (by decide) 1000 (by decide)
  obtain ⟨e2, m2, p2⟩ := exOrderCall 70000 (by decide) 1010 (by decide)
  refine .inr ⟨exCk, 0, exOrderRecs, [m1] ++ ([m2] ++ []), rfl, .ckpt exCk_plain (by decide) (.dict ?_ (by decide +kernel)
    (.ext e1 (.cons p1 .nil) (by decide) (by decide +kernel) (by decide) (.ext e2 (.cons p2 .nil) (by decide) (by decide +kernel)
      (by decide) .nil))), ?_, ?_⟩
  · intro s hs
    rw [List.mem_singleton.1 hs]
    exact ⟨_, exSite0_supported⟩
  · simp [exOrderRecs]
  · simp [exOrderRecs, recExts]

/-- Case for `C81_appended_partial` and `C81_processes_partial`: two runs of a program that logs two messages; then a third
process, which is killed when 75 of the 79 bytes of its log are written.  The decoder has been used before. -/
example : ∃ (p q : Proc) (o : Objs), (∀ r ∈ [p, p], r.OK exCfg) ∧ (∀ r ∈ [p, p], r.c.rt.aio = none) ∧
    (∀ r ∈ [p, p], ∀ f ∈ r.c.rt.files, NoEmpty (exCfg.staging + 9) f) ∧ (∀ r ∈ [p, p], allocs (calls r.ls) ≤ 1) ∧
    (∀ r ∈ [p, p], ∀ t, (stamps t (calls r.ls)).Pairwise (· < ·)) ∧ q.OK exCfg ∧ q.c.rt.closed = [] ∧
    EndOf (exCfg.staging + 9) q.wrote ∧
    (∀ f ∈ p.c.rt.files, ∀ m, decodeFile (exCfg.staging + 9) f = some m → Rising m) ∧
    0 < exCfg.staging ∧ q.c.rt.aio ≠ none ∧ Used (exCfg.staging + 9) o ∧ o.deleted ≠ [] ∧
    (orderedFile (exCfg.staging + 9) o ([p, p].flatMap Proc.wrote ++ q.wrote)).map (List.map OutMsg.ts) =
      some [1000, 1010, 1000, 1010] := by
  obtain ⟨c, h, hp⟩ := exCrExec (ls := exCrB)
    (p := fun c => exCrCheck (exKilled 75) fun d => c.rt.aio == none && d.rt.aio != none &&
      c.rt.files == [recBytes (.ckpt 0 exCk :: exOrderRecs)] && d.rt.closed.length == 0 &&
      (decodeFile (exCfg.staging + 9) (recBytes (.ckpt 0 exCk :: exOrderRecs))).map (List.map OutMsg.ts) == some [1000, 1010] &&
      (orderedFile (exCfg.staging + 9) exHeapObjs (c.rt.files.flatten ++ c.rt.files.flatten ++ d.rt.files.flatten)).map
        (List.map OutMsg.ts) == some [1000, 1010, 1000, 1010]) (by decide +kernel) (by decide +kernel)
  obtain ⟨d, h', hp⟩ := exCrExec (by decide +kernel) hp
  simp only [Bool.and_eq_true, beq_iff_eq, bne_iff_ne, ne_eq, List.length_eq_zero_iff] at hp
  obtain ⟨⟨⟨⟨⟨p1, p2⟩, p3⟩, p4⟩, p5⟩, p6⟩ := hp
  have hq : EndOf (exCfg.staging + 9) (Proc.wrote ⟨exSites, exKilled 75, d⟩) := by
    obtain ⟨s, f1, -, f3, -⟩ := h'.finv exProgOK (by decide)
    have := files_end f1
    rw [f3] at this
    simpa [Proc.wrote, Rt.files, p4] using this
  have hst : ∀ t, (stamps t (calls exCrB)).Pairwise (· < ·) := by
    intro t
    by_cases ht : t = 1
    · subst ht; decide +kernel
    · have : ∀ l ∈ calls exCrB, ∀ u ts, l = .stamp u ts → u = 1 := by
        have h : (calls exCrB).all (fun l => match l with | .stamp u _ => u == 1 | _ => true) = true := by decide +kernel
        rintro l hl u ts rfl
        simpa using List.all_eq_true.1 h _ hl
      have : stamps t (calls exCrB) = [] := by
        refine List.filterMap_eq_nil_iff.2 fun l hl => ?_
        split
        · rename_i u ts
          rw [if_neg]
          have := this _ hl u ts rfl
          omega
        · rfl
      rw [this]; exact .nil
  refine ⟨⟨exSites, exCrB, c⟩, ⟨exSites, exKilled 75, d⟩, exHeapObjs, ?_, ?_, ?_, ?_, ?_, ⟨exProgOK, h', exKilled_allocs _⟩,
    p4, hq, ?_, by decide, p2, exHeapObjs_used, by decide +kernel, ?_⟩
  · intro r hr
    obtain rfl : r = _ := by simpa using hr
    exact ⟨exProgOK, h, exCrB_allocs⟩
  · intro r hr
    obtain rfl : r = _ := by simpa using hr
    exact p1
  · intro r hr f hf
    obtain rfl : r = _ := by simpa using hr
    simp only at hf
    rw [p3] at hf
    rw [List.mem_singleton.1 hf]
    exact exOrder_noEmpty
  · intro r hr
    obtain rfl : r = _ := by simpa using hr
    show allocs (calls exCrB) ≤ 1
    decide +kernel
  · intro r hr
    obtain rfl : r = _ := by simpa using hr
    exact hst
  · intro f hf m hm
    simp only at hf
    rw [p3] at hf
    rw [List.mem_singleton.1 hf] at hm
    rw [hm] at p5
    simp only [Option.map_some, Option.some.injEq] at p5
    have : (m.map OutMsg.ts).Pairwise (· < ·) := by rw [p5]; decide
    exact List.pairwise_map.1 this
  · simpa [Proc.wrote] using p6

/-- The first two records in the log of `exCrB`. -/
def exOrderOne : List Rec := exOrderRecs.take 2

theorem exOrderOne_noEmpty : NoEmpty (exCfg.staging + 9) (recBytes (.ckpt 0 exCk :: exOrderOne)) := by
  obtain ⟨e1, m1, p1⟩ := exOrderCall (-5) (by decide) 1000 (by decide)
  refine .inr ⟨exCk, 0, exOrderOne, [m1] ++ [], rfl, .ckpt exCk_plain (by decide) (.dict ?_ (by decide +kernel)
    (.ext e1 (.cons p1 .nil) (by decide) (by decide +kernel) (by decide) .nil)), ?_, ?_⟩
  · intro s hs
    rw [List.mem_singleton.1 hs]
    exact ⟨_, exSite0_supported⟩
  · simp [exOrderOne, exOrderRecs]
  · simp [exOrderOne, exOrderRecs, recExts]

/-- Case for `C81_ended_partial`: two runs of a program that logs one message, which is written during the destructor; then
a third process, which is killed when 75 of the 79 bytes of its log are written. -/
example : ∃ (p : Life) (q : Proc), (∀ r ∈ [p, p], r.OK exCfg) ∧
    (∀ r ∈ [p, p], ∀ f ∈ r.d3.cr.rt.files, NoEmpty (exCfg.staging + 9) f) ∧
    (∀ r ∈ [p, p], allocs (calls (r.ls ++ r.ls')) ≤ 1) ∧
    (∀ r ∈ [p, p], ∀ t, (stamps t (calls (r.ls ++ r.ls'))).Pairwise (· < ·)) ∧ q.OK exCfg ∧ q.c.rt.closed = [] ∧
    0 < exCfg.staging ∧ Used (exCfg.staging + 9) exHeapObjs ∧ p.c.rt.files = [[]] ∧ finished 1 p.ls = 1 ∧
    (p.c.sb 1).buf = [] ∧ (p.d3.cr.rt.thr 1).bid = some 0 ∧
    (orderedFile (exCfg.staging + 9) exHeapObjs ([p, p].flatMap Life.wrote ++ q.wrote)).map (List.map OutMsg.ts) =
      some [1000, 1000] := by
  obtain ⟨c, d1, d2, d3, d4, h1, h2, h3, h4, h5, h6, hp⟩ := exCdCheck_ok (ls := exCdMain) (ls' := exCdEnd) (ls'' := exCdAfter)
    (t := 3) (p := fun c d3 _ => exCrCheck (exKilled 75) fun d => (c.rt.bufs.length ≤ 1) && (c.sb 1).buf = [] &&
      (d3.cr.rt.thr 1).bid = some 0 && c.rt.files = [[]] && d.rt.closed.length == 0 &&
      d3.cr.rt.files == [recBytes (.ckpt 0 exCk :: exOrderOne)] &&
      (orderedFile (exCfg.staging + 9) exHeapObjs (d3.cr.rt.files.flatten ++ d3.cr.rt.files.flatten ++ d.rt.files.flatten)).map
        (List.map OutMsg.ts) == some [1000, 1000])
    (by decide +kernel) (by decide +kernel) (by decide +kernel)
  obtain ⟨d, h', hp⟩ := exCrExec (by decide +kernel) hp
  simp only [Bool.and_eq_true, decide_eq_true_eq, beq_iff_eq, List.length_eq_zero_iff] at hp
  obtain ⟨⟨⟨⟨⟨⟨p7, p1⟩, p2⟩, p3⟩, p4⟩, p5⟩, p6⟩ := hp
  have ha : allocs (calls (exCdMain ++ exCdEnd)) ≤ 1 := by decide +kernel
  have hfin : finished 1 exCdMain = 1 := by decide +kernel
  have hn : exCdEnd.all (fun l => match l with | .rt (.spurious _) | .rt (.push _) => false | _ => true) = true := by
    decide +kernel
  obtain ⟨hact, -⟩ := cd_destroy h2
  have hcut := C80_no_cut (ls' := .rt (.setFile 3 true) :: exCdEnd) exProgOK (by decide) h1 (by
    intro l hl
    rcases List.mem_cons.1 hl with rfl | hl
    · trivial
    · exact h4 l hl) (.inr ⟨p7, fun u hu => by
    rcases List.mem_cons.1 hu with hu | hu
    · cases hu
    · cases List.all_eq_true.1 hn _ hu⟩)
  have hst : ∀ t, (stamps t (calls (exCdMain ++ exCdEnd))).Pairwise (· < ·) := by
    intro t
    have h : (calls (exCdMain ++ exCdEnd)).filterMap (fun l => match l with | .stamp u ts => some (u, ts) | _ => none) =
        [(1, 1000)] := by decide +kernel
    have e : stamps t (calls (exCdMain ++ exCdEnd)) =
        ((calls (exCdMain ++ exCdEnd)).filterMap (fun l => match l with | .stamp u ts => some (u, ts) | _ => none)).filterMap
          (fun x => if x.1 = t then some x.2 else none) := by
      rw [stamps, List.filterMap_filterMap]
      congr 1
      funext l
      cases l <;> rfl
    rw [e, h]
    simp only [List.filterMap_cons, List.filterMap_nil]
    split <;> simp
  refine ⟨⟨exSites, exCdMain, c, 3, d1, exCdEnd, d2, d3⟩, ⟨exSites, exKilled 75, d⟩, ?_, ?_, ?_, ?_,
    ⟨exProgOK, h', exKilled_allocs _⟩, p4, by decide, exHeapObjs_used, p3, hfin, p1, p2, ?_⟩
  · intro r hr
    obtain rfl : r = _ := by simpa using hr
    refine ⟨exProgOK, h1, h2, h3, h4, h5, fun h => ?_,
      fun p hp => hcut p (by simp only [Cr.trace, hact, List.mem_cons]; exact .inr hp), by simp only; omega⟩
    cases List.all_eq_true.1 hn _ h
  · intro r hr f hf
    obtain rfl : r = _ := by simpa using hr
    simp only at hf
    rw [p5] at hf
    rw [List.mem_singleton.1 hf]
    exact exOrderOne_noEmpty
  · intro r hr
    obtain rfl : r = _ := by simpa using hr
    exact ha
  · intro r hr
    obtain rfl : r = _ := by simpa using hr
    exact hst
  · simpa [Proc.wrote, Life.wrote] using p6

/-! ## Several threads -/

/-- Thread `t` is in a log statement and has taken its time stamp. -/
def exLateCall (t ts : Nat) : List CLbl := exRt [.call t 0 [.int .i32 (-5)], .readId t false, .stamp t ts, .reserve t]

/-- It stores the message, which becomes visible. -/
def exLateStore (t ts : Nat) : List CLbl := exStores t (entryBytes exSite0 ⟨0, ts, [.int .i32 (-5)]⟩) ++ exCrDrain t 22

/-- The end of a pass in which a message was encoded; it is written. -/
def exLateWrite : List CLbl := exRt [.scanned none, .aio, .aioDone none, .write, .disk 11, .top, .dict false]

/-- Thread 1 logs at time 900; thread 2 takes time stamp 990 and is delayed; thread 1 logs at time 1000; thread 2 stores its
message; thread 1 logs at time 1010.  Each of the messages is encoded in a pass of its own. -/
def exLate : List CLbl :=
  exRt [.call 1 0 [.int .i32 (-5)], .readId 1 false, .register 1, .stamp 1 900, .reserve 1, .takeId 1, .push 1] ++
  exLateStore 1 900 ++ exRt [.top, .dict false] ++ exRead 20 ++ exRt [.scanned none, .aio, .write, .disk 79] ++
  exLateCall 2 990 ++ exRt [.takeId 2, .push 2] ++
  exLateCall 1 1000 ++ exLateStore 1 1000 ++ exRt [.top, .dict false] ++ exRead 20 ++ exEmpty ++ exLateWrite ++
  exLateStore 2 990 ++ exEmpty ++ exRead 20 ++ exLateWrite ++
  exLateCall 1 1010 ++ exLateStore 1 1010 ++ exRead 20 ++ exEmpty ++ exLateWrite ++
  exEmpty ++ exEmpty ++ exRt [.scanned none, .aio, .aioDone none, .write]

/-- As `exCrCheck`, the process starts with another checkpoint. -/
def exCrCheck2 (ls : List CLbl) (p : Cr → Bool) : Bool :=
  match Cr.init exCfg 3 exCk2 with
  | some c0 =>
    match c0.run exCfg exSites ls with
    | .ok c => p c
    | _ => false
  | none => false

theorem exCrExec2 {ls : List CLbl} {p : Cr → Bool} (hl : ls.all exCLbl = true)
    (h : exCrCheck2 ls p = true) : ∃ c, CrExec exCfg exSites ls c ∧ p c = true := by
  unfold exCrCheck2 at h
  split at h
  · rename_i c0 hc0
    split at h
    · rename_i c hc
      refine ⟨c, ⟨3, exCk2, c0, exCk2_plain, by decide, hc0, ?_, hc⟩, h⟩
      intro l hm
      have := List.all_eq_true.1 hl l hm
      cases l <;> first | exact exLbl_ok this | trivial
    · cases h
  · cases h

/-- **C81 is false of the code if the processes have several threads**: a process with two threads, all of whose messages are
in the file, is followed by another.  Its time stamps increase, not only for every thread, but in the order in which they are
taken.  The last message of the first process is printed with the clock calibration of the second (so with a wrong time), and
behind a message of the second: the checkpoint of the second is read while the message waits in a later stage than the first
one (runtime/Log.cc:1866, as in C27_ordered_false). -/
theorem C81_threads_false : ∃ (p q : Proc) (o : Objs) (m out : List OutMsg) (x : OutMsg), p.OK exCfg ∧ q.OK exCfg ∧
    p.c.rt.aio = none ∧ p.c.rt.closed = [] ∧ q.c.rt.closed = [] ∧
    ((calls p.ls).filterMap fun l => match l with | .stamp _ ts => some ts | _ => none).Pairwise (· < ·) ∧
    Used (exCfg.staging + 9) o ∧ decodeFile (exCfg.staging + 9) (p.wrote ++ q.wrote) = some m ∧
    orderedFile (exCfg.staging + 9) o (p.wrote ++ q.wrote) = some out ∧
    out.map OutMsg.ts = [900, 990, 1000, 1000, 1010] ∧ out[4]? = some x ∧
    (∀ y ∈ m, y.ts = x.ts → y.ck ≠ x.ck) ∧ ¬ out.Perm m := by
  obtain ⟨c, h, hp⟩ := exCrExec (ls := exLate)
    (p := fun c => exCrCheck2 (exKilled 79) fun d => c.rt.aio == none && c.rt.closed.length == 0 && d.rt.closed.length == 0 &&
      (decodeFile (exCfg.staging + 9) (c.rt.files.flatten ++ d.rt.files.flatten)).map
        (List.map fun x : OutMsg => (x.ts, x.ck)) ==
          some [(900, exCk), (1000, exCk), (990, exCk), (1010, exCk), (1000, exCk2)] &&
      (orderedFile (exCfg.staging + 9) (Objs.new (exCfg.staging + 9)) (c.rt.files.flatten ++ d.rt.files.flatten)).map
        (List.map fun x : OutMsg => (x.ts, x.ck)) ==
          some [(900, exCk), (990, exCk), (1000, exCk), (1000, exCk2), (1010, exCk2)]) (by decide +kernel) (by decide +kernel)
  obtain ⟨d, h', hp⟩ := exCrExec2 (by decide +kernel) hp
  simp only [Bool.and_eq_true, beq_iff_eq, List.length_eq_zero_iff, Option.map_eq_some_iff] at hp
  obtain ⟨⟨⟨⟨p1, p2⟩, p3⟩, m, p4, p5⟩, out, p6, p7⟩ := hp
  have hall : allocs (calls exLate) ≤ 2 ^ 32 := by decide +kernel
  have hst : ((calls exLate).filterMap fun l => match l with | .stamp _ ts => some ts | _ => none) = [900, 990, 1000, 1010] := by
    decide +kernel
  have hts : out.map OutMsg.ts = [900, 990, 1000, 1000, 1010] := by
    have := congrArg (List.map Prod.fst) p7
    rwa [List.map_map] at this
  obtain ⟨x, hx, hx'⟩ : ∃ x, out[4]? = some x ∧ (x.ts, x.ck) = (1010, exCk2) := by
    have : (out.map fun x : OutMsg => (x.ts, x.ck))[4]? = some (1010, exCk2) := by rw [p7]; rfl
    rwa [List.getElem?_map, Option.map_eq_some_iff] at this
  simp only [Prod.mk.injEq] at hx'
  have hne : ∀ y ∈ m, y.ts = x.ts → y.ck ≠ x.ck := by
    intro y hy h1 h2
    have : (y.ts, y.ck) ∈ m.map fun x : OutMsg => (x.ts, x.ck) := List.mem_map.2 ⟨y, hy, rfl⟩
    rw [p5, h1, h2, hx'.1, hx'.2] at this
    revert this
    decide
  refine ⟨⟨exSites, exLate, c⟩, ⟨exSites, exKilled 79, d⟩, Objs.new (exCfg.staging + 9), m, out, x, ⟨exProgOK, h, hall⟩,
    ⟨exProgOK, h', exKilled_allocs _⟩, p1, p2, p3, by simp only; rw [hst]; decide, .new, p4, p6, hts, hx, hne,
    fun hperm => hne x (hperm.mem_iff.1 (List.mem_of_getElem? hx)) rfl rfl⟩

end NanoLog
