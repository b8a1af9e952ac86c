import Verif.OrderedThread
import Verif.Props.OrderedCut
import Verif.Props.Composed

/-!
# C73: from the log statement to the output of the decompressor

The runtime over byte-wise staging buffers (`Verif/Composed.lean`) writes the files, `decompressTo` with pointers and
heaps (`Verif/DecHeap.lean`), which the `decompressor` program uses by default, reads them.
-/

namespace NanoLog

/-! ## Specification -/

/-- What a new decoder prints for a file (ordered, `decompressTo`), the decoder owning the objects `o`: nothing if it does
not accept the beginning of the file.  `none`: it aborts or misbehaves.  (`open` runtime/Log.cc:1085-1105, `decompressTo`
1816-1967.) -/
def orderedFile (cap : Nat) (o : Objs) (file : List Byte) : Option (List OutMsg) :=
  match (Dec.new cap).openFile file with
  | none => none
  | some (false, _) => some []
  | some (true, s) => (s.orderedHeap cap o).map HSt.out

/-- `out` has the messages of `ms`.  If the time stamps of selected messages increase in `ms`, and in no thread a message
in front of a selected one has a larger time stamp, the selected messages are in the same order. -/
def Resorted (ms out : List OutMsg) : Prop :=
  out.Perm ms ∧ ∀ p, Rising (ms.filter p) → (∀ b, Ahead p (ms.filter fun m => m.tid == b)) → out.filter p = ms.filter p

/-! ## Lemmas -/

theorem prints_tid {sites : List Site} {tid : Nat} {ck : Checkpoint} {cs : List LogCall} {ms : List OutMsg}
    (h : List.Forall₂ (Prints sites tid ck) cs ms) : ∀ m ∈ ms, m.tid = tid := by
  induction h with
  | nil => simp
  | cons hab _ ih =>
    intro m hm
    rcases List.mem_cons.1 hm with rfl | hm
    · cases hab with | mk ok sup pr => rfl
    · exact ih m hm

theorem Body.tid {cap : Nat} {ck : Checkpoint} {tail : List Byte} {known : List Site} {F : Exts} {bs : List Byte}
    (h : Body cap ck tail known F bs) : ∀ e ∈ F, ∃ b, ∀ m ∈ e.2, m.tid = b := by
  induction h with
  | nil => simp
  | dict _ _ _ ih => exact ih
  | pad _ _ ih => exact ih
  | @ext known tid np cs body ms F bs he hp ht hl hcap h ih =>
    intro e he
    rcases List.mem_cons.1 he with rfl | he
    · exact ⟨tid, prints_tid hp⟩
    · exact ih e he

theorem ARun.resorted {cap : Nat} {ck : Checkpoint} {tail : List Byte} {known : List Site} {F : Exts} {bs : List Byte}
    (hb : Body cap ck tail known F bs) {T : Nat} {o : List OutMsg} (h : ARun ⟨[], [], F, T, .fill⟩ o) :
    Resorted (F.map Prod.snd).flatten o := by
  refine ⟨?_, fun p hr ha => h.order (fun e he => ?_) hr⟩
  · have := (h.merge (by simp)).perm
    simpa [ASt.pend] using this
  · obtain ⟨b, hm⟩ := hb.tid e he
    refine List.Pairwise.sublist ?_ (ha b)
    have h1 : (e.2.filter fun m => m.tid == b) = e.2 := List.filter_eq_self.2 fun m h => by simp [hm m h]
    rw [← h1]
    exact (List.sublist_flatten_of_mem (List.mem_map.2 ⟨e, he, rfl⟩)).filter _

/-- The messages of a thread with increasing time stamps. -/
theorem Resorted.thread {ms out : List OutMsg} (h : Resorted ms out) {b : Nat}
    (hr : Rising (ms.filter fun m => m.tid == b)) :
    out.filter (fun m => m.tid == b) = ms.filter fun m => m.tid == b := by
  refine h.2 _ hr fun b' => ?_
  by_cases hb : b' = b
  · subst hb
    exact List.Pairwise.imp (R := fun a c : OutMsg => a.ts < c.ts)
      (S := fun z y : OutMsg => (y.tid == b') = true → z.ts ≤ y.ts) (fun h _ => Nat.le_of_lt h) hr
  · refine List.Pairwise.imp_of_mem (R := fun _ _ => True) ?_ (List.pairwise_of_forall fun _ _ => trivial)
    intro z y _ hy _ hp
    have := (List.mem_filter.1 hy).2
    simp only [beq_iff_eq] at this hp
    omega

/-- The records of a file, cut anywhere: both ways of decompressing find the same messages. -/
theorem recs_ordered {cap : Nat} (h5 : 5 ≤ cap) {c : Checkpoint} {jk : Nat} {rs : List Rec} {ms : List OutMsg}
    (h : Holds cap c [] (.ckpt jk c :: rs) ms) (hno : ∀ jk c, Rec.ckpt jk c ∉ rs) (n : Nat)
    (hn : n ≤ (recBytes (.ckpt jk c :: rs)).length) {o : Objs} (hu : Used cap o) :
    ∃ m1 out, decodeFile cap ((recBytes (.ckpt jk c :: rs)).take n) = some m1 ∧
      orderedFile cap o ((recBytes (.ckpt jk c :: rs)).take n) = some out ∧ Resorted m1 out := by
  have hplain : c.Plain := by cases h with | ckpt hc hj h => exact hc
  have h40 : (checkpointBytes jk c).length = 40 := checkpointBytes_length hplain.1
  by_cases hlt : n < 40
  · refine ⟨[], [], ?_, ?_, .nil, fun _ _ _ => rfl⟩
    · rw [decodeFile, Dec.openFile, readDictionary_cut _ _ (by rw [List.length_take]; omega)]
    · rw [orderedFile, Dec.openFile, readDictionary_cut _ _ (by rw [List.length_take]; omega)]
  · rw [recBytes_ckpt, List.length_append] at hn
    have htake : (recBytes (.ckpt jk c :: rs)).take n =
        checkpointBytes jk c ++ (recBytes rs).take (n - 40) := by
      rw [recBytes_ckpt, List.take_append, List.take_of_length_le (by omega), h40]
    obtain ⟨ho, hh⟩ := open_ok h (Dec.new cap) ((recBytes rs).take (n - 40))
    obtain ⟨a, b, m1, m2, tail, g1, g2, g3, g4, g5, g6, g7, g8⟩ := cut_body hh hno (n - 40) (by omega)
    obtain ⟨s', u1, u2⟩ := g8 { Dec.new cap with
          file := ⟨(recBytes rs).take (n - 40), false⟩
          good := true, ck := c, dict := Dict.empty, out := [], bf := BufFrag.init cap }
      rfl rfl rfl describes_empty (by simp [BufFrag.init])
    have hfl : ((recExts a m1).map Prod.snd).flatten = m1 :=
      (g3.body fun jk c hm => hno jk c (by rw [g1]; simp [hm])).1
    have hpool := hu.pool h5
    obtain ⟨T, hT⟩ := pool_bound (o.free.map o.heap)
    let s : Dec := { Dec.new cap with
      file := ⟨(recBytes rs).take (n - 40), false⟩, good := true, ck := c, dict := Dict.empty, out := [] }
    obtain ⟨pick, hp, hc⟩ := C70_heaps h5 hu s
    obtain ⟨s1, q1, q2, q3⟩ := sim_open (pick := pick) hp g6 s rfl rfl rfl rfl
      (fun bf hbf => ⟨hpool bf hbf, hT bf hbf⟩)
    obtain ⟨o', s2, r1, r2, r3, r4, -⟩ := sim_last (pick := pick) hp g7 q3
    have hout : s2.out = o' := by rw [r3, q2]; rfl
    have hrun := OStar.done hp (room_of_stor hpool) (q1.trans r2).star r4
    have hres : Resorted m1 o' := by rw [← hfl]; exact r1.resorted g6
    refine ⟨m1, o', ?_, ?_, hres⟩
    · have hul := u1.loop
      simp only at hul
      rw [decodeFile, htake, ho]
      simp only [Dec.unordered]
      rw [hul]
      simpa using u2
    · rw [orderedFile, htake, ho]
      rcases hc with ⟨-, e⟩ | ⟨r, t', e1, e2, e3, -⟩
      · have : s.ordered cap (o.free.map o.heap) pick = some s2 := hrun
        rw [this] at e; simp at e
      · have : s.ordered cap (o.free.map o.heap) pick = some s2 := hrun
        rw [this] at e2
        simp only [Option.some.injEq] at e2
        subst e2
        show (s.orderedHeap cap o).map HSt.out = some o'
        rw [e1, Option.map_some, e3, hout]

theorem orderedFile_nil (cap : Nat) (o : Objs) : orderedFile cap o [] = some [] := by
  rw [orderedFile, Dec.openFile, readDictionary_cut _ _ (by simp)]

/-- Both ways of decompressing agree on every file of the runtime. -/
theorem files_ordered {cfg : Config} {prog : List Site} {s : Rt} (h : FInv cfg prog s) {o : Objs}
    (hu : Used (cfg.staging + 9) o) : ∀ f ∈ s.files, ∃ m out, decodeFile (cfg.staging + 9) f = some m ∧
      orderedFile (cfg.staging + 9) o f = some out ∧ Resorted m out := by
  intro f hf
  have hdata : ∀ {rs : List Rec}, NoCkpt rs → ∀ jk c, Rec.ckpt jk c ∉ rs := fun h jk c hm => h _ hm
  simp only [Rt.files, List.mem_append, List.mem_map, List.mem_singleton] at hf
  rcases hf with ⟨p, hp, rfl⟩ | rfl
  · obtain ⟨c, jk, rs, k, ⟨ms, h1, h2, h3⟩, -, hno, he⟩ := h.closed p hp
    have := recs_ordered (by omega) h1 (hdata hno) _ (Nat.le_refl _) hu
    rw [List.take_length, he] at this
    exact this
  · obtain ⟨c, jk, rsD, rsO, rsB, rs', k1, k2, e1, e2, -, ⟨e4, hno⟩, -, e6⟩ := h.cur
    obtain ⟨msD, d1, d2, d3⟩ := e1
    obtain ⟨msO, o1, o2, o3⟩ := e2
    have hdisk : ∃ n, n ≤ (recBytes (rsD ++ rsO)).length ∧ s.disk = (recBytes (rsD ++ rsO)).take n := by
      cases ha : s.aio with
      | none =>
        rw [ha] at e6
        obtain ⟨rfl, hd⟩ := e6
        exact ⟨(recBytes rsD).length, by simp, by simp [hd]⟩
      | some a =>
        rw [ha] at e6
        obtain ⟨hb, hd⟩ := e6
        refine ⟨(recBytes rsD).length + min a.done (recBytes rsO).length, ?_, ?_⟩
        · rw [recBytes_append, List.length_append]; omega
        · rw [hd, recBytes_append, List.take_append,
            List.take_of_length_le (l := recBytes rsD) (by omega), hb, Nat.add_sub_cancel_left]
          congr 1
          rcases Nat.le_total a.done (s.mem s.dbl).length with hl | hl
          · rw [Nat.min_eq_left hl]
          · rw [Nat.min_eq_right hl, List.take_of_length_le hl, List.take_length]
    obtain ⟨n, n1, n2⟩ := hdisk
    have hh : Holds (cfg.staging + 9) c [] (rsD ++ rsO) (msD ++ msO) :=
      d1.append (by rw [d2]; exact o1)
    rw [n2]
    cases hr : rsD ++ rsO with
    | nil =>
      refine ⟨[], [], ?_, ?_, .nil, fun _ _ _ => rfl⟩
      · simpa [recBytes] using decodeFile_nil _
      · simpa [recBytes] using orderedFile_nil _ _
    | cons r rs1 =>
      rw [hr] at e4 hh n1
      simp only [List.cons_append, List.cons.injEq] at e4
      obtain ⟨rfl, rfl⟩ := e4
      exact recs_ordered (by omega) hh (hdata fun r hr => hno r (by simp [hr])) n n1 hu

/-- The results for all files. -/
theorem files_resorted {A : List Byte → Option (List OutMsg)} {B : List Byte → Option (List OutMsg)}
    {fs : List (List Byte)} (h : ∀ f ∈ fs, ∃ m out, A f = some m ∧ B f = some out ∧ Resorted m out) :
    ∃ ms outs, fs.map A = ms.map some ∧ fs.map B = outs.map some ∧ List.Forall₂ Resorted ms outs := by
  induction fs with
  | nil => exact ⟨[], [], rfl, rfl, .nil⟩
  | cons f fs ih =>
    obtain ⟨m, out, h1, h2, h3⟩ := h f (by simp)
    obtain ⟨ms, outs, i1, i2, i3⟩ := ih fun f hf => h f (by simp [hf])
    exact ⟨m :: ms, out :: outs, by simp [h1, i1], by simp [h2, i2], .cons h3 i3⟩

/-- Over several files. -/
theorem Resorted.all {ms outs : List (List OutMsg)} (h : List.Forall₂ Resorted ms outs) :
    Resorted ms.flatten outs.flatten := by
  induction h with
  | nil => exact ⟨.nil, fun _ _ _ => rfl⟩
  | @cons m out ms outs hab _ ih =>
    refine ⟨by simpa using hab.1.append ih.1, fun p hr ha => ?_⟩
    simp only [List.flatten_cons, List.filter_append] at hr ha ⊢
    rw [Rising, List.pairwise_append] at hr
    simp only [Ahead, List.pairwise_append] at ha
    rw [hab.2 p hr.1 fun b => (ha b).1, ih.2 p hr.2.1 fun b => (ha b).2.1]

theorem some_inj {α : Type} {a b : List α} (h : a.map some = b.map some) : a = b :=
  List.map_injective_iff.2 (fun _ _ h => Option.some.inj h) h

section
variable {cfg : Config} {prog : List Site} {ls : List CLbl} {c : Cr}

/-- Unordered and ordered decompression of the files of an execution. -/
theorem exec_ordered (hP : ProgOK cfg prog) (h0 : 0 < cfg.staging) (h : CrExec cfg prog ls c)
    (hn : allocs (calls ls) ≤ 2 ^ 32) {o : Objs} (hu : Used (cfg.staging + 9) o) :
    ∃ ms outs : List (List OutMsg), c.rt.files.map (decodeFile (cfg.staging + 9)) = ms.map some ∧
      c.rt.files.map (orderedFile (cfg.staging + 9) o) = outs.map some ∧ Resorted ms.flatten outs.flatten ∧
      ∀ t b, (c.rt.thr t).bid = some b → (stamps t (calls ls)).Pairwise (· < ·) →
        (outs.flatten.filter fun m => m.tid == b) = ms.flatten.filter fun m => m.tid == b := by
  obtain ⟨ms, f1, f2, -⟩ := C66_prefix hP h0 h hn
  obtain ⟨als, s, g1, g2, -⟩ := C66_refinement hP h0 h
  obtain ⟨-, hF⟩ := g1.inv hP
  have hfo := files_ordered hF hu
  rw [g2] at hfo
  obtain ⟨ms', outs, i1, i2, i3⟩ := files_resorted hfo
  rw [f1] at i1
  obtain rfl := some_inj i1
  have hR := Resorted.all i3
  refine ⟨ms, outs, f1, i2, hR, fun t b hb hs => hR.thread ?_⟩
  obtain ⟨n, k1, k2⟩ := f2 t b hb
  have : ((stamps t (calls ls)).take n).Pairwise (· < ·) := hs.sublist (List.take_sublist _ _)
  rw [← k2, List.pairwise_map] at this
  exact this

/-! ## C73 -/

/-- **C73**, at every moment of every execution: every log file is decompressed without error by the ordered decompressor
(new, or used before in any way); over all files it prints for every thread the messages of the first calls this thread had
to record, each once; and in call order, if the time stamps of the thread increase.  Nothing else is printed. -/
theorem C73_prefix (hP : ProgOK cfg prog) (h0 : 0 < cfg.staging) (h : CrExec cfg prog ls c)
    (hn : allocs (calls ls) ≤ 2 ^ 32) {o : Objs} (hu : Used (cfg.staging + 9) o) :
    ∃ outs : List (List OutMsg),
      c.rt.files.map (orderedFile (cfg.staging + 9) o) = outs.map some ∧
      (∀ t b, (c.rt.thr t).bid = some b → ∃ n msgs,
        List.Forall₂ (MsgOf prog b) ((mustRecord prog t (calls ls)).take n) msgs ∧
        msgs.map OutMsg.ts = (stamps t (calls ls)).take n ∧
        (outs.flatten.filter fun m => m.tid == b).Perm msgs ∧
        ((stamps t (calls ls)).Pairwise (· < ·) → (outs.flatten.filter fun m => m.tid == b) = msgs)) ∧
      ∀ m ∈ outs.flatten, ∃ t, (c.rt.thr t).bid = some m.tid := by
  obtain ⟨ms, f1, f2, f3⟩ := C66_prefix hP h0 h hn
  obtain ⟨ms', outs, g1, g2, g3, g4⟩ := exec_ordered hP h0 h hn hu
  rw [f1] at g1
  obtain rfl := some_inj g1
  refine ⟨outs, g2, fun t b hb => ?_, fun m hm => f3 m (g3.1.mem_iff.1 hm)⟩
  obtain ⟨n, k1, k2⟩ := f2 t b hb
  exact ⟨n, _, k1, k2, g3.1.filter _, g4 t b hb⟩

/-- **C73**, nothing is lost: once the background thread has consumed what a thread has published, that thread is not
inside a log statement, and the output buffers are written, the ordered decompressor prints all its recorded calls. -/
theorem C73_complete (hP : ProgOK cfg prog) (h0 : 0 < cfg.staging) (h : CrExec cfg prog ls c)
    (hn : allocs (calls ls) ≤ 2 ^ 32) (hw : c.rt.mem c.rt.encPtr = []) (ha : c.rt.aio = none)
    {o : Objs} (hu : Used (cfg.staging + 9) o) :
    ∃ outs : List (List OutMsg),
      c.rt.files.map (orderedFile (cfg.staging + 9) o) = outs.map some ∧
      ∀ t b, (c.rt.thr t).bid = some b → (c.sb t).got = (c.sb t).pub →
        ((c.rt.thr t).pc = .idle ∨ (c.rt.thr t).pc = .exited) →
        ∃ msgs, List.Forall₂ (MsgOf prog b) (mustRecord prog t (calls ls)) msgs ∧
          (outs.flatten.filter fun m => m.tid == b).Perm msgs ∧
          ((stamps t (calls ls)).Pairwise (· < ·) → (outs.flatten.filter fun m => m.tid == b) = msgs) := by
  obtain ⟨ms, f1, f2⟩ := C66_complete hP h0 h hn hw ha
  obtain ⟨ms', outs, g1, g2, g3, g4⟩ := exec_ordered hP h0 h hn hu
  rw [f1] at g1
  obtain rfl := some_inj g1
  exact ⟨outs, g2, fun t b hb hg hpc => ⟨_, f2 t b hb hg hpc, g3.1.filter _, g4 t b hb⟩⟩

/-- **C73**, for a program in which one thread logs: the output, over all files, is what it has logged, in call order (if its
time stamps increase). -/
theorem C73_single (hP : ProgOK cfg prog) (h0 : 0 < cfg.staging) (h : CrExec cfg prog ls c)
    (hn : allocs (calls ls) ≤ 2 ^ 32) {o : Objs} (hu : Used (cfg.staging + 9) o) {t b : Nat}
    (hb : (c.rt.thr t).bid = some b) (h1 : ∀ u ≠ t, (c.rt.thr u).bid = none) (hs : (stamps t (calls ls)).Pairwise (· < ·)) :
    ∃ outs : List (List OutMsg), c.rt.files.map (orderedFile (cfg.staging + 9) o) = outs.map some ∧
      ∃ n, List.Forall₂ (MsgOf prog b) ((mustRecord prog t (calls ls)).take n) outs.flatten ∧ Chrono outs.flatten := by
  obtain ⟨outs, f1, f2, f3⟩ := C73_prefix hP h0 h hn hu
  obtain ⟨n, msgs, g1, g2, -, g3⟩ := f2 t b hb
  have hall : (outs.flatten.filter fun m => m.tid == b) = outs.flatten := by
    refine List.filter_eq_self.2 fun m hm => ?_
    obtain ⟨u, hu⟩ := f3 m hm
    by_cases hut : u = t
    · rw [hut, hb, Option.some.injEq] at hu
      simp [hu]
    · rw [h1 u hut] at hu; cases hu
  rw [hall] at g3
  have h3 := g3 hs
  refine ⟨outs, f1, n, by rw [h3]; exact g1, ?_⟩
  have : (msgs.map OutMsg.ts).Pairwise (· < ·) := by rw [g2]; exact hs.sublist (List.take_sublist _ _)
  rw [List.pairwise_map] at this
  rw [h3]
  exact this.imp fun h => Nat.le_of_lt h

end

/-! ## Cases, and what is false

Two threads and small staging buffers.  No two log statements overlap, the time stamps increase from statement to statement,
and every statement is visible to the background thread before the next one begins. -/

/-- Staging buffers of 64 bytes, an output buffer of 1024 bytes, chunks of 32 bytes. -/
def exCfg64 : Config := ⟨64, 1024, 32⟩

theorem exProgOK64 : ProgOK exCfg64 exSites :=
  ⟨by decide, by decide, by decide, by decide, exSites_ok, by decide⟩

/-- Labels of this execution. -/
def exLbl64 : CLbl → Bool
  | .rt (.call _ k args) => match k, args with
    | 0, [.int .i32 n] => decide (0 ≤ n ∧ n ≤ 100)
    | _, _ => false
  | .rt (.stamp _ ts) => decide (ts < 2 ^ 64)
  | .rt (.join ..) => false
  | _ => true

theorem exLbl64_ok {l : CLbl} (h : exLbl64 l = true) : l.OK exCfg64 exSites := by
  cases l with
  | rt l =>
    cases l <;> simp only [CLbl.OK, Lbl.OK]
    case call t k args =>
      simp only [exLbl64] at h
      split at h
      · rename_i n
        have hn : 0 ≤ n ∧ n ≤ 100 := by simpa using h
        intro site hs
        simp only [exSites, List.getElem?_cons_zero, Option.some.injEq] at hs
        subst hs
        obtain ⟨h1, h2, h3, -⟩ := exArgs_int n (by simp [ITy.InRange, ITy.lo, ITy.hi, ITy.signed, ITy.bytes]; omega)
        exact ⟨h1, h2, h3, (by decide : (20 : Nat) < 32)⟩
      · cases h
    case stamp => simpa [exLbl64] using h
    case join => cases h
  | _ => trivial

/-- Threads 1 and 2 are outside of log calls and all their stores are visible. -/
def exStill (c : Cr) : Bool :=
  decide ((c.rt.thr 1).pc = .idle ∧ (c.sb 1).buf = [] ∧ (c.rt.thr 2).pc = .idle ∧ (c.sb 2).buf = [])

/-- Is a log call, if this is one, possible without overlap? -/
def exFreeCall (c : Cr) : CLbl → Bool
  | .rt (.call ..) => exStill c
  | _ => true

/-- Does every log call begin in a state in which threads 1 and 2 are outside of log calls, with all their stores visible?
The state at the end. -/
def exAlone (c : Cr) : List CLbl → Option Cr
  | [] => some c
  | l :: ls =>
    if exFreeCall c l then
      match c.act exCfg64 exSites l with
      | .ok c1 => exAlone c1 ls
      | _ => none
    else none

theorem exAlone_run {ls : List CLbl} {c c' : Cr} (h : exAlone c ls = some c') :
    c.run exCfg64 exSites ls = .ok c' ∧ ∀ a t k args b, ls = a ++ .rt (.call t k args) :: b →
      ∃ c1, c.run exCfg64 exSites a = .ok c1 ∧
        (c1.rt.thr 1).pc = .idle ∧ (c1.sb 1).buf = [] ∧ (c1.rt.thr 2).pc = .idle ∧ (c1.sb 2).buf = [] := by
  induction ls generalizing c with
  | nil =>
    simp only [exAlone, Option.some.injEq] at h
    exact ⟨by rw [h]; rfl, fun a t k args b hb => by simp at hb⟩
  | cons l ls ih =>
    unfold exAlone at h
    split at h
    · rename_i hal
      split at h
      · rename_i c1 hc1
        obtain ⟨i1, i2⟩ := ih h
        refine ⟨by simpa [Cr.run, hc1] using i1, fun a t k args b hb => ?_⟩
        cases a with
        | nil =>
          simp only [List.nil_append, List.cons.injEq] at hb
          rw [hb.1] at hal
          exact ⟨c, rfl, by simpa [exFreeCall, exStill] using hal⟩
        | cons x a =>
          simp only [List.cons_append, List.cons.injEq] at hb
          obtain ⟨c2, j1, j2⟩ := i2 a t k args b hb.2
          exact ⟨c2, by rw [← hb.1]; simpa [Cr.run, hc1] using j1, j2⟩
      · cases h
    · cases h

/-- Run the labels from the start and test the final state. -/
def exCheck64 (ls : List CLbl) (p : Cr → Bool) : Bool :=
  match Cr.init exCfg64 0 exCk with
  | some c0 =>
    match exAlone c0 ls with
    | some c => p c
    | none => false
  | none => false

theorem exExec64 {ls : List CLbl} {p : Cr → Bool} (hl : ls.all exLbl64 = true) (h : exCheck64 ls p = true) :
    ∃ c, CrExec exCfg64 exSites ls c ∧ p c = true ∧ ∀ a t k args b, ls = a ++ .rt (.call t k args) :: b →
      ∃ c1, CrExec exCfg64 exSites a c1 ∧
        (c1.rt.thr 1).pc = .idle ∧ (c1.sb 1).buf = [] ∧ (c1.rt.thr 2).pc = .idle ∧ (c1.sb 2).buf = [] := by
  unfold exCheck64 at h
  split at h
  · rename_i c0 hc0
    split at h
    · rename_i c hc
      obtain ⟨h1, h2⟩ := exAlone_run hc
      have hok : ∀ l ∈ ls, l.OK exCfg64 exSites := fun l hm => exLbl64_ok (List.all_eq_true.1 hl l hm)
      refine ⟨c, ⟨0, exCk, c0, exCk_plain, by decide, hc0, hok, h1⟩, h, fun a t k args b hb => ?_⟩
      obtain ⟨c1, j1, j2⟩ := h2 a t k args b hb
      exact ⟨c1, ⟨0, exCk, c0, exCk_plain, by decide, hc0, fun l hm => hok l (by rw [hb]; simp [hm]), j1⟩, j2⟩
    · cases h
  · cases h

/-- Thread `t` logs `x=v` at time `ts` (`pre`: its steps between `call` and the time stamp and `post`: behind it, before it has a
buffer with space; `rsv`: its steps in `reserveSpaceInternal`; `n` stores). -/
def exLogV (t v ts : Nat) (pre post : List Lbl) (rsv n : Nat) : List CLbl :=
  exRt ([.call t 0 [.int .i32 v], .readId t false] ++ pre ++ [.stamp t ts, .reserve t] ++ post) ++
  .write t (.reserve 20) :: List.replicate rsv (.write t .pstep) ++
  ((entryBytes exSite0 ⟨0, ts, [.int .i32 v]⟩).zipIdx.map fun p => .write t (.put p.2 p.1)) ++ [.finish t] ++ exCrDrain t n

/-- It logs the time. -/
def exLog (t ts : Nat) (pre post : List Lbl) (rsv n : Nat) : List CLbl := exLogV t ts ts pre post rsv n

/-- The background thread starts the next pass, the disk being done with the output; what it has encoded is `n` bytes. -/
def exPassEnd (n : Nat) : List CLbl := exRt [.scanned none, .aio, .aioDone none, .write, .disk n, .top, .dict false]

/-- Thread 1 logs at times 1 and 2, thread 2 at time 3; first pass. -/
def exCh1 : List CLbl :=
  exLog 1 1 [.register 1] [.takeId 1, .push 1] 0 22 ++ exLog 1 2 [] [] 0 22 ++ exLog 2 3 [] [.takeId 2, .push 2] 0 22 ++
  exRt [.top, .dict false] ++ [.peek, .follow] ++ (List.range 40).map .look ++
  [.encode (fun _ => 0) [], .encode (fun _ => 0) []] ++ exRead 20 ++ [.storeC 1, .storeC 1] ++
  exRt [.scanned none, .aio, .write, .disk 98, .top, .dict false]

/-- Second pass: behind the background thread, thread 1 logs at times 5 and 6, the second one at the start of its buffer;
thread 2 logs at time 10 and this is read. -/
def exCh2 : List CLbl :=
  exEmpty ++ exLog 1 5 [] [] 0 22 ++ exLog 1 6 [] [] 4 25 ++ exLog 2 10 [] [] 0 22 ++ exRead 20 ++ exPassEnd 10

/-- In the third pass it reads 5, up to the end of the buffer, in the fourth pass 6. -/
def exCh3 : List CLbl :=
  exRead 20 ++ exEmpty ++ [.storeC 1] ++ exPassEnd 10 ++
  [.peek, .follow, .follow] ++ (List.range 20).map .look ++ [.encode (fun _ => 0) []] ++ exEmpty ++ [.storeC 1, .storeC 1] ++
  exPassEnd 10

/-- Fifth pass: behind the background thread, thread 1 logs at time 15; thread 2 logs at time 20 and this is read. -/
def exCh4 : List CLbl :=
  exEmpty ++ exLog 1 15 [] [] 2 22 ++ exLog 2 20 [] [] 0 22 ++ exRead 20 ++ exPassEnd 10

/-- Sixth pass: it reads 15.  Then a pass with nothing to do. -/
def exCh5 : List CLbl :=
  exRead 20 ++ exEmpty ++ exPassEnd 10 ++ exEmpty ++ exEmpty ++ exRt [.scanned none, .aio, .aioDone none]

/-- All of it. -/
def exChrono : List CLbl := exCh1 ++ exCh2 ++ exCh3 ++ exCh4 ++ exCh5

/-- The time stamps the logging threads took, in the order in which they took them. -/
def allStamps (ls : List CLbl) : List Nat :=
  ls.filterMap fun l => match l with | .rt (.stamp _ ts) => some ts | _ => none

set_option maxRecDepth 4000 in
theorem exChrono_run : ∃ c, CrExec exCfg64 exSites exChrono c ∧
    (c.rt.files.map (orderedFile (exCfg64.staging + 9) (Objs.new (exCfg64.staging + 9)))).map (Option.map (List.map OutMsg.ts)) =
      [some [1, 2, 3, 5, 6, 10, 20, 15]] ∧
    c.rt.mem c.rt.encPtr = [] ∧ c.rt.aio = none ∧
    ((c.rt.thr 1).bid = some 0 ∧ (c.sb 1).got = (c.sb 1).pub ∧ (c.rt.thr 1).pc = .idle) ∧
    ((c.rt.thr 2).bid = some 1 ∧ (c.sb 2).got = (c.sb 2).pub ∧ (c.rt.thr 2).pc = .idle) ∧
    ∀ a t k args b, exChrono = a ++ .rt (.call t k args) :: b → ∃ c1, CrExec exCfg64 exSites a c1 ∧
        (c1.rt.thr 1).pc = .idle ∧ (c1.sb 1).buf = [] ∧ (c1.rt.thr 2).pc = .idle ∧ (c1.sb 2).buf = [] := by
  obtain ⟨c, h, hp, ha⟩ := exExec64 (ls := exChrono)
    (p := fun c => (c.rt.files.map (orderedFile (exCfg64.staging + 9) (Objs.new (exCfg64.staging + 9)))).map
        (Option.map (List.map OutMsg.ts)) = [some [1, 2, 3, 5, 6, 10, 20, 15]] &&
      c.rt.mem c.rt.encPtr = [] && c.rt.aio = none &&
      ((c.rt.thr 1).bid = some 0 && (c.sb 1).got = (c.sb 1).pub && (c.rt.thr 1).pc = .idle) &&
      ((c.rt.thr 2).bid = some 1 && (c.sb 2).got = (c.sb 2).pub && (c.rt.thr 2).pc = .idle))
    (by decide +kernel) (by decide +kernel)
  simp only [Bool.and_eq_true, decide_eq_true_eq] at hp
  obtain ⟨⟨⟨⟨h1, h2⟩, h3⟩, ⟨h4, h5⟩, h6⟩, ⟨h7, h8⟩, h9⟩ := hp
  exact ⟨c, h, h1, h2, h3, ⟨h4, h5, h6⟩, ⟨h7, h8, h9⟩, ha⟩

/-- **C73**: that the messages are printed by time is false.  No two log calls overlap, each is visible in memory before
the next one begins, and the time stamps increase, but the message of time 20 is printed before that of time 15.  (The
messages of times 5 and 6 are read in two passes since the second one is at the start of the ring: "at least 2 peek()'s
are needed to deplete a buffer", Log.cc:1827-1830.  They are printed before message 10 of the first stage; with two stages
empty, the decompressor looks at the one that remains only.) -/
theorem C73_chronological_false : ∃ ls c, CrExec exCfg64 exSites ls c ∧ allocs (calls ls) ≤ 2 ^ 32 ∧
    (allStamps ls).Pairwise (· < ·) ∧
    (∀ a t k args b, ls = a ++ .rt (.call t k args) :: b → ∃ c1, CrExec exCfg64 exSites a c1 ∧
      (c1.rt.thr 1).pc = .idle ∧ (c1.sb 1).buf = [] ∧ (c1.rt.thr 2).pc = .idle ∧ (c1.sb 2).buf = []) ∧
    ∃ out, c.rt.files.map (orderedFile (exCfg64.staging + 9) (Objs.new (exCfg64.staging + 9))) = [some out] ∧ ¬ Chrono out := by
  obtain ⟨c, h, h1, -, -, -, -, ha⟩ := exChrono_run
  refine ⟨exChrono, c, h, by decide +kernel, by decide +kernel, ha, ?_⟩
  generalize hg : c.rt.files.map (orderedFile (exCfg64.staging + 9) (Objs.new (exCfg64.staging + 9))) = l at h1
  rcases l with - | ⟨- | out, - | ⟨y, l⟩⟩ <;> simp at h1
  refine ⟨out, rfl, fun hc => ?_⟩
  have : (out.map OutMsg.ts).Pairwise (· ≤ ·) := by
    rw [List.pairwise_map]; exact hc
  rw [h1] at this
  revert this
  decide

/-- Case for `C73_prefix` and `C73_complete`: the hypotheses are met by this execution, for both threads; all messages of
thread 1 are printed in call order. -/
example : ∃ c, CrExec exCfg64 exSites exChrono c ∧ ∃ outs : List (List OutMsg),
    c.rt.files.map (orderedFile (exCfg64.staging + 9) (Objs.new (exCfg64.staging + 9))) = outs.map some ∧
    List.Forall₂ (MsgOf exSites 0) (mustRecord exSites 1 (calls exChrono)) (outs.flatten.filter fun m => m.tid == 0) ∧
    (mustRecord exSites 1 (calls exChrono)).length = 5 ∧
    List.Forall₂ (MsgOf exSites 1) (mustRecord exSites 2 (calls exChrono)) (outs.flatten.filter fun m => m.tid == 1) ∧
    (mustRecord exSites 2 (calls exChrono)).length = 3 := by
  obtain ⟨c, h, -, h2, h3, ⟨h4, h5, h6⟩, ⟨h7, h8, h9⟩, -⟩ := exChrono_run
  obtain ⟨outs, g1, g2⟩ := C73_complete exProgOK64 (by decide) h (by decide +kernel) h2 h3 (Used.new)
  refine ⟨c, h, outs, g1, ?_, by decide +kernel, ?_, by decide +kernel⟩
  · obtain ⟨msgs, j1, -, j2⟩ := g2 1 0 h4 h5 (.inl h6)
    rw [j2 (by decide +kernel)]
    exact j1
  · obtain ⟨msgs, j1, -, j2⟩ := g2 2 1 h7 h8 (.inl h9)
    rw [j2 (by decide +kernel)]
    exact j1

/-- Case for `C73_single`. -/
example : ∃ c, CrExec exCfg exSites exCrB c ∧ (c.rt.thr 1).bid = some 0 ∧ stamps 1 (calls exCrB) = [1000, 1010] ∧
    (c.rt.files.map (orderedFile 265 (Objs.new 265))).map (Option.map (List.map OutMsg.ts)) = [some [1000, 1010]] := by
  obtain ⟨c, h, hp⟩ := exCrExec (ls := exCrB)
    (p := fun c => (c.rt.thr 1).bid = some 0 && (c.rt.files.map (orderedFile 265 (Objs.new 265))).map
      (Option.map (List.map OutMsg.ts)) = [some [1000, 1010]]) (by decide +kernel) (by decide +kernel)
  simp only [Bool.and_eq_true, decide_eq_true_eq] at hp
  exact ⟨c, h, hp.1, by decide +kernel, hp.2⟩

/-- Thread 1 logs 1, 2 and 3, all at time 7, and this is written to the file. -/
def exTie : List CLbl :=
  exLogV 1 1 7 [.register 1] [.takeId 1, .push 1] 0 22 ++ exLogV 1 2 7 [] [] 0 22 ++ exLogV 1 3 7 [] [] 0 22 ++
  exRt [.top, .dict false] ++ [.peek, .follow] ++ (List.range 60).map .look ++
  [.encode (fun _ => 0) [], .encode (fun _ => 0) [], .encode (fun _ => 0) []] ++ exRt [.scanned none, .aio, .write, .disk 98]

/-- The numbers a message prints. -/
def msgInts (m : OutMsg) : List Int :=
  m.parts.filterMap fun d => match d.arg with | some (.scalar (.int v)) => some v | _ => none

/-- **C73**: without increasing time stamps, the order of a thread's messages is not kept: three messages with the same time
stamp, in three extents, are printed in reverse. -/
theorem C73_equal_false : ∃ ls c, CrExec exCfg64 exSites ls c ∧ stamps 1 (calls ls) = [7, 7, 7] ∧
    (c.rt.files.map (decodeFile (exCfg64.staging + 9))).map (Option.map (List.map msgInts)) = [some [[1], [2], [3]]] ∧
    (c.rt.files.map (orderedFile (exCfg64.staging + 9) (Objs.new (exCfg64.staging + 9)))).map (Option.map (List.map msgInts)) =
      [some [[3], [2], [1]]] := by
  obtain ⟨c, h, hp, -⟩ := exExec64 (ls := exTie)
    (p := fun c => (c.rt.files.map (decodeFile (exCfg64.staging + 9))).map (Option.map (List.map msgInts)) =
        [some [[1], [2], [3]]] &&
      (c.rt.files.map (orderedFile (exCfg64.staging + 9) (Objs.new (exCfg64.staging + 9)))).map
        (Option.map (List.map msgInts)) = [some [[3], [2], [1]]])
    (by decide +kernel) (by decide +kernel)
  simp only [Bool.and_eq_true, decide_eq_true_eq] at hp
  exact ⟨exTie, c, h, by decide +kernel, hp.1, hp.2⟩

end NanoLog
