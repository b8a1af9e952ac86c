import Verif.Props.Encode
import Verif.RuntimeScan

/-!
# The background thread when nothing new is logged

What each of its steps does, and that every step that does not change the amount of work is one of a few.
-/

namespace NanoLog

/-- Requirements for progress: chunks are as large as the largest message, and a message as well as the
static information of a statement fit an output buffer (runtime/Config.h:36-54). -/
structure LiveOK (cfg : Config) (prog : List Site) : Prop where
  release : cfg.release = cfg.staging / 2
  room : cfg.staging + 25 ≤ cfg.output
  entry : ∀ s ∈ prog, logInfoSize s.info + 8 < cfg.output

/-- Messages in staging buffers, statements not yet written, and buffers. -/
def Rt.work (s : Rt) : Nat :=
  (s.bufs.map fun t => (s.thr t).q.length).sum + (s.sites.length - s.pos) + s.bufs.length

/-- The next buffer. -/
def Rt.adv (s : Rt) : Rt :=
  { s with i := (s.i + 1) % s.bufs.length, wrap := s.wrap || (s.i + 1) % s.bufs.length = 0
           pc := if (s.i + 1) % s.bufs.length = s.last then .scanned else .scan }

/-- Steps of the background thread that leave the work as it is. -/
inductive Next (l : Lbl) (s : Rt) : Rt → Prop
  | dead (h : s.pc = .top) (he : s.exit = true) (hm : s.mem s.encPtr = []) (ha : s.aio = none) :
      Next l s { s with pc := .dead }
  | top (h : s.pc = .top) (hne : ¬ (s.exit = true ∧ s.mem s.encPtr = [] ∧ s.aio = none)) :
      Next l s { s with pc := .dict, i := s.last }
  | dict0 (h : s.pc = .dict) (hp : s.pos = s.sites.length) : Next l s { s with pc := .scan }
  | dict1 (h : s.pc = .dict) (hm : s.mem s.encPtr ≠ []) (m : List Byte) (hm' : m ≠ []) :
      Next l s { s with mem := upd s.mem s.encPtr m, pc := .scan }
  | stop (h : s.pc = .scan) (hf : s.full = true ∨ s.bufs = []) : Next l s { s with pc := .scanned }
  | look (h : s.pc = .scan) (hf : s.full = false) (t : Nat) (ht : s.bufs[s.i]? = some t)
      (hq : (s.thr t).q = []) : Next l s { s with pc := .check, cur := t }
  | enc (h : s.pc = .scan) (hf : s.full = false) (t n : Nat) (ht : s.bufs[s.i]? = some t) :
      Next l s { s with pc := .encode, cur := t, rem := n }
  | check (h : s.pc = .check) : Next l s s.adv
  | fail (h : s.pc = .encode) (hc : ¬ (s.mem s.encPtr = [] ∧ s.pos = s.sites.length)) (m : List Byte)
      (hm : m ≠ []) :
      Next l s (Rt.adv { s with mem := upd s.mem s.encPtr m, last := s.i, full := true })
  | data (h : s.pc = .scanned) (hm : s.mem s.encPtr ≠ []) : Next l s { s with pc := .aio }
  | again (h : s.pc = .scanned) (hm : s.mem s.encPtr = []) (hs : s.status = .requested) :
      Next l s { s with status := .second, pc := .top }
  | idle (h : s.pc = .scanned) (hm : s.mem s.encPtr = []) (hs : s.status ≠ .requested)
      (hi : s.idleStatus ≠ .completed) : Next l s { s with status := s.idleStatus, pc := .aio }
  | done (h : s.pc = .scanned) (hm : s.mem s.encPtr = []) (hs : s.status ≠ .requested)
      (hi : s.idleStatus = .completed) (w : Option Nat) (hl : l = .scanned w) (s' : Rt)
      (hn : Rt.notify { s with status := .completed, pc := .aio } w = .ok s') : Next l s s'
  | noaio (h : s.pc = .aio) (ha : s.aio = none) : Next l s { s with pc := .write }
  | ioDone (h : s.pc = .aio) (a : Aio) (ha : s.aio = some a) (hd : a.done = a.len) :
      Next l s { s with aio := none, pc := .aioDone, gD := s.gD ++ s.gO, gO := [] }
  | busy (h : s.pc = .aio) (a : Aio) (ha : s.aio = some a) (hd : a.done ≠ a.len) (hf : s.full = false) :
      Next l s { s with pc := .top }
  | wake (h : s.pc = .aioDone) (hs : s.status = .waitAio) (w : Option Nat) (hl : l = .aioDone w) (s' : Rt)
      (hn : Rt.notify { s with status := .completed, pc := .write } w = .ok s') : Next l s s'
  | nowake (h : s.pc = .aioDone) (hs : s.status ≠ .waitAio) : Next l s { s with pc := .write }
  | nothing (h : s.pc = .write) (hm : s.mem s.encPtr = []) : Next l s { s with pc := .top }
  | write (h : s.pc = .write) (hm : s.mem s.encPtr ≠ []) :
      Next l s { s with aio := some ⟨s.comp, (s.mem s.encPtr).length, 0⟩
                        encPtr := s.dbl, mem := upd s.mem s.dbl [], comp := s.dbl, dbl := s.comp
                        full := false, pc := .top, gO := s.gO ++ s.gB, gB := [] }

theorem sum_map_le {l : List Nat} {f g : Nat → Nat} (h : ∀ t ∈ l, f t ≤ g t) :
    (l.map f).sum ≤ (l.map g).sum := by
  induction l with
  | nil => simp
  | cons a l ih =>
    have h1 := h a (by simp)
    have h2 := ih fun t ht => h t (by simp [ht])
    simp only [List.map_cons, List.sum_cons]
    omega

theorem sum_map_lt {l : List Nat} {f g : Nat → Nat} (h : ∀ t ∈ l, f t ≤ g t) {u : Nat} (hu : u ∈ l)
    (hlt : f u < g u) : (l.map f).sum < (l.map g).sum := by
  induction l with
  | nil => simp at hu
  | cons a l ih =>
    have h1 := h a (by simp)
    have h2 : ∀ t ∈ l, f t ≤ g t := fun t ht => h t (by simp [ht])
    have h3 := sum_map_le h2
    simp only [List.map_cons, List.sum_cons]
    rcases List.mem_cons.1 hu with rfl | hu
    · omega
    · have := ih h2 hu
      omega

theorem sum_eraseIdx_le (l : List Nat) (i : Nat) : (l.eraseIdx i).sum ≤ l.sum := by
  induction l generalizing i with
  | nil => simp
  | cons a l ih =>
    cases i with
    | zero => simp
    | succ i => have := ih i; simp only [List.eraseIdx_cons_succ, List.sum_cons]; omega

theorem map_eraseIdx' {α β : Type} (f : α → β) (l : List α) (i : Nat) :
    (l.eraseIdx i).map f = (l.map f).eraseIdx i := by
  induction l generalizing i with
  | nil => simp
  | cons a l ih => cases i <;> simp [ih]

theorem countBytes_pos {size : LogCall → Nat} {cs : List LogCall} {n k : Nat} (hn : 0 < n)
    (h : countBytes size cs n = some k) : 0 < k := by
  cases n with
  | zero => omega
  | succ n =>
    cases cs with
    | nil => simp [countBytes] at h
    | cons c cs =>
      simp only [countBytes] at h
      split at h
      · obtain ⟨j, -, rfl⟩ := Option.map_eq_some_iff.1 h
        omega
      · cases h

theorem notify_work {s s' : Rt} {w : Option Nat} (h : s.notify w = .ok s') : s'.work = s.work := by
  unfold Rt.notify at h
  split at h
  · cases h; rfl
  · rename_i w
    split at h <;> cases h
    rename_i sw _
    have : ∀ t, ((s.setThr w { s.thr w with pc := .woken sw }).thr t).q.length = (s.thr t).q.length := by
      intro t
      simp only [Rt.setThr]
      by_cases ht : t = w
      · subst ht; rw [upd_same]
      · rw [upd_other _ _ ht]
    simp only [Rt.work, this]
    rfl

/-- The bytes of a list of messages. -/
theorem queueSize_take_le (sites : List Site) (cs : List LogCall) (k : Nat) :
    queueSize sites (cs.take k) ≤ queueSize sites cs := by
  unfold queueSize
  induction cs generalizing k with
  | nil => simp
  | cons c cs ih =>
    cases k with
    | zero => simp
    | succ k => have := ih k; simp only [List.take_succ_cons, List.map_cons, List.sum_cons]; omega

/-- The dictionary step. -/
theorem dict_live {cfg : Config} {prog : List Site} (hL : LiveOK cfg prog) {s : Rt}
    (h : FInv cfg prog s) (hroom : 40 ≤ cfg.output) {e : EncSt} {n : Option Int}
    (he : s.enc.step cfg (.dict s.sites.length) = some (e, n)) :
    (s.pos = s.sites.length ∧ e = s.enc) ∨ (s.pos < e.pos ∧ e.pos ≤ s.sites.length) ∨
      (s.mem s.encPtr ≠ [] ∧ e.pos = s.pos ∧ e.shadow = s.shadow ∧ e.buf ≠ []) := by
  have hI := h.enc
  have hpos : s.pos ≤ s.sites.length := hI.pos
  have hsh : s.shadow = s.sites.take s.pos := hI.shadow
  have hsites := h.ids.count.2
  have hpre := (encodeDict_prefix he).1
  simp only [EncSt.step, Rt.enc, List.take_length] at he
  split at he
  · rename_i hlt
    by_cases h8 : 8 < cfg.output - (s.mem s.encPtr).length
    · obtain ⟨pos', k1, k2, k3, k4⟩ := encodeDict_eq s.sites _ s.pos hpos h8
      have hp' : pos' = (encodeDict (cfg.output - (s.mem s.encPtr).length) s.pos (s.sites.map Site.info)).1 := by
        rw [k3]
      rw [k3] at he
      cases he
      by_cases heq : pos' = s.pos
      · right; right
        have hne : s.mem s.encPtr ≠ [] := by
          intro hm
          rw [hm] at hp'
          rw [encodeDict, if_neg (by simp only [List.length_nil]; omega)] at hp'
          have hd : (s.sites.map Site.info).drop s.pos =
              s.sites[s.pos].info :: (s.sites.map Site.info).drop (s.pos + 1) := by
            rw [List.drop_eq_getElem_cons (by simpa using hlt)]
            simp
          rw [hd] at hp'
          have := dictEntries_progress s.sites[s.pos].info ((s.sites.map Site.info).drop (s.pos + 1))
            (cfg.output - 0 - 8) (by have := hL.entry _ (hsites _ (List.getElem_mem hlt)); omega)
          simp only [List.length_nil] at hp'
          omega
        refine ⟨hne, heq, ?_, ?_⟩
        · simp only
          rw [heq, hsh]
          simp
        · intro hb
          rw [hb] at hpre
          exact hne (List.prefix_nil.1 hpre)
      · exact .inr (.inl ⟨by simp only; omega, k1⟩)
    · rw [encodeDict, if_pos (by omega)] at he
      cases he
      right; right
      have hne : s.mem s.encPtr ≠ [] := by
        intro hm; rw [hm] at h8; simp only [List.length_nil] at h8; omega
      refine ⟨hne, rfl, ?_, by simpa using hne⟩
      simp only
      rw [hsh]
      simp
  · cases he
    exact .inl ⟨by omega, rfl⟩

/-- A chunk of which nothing is consumed. -/
theorem batch_live {cfg : Config} {prog : List Site} (hL : LiveOK cfg prog) {s : Rt} (hc : RtInv s)
    (h : FInv cfg prog s) (hpc : s.pc = .encode) {b : Nat} (hb : (s.thr s.cur).bid = some b)
    {junk : Nat → Nat} {more : List Byte} {e : EncSt}
    (he : s.enc.step cfg (.batch junk ((s.thr s.cur).q.take s.rem)
        (s.msgBytes ((s.thr s.cur).q.take s.rem) ++ more)
        (min cfg.release (s.msgBytes ((s.thr s.cur).q.take s.rem)).length) b s.wrap) = some (e, some 0)) :
    ¬ (s.mem s.encPtr = [] ∧ s.pos = s.sites.length) := by
  rintro ⟨hm, hp⟩
  obtain ⟨hr1, hr2⟩ := hc.rem hpc
  have hsh : s.shadow = s.sites := by
    have : s.shadow = s.sites.take s.pos := h.enc.shadow
    rw [this, hp, List.take_length]
  have hlog := (hc.thr s.cur).log
  have hall : ∀ c ∈ (s.thr s.cur).q.take s.rem, CallOK cfg s.sites c := by
    intro c hcm
    refine h.log s.cur c ?_
    rw [hlog]
    exact List.mem_append_right _ (List.mem_of_mem_take hcm)
  have hne : (s.thr s.cur).q.take s.rem ≠ [] := by
    intro hn
    have := congrArg List.length hn
    simp only [List.length_take, List.length_nil] at this
    omega
  rw [s.msgBytes_eq] at he
  have hbl := h.bid _ _ hb
  generalize (s.thr s.cur).q.take s.rem = cs at hall hne he
  obtain ⟨c, cs, rfl⟩ := List.exists_cons_of_ne_nil hne
  obtain ⟨ms, hms⟩ := CallOK.all_prints hall b ⟨0, 0, [], 0, 0⟩
  have hq := queue_of_prints hms
  have hql := (queueBytes_length hq).1
  have hsz := (hall c (by simp)).size
  have hqs : queueSize s.sites (c :: cs) = callSize s.sites c + queueSize s.sites cs := by
    simp [queueSize]
  obtain ⟨site, ok, -⟩ := hq c (by simp)
  have hid : c.id < s.sites.length := by
    have := ok.site
    by_contra hn; rw [List.getElem?_eq_none (by omega)] at this; cases this
  have hrel := hL.release
  have hroom := hL.room
  obtain ⟨out, n, h1, h2, -⟩ := first_consumed cfg junk (List.prefix_refl s.sites) more hq
    (space := cfg.output - (s.mem s.encPtr).length)
    (nbytes := min cfg.release (queueBytes s.sites (c :: cs)).length) s.wrap hbl (by omega) hid
    (by omega) (by rw [hm]; simp only [List.length_nil]; omega)
  simp only [EncSt.step, Rt.enc, hsh] at he
  rw [h1] at he
  simp only [Option.some.injEq, Prod.mk.injEq] at he
  omega

theorem work_same {s s' : Rt} (h1 : s'.bufs = s.bufs) (h2 : s'.sites = s.sites) (h3 : s'.pos = s.pos)
    (h4 : ∀ t, (s'.thr t).q.length = (s.thr t).q.length) : s'.work = s.work := by
  simp only [Rt.work, h1, h2, h3, h4]

/-- Nothing of the chunk is consumed only if it would not fit or a statement is not written yet. -/
theorem batch_room {cfg : Config} {prog : List Site} (hL : LiveOK cfg prog) {s : Rt} (hc : RtInv s)
    (h : FInv cfg prog s) (hpc : s.pc = .encode) {b : Nat} (hb : (s.thr s.cur).bid = some b)
    {junk : Nat → Nat} {more : List Byte} {e : EncSt}
    (he : s.enc.step cfg (.batch junk ((s.thr s.cur).q.take s.rem)
        (s.msgBytes ((s.thr s.cur).q.take s.rem) ++ more)
        (min cfg.release (s.msgBytes ((s.thr s.cur).q.take s.rem)).length) b s.wrap) = some (e, some 0)) :
    ¬ (s.pos = s.sites.length ∧ (s.mem s.encPtr).length + 25 +
      2 * queueSize s.sites ((s.thr s.cur).q.take s.rem) ≤ cfg.output) := by
  rintro ⟨hp, hm⟩
  obtain ⟨hr1, hr2⟩ := hc.rem hpc
  have hsh : s.shadow = s.sites := by
    have : s.shadow = s.sites.take s.pos := h.enc.shadow
    rw [this, hp, List.take_length]
  have hlog := (hc.thr s.cur).log
  have hall : ∀ c ∈ (s.thr s.cur).q.take s.rem, CallOK cfg s.sites c := by
    intro c hcm
    refine h.log s.cur c ?_
    rw [hlog]
    exact List.mem_append_right _ (List.mem_of_mem_take hcm)
  have hne : (s.thr s.cur).q.take s.rem ≠ [] := by
    intro hn
    have := congrArg List.length hn
    simp only [List.length_take, List.length_nil] at this
    omega
  rw [s.msgBytes_eq] at he
  have hbl := h.bid _ _ hb
  generalize (s.thr s.cur).q.take s.rem = cs at hall hne he hm
  obtain ⟨c, cs, rfl⟩ := List.exists_cons_of_ne_nil hne
  obtain ⟨ms, hms⟩ := CallOK.all_prints hall b ⟨0, 0, [], 0, 0⟩
  have hq := queue_of_prints hms
  have hql := (queueBytes_length hq).1
  have hsz := (hall c (by simp)).size
  have hqs : queueSize s.sites (c :: cs) = callSize s.sites c + queueSize s.sites cs := by
    simp [queueSize]
  obtain ⟨site, ok, -⟩ := hq c (by simp)
  have hid : c.id < s.sites.length := by
    have := ok.site
    by_contra hn; rw [List.getElem?_eq_none (by omega)] at this; cases this
  have hrel := hL.release
  obtain ⟨out, n, h1, h2, -⟩ := first_consumed cfg junk (List.prefix_refl s.sites) more hq
    (space := cfg.output - (s.mem s.encPtr).length)
    (nbytes := min cfg.release (queueBytes s.sites (c :: cs)).length) s.wrap hbl (by omega) hid
    (by omega) (by omega)
  simp only [EncSt.step, Rt.enc, hsh] at he
  rw [h1] at he
  simp only [Option.some.injEq, Prod.mk.injEq] at he
  omega

/-- The output for a chunk is not much longer than the messages. -/
theorem batch_len {cfg : Config} {prog : List Site} {s : Rt} (hc : RtInv s)
    (h : FInv cfg prog s) {b : Nat} (hb : (s.thr s.cur).bid = some b)
    {junk : Nat → Nat} {more : List Byte} {e : EncSt} {n : Int} (hn : n ≠ 0)
    (he : s.enc.step cfg (.batch junk ((s.thr s.cur).q.take s.rem)
        (s.msgBytes ((s.thr s.cur).q.take s.rem) ++ more)
        (min cfg.release (s.msgBytes ((s.thr s.cur).q.take s.rem)).length) b s.wrap) = some (e, some n)) :
    (e.buf.length : Int) ≤ (s.mem s.encPtr).length + 3 * n := by
  have hlog := (hc.thr s.cur).log
  have hall : ∀ c ∈ (s.thr s.cur).q.take s.rem, CallOK cfg s.sites c := by
    intro c hcm
    refine h.log s.cur c ?_
    rw [hlog]
    exact List.mem_append_right _ (List.mem_of_mem_take hcm)
  rw [s.msgBytes_eq] at he
  have hbl := h.bid _ _ hb
  generalize (s.thr s.cur).q.take s.rem = cs at hall he
  obtain ⟨ms, hms⟩ := CallOK.all_prints hall b ⟨0, 0, [], 0, 0⟩
  have hq := queue_of_prints hms
  have hql := (queueBytes_length hq).1
  have hpre : s.shadow <+: s.sites := by
    have : s.shadow = s.sites.take s.pos := h.enc.shadow
    rw [this]; exact List.take_prefix _ _
  simp only [EncSt.step, Rt.enc] at he
  by_cases hsp : 9 ≤ cfg.output - (s.mem s.encPtr).length
  · obtain ⟨pre, suf, body, q1, q2, q3, -⟩ := encodeLogMsgs_queue cfg junk hpre more cs hq
      (cfg.output - (s.mem s.encPtr).length) (min cfg.release (queueBytes s.sites cs).length) b s.wrap hbl
      hsp (by omega)
    rw [q2] at he
    simp only [Option.some.injEq, Prod.mk.injEq] at he
    obtain ⟨rfl, rfl⟩ := he
    have hl := extentBytes_length b s.wrap body
    have hh := extentHeaderSize_le hbl
    have h2 := q3.length_le2
    have h16 : 16 ≤ queueSize s.sites pre := by
      cases pre with
      | nil => simp [queueSize] at hn
      | cons c pre =>
        obtain ⟨site, ok, -⟩ := hq c (by rw [q1]; simp)
        have := callSize_eq ok
        simp only [queueSize, List.map_cons, List.sum_cons, this, LogCall.size]
        omega
    have h3 : queueSize s.shadow pre = queueSize s.sites pre := queueSize_prefix hpre q3.ok
    simp only [List.length_append, hl]
    push_cast
    omega
  · rw [encodeLogMsgs, if_pos (by omega)] at he
    simp only [Option.some.injEq, Prod.mk.injEq] at he
    exact absurd he.2.symm hn

/-- Messages taken from the buffer `cur`: the first `k` of the chunk, which needed at most three times their
size in the output buffer. -/
def Took (s s' : Rt) : Prop :=
  s.pc = .encode ∧ ∃ (k : Nat) (m : List Byte) (s1 : Rt), 0 < k ∧ k ≤ s.rem ∧ m ≠ [] ∧
    m.length ≤ (s.mem s.encPtr).length + 3 * queueSize s.sites (((s.thr s.cur).q.take s.rem).take k) ∧
    s1 = { s with
      mem := upd s.mem s.encPtr m, wrap := false, rem := s.rem - k
      thr := upd s.thr s.cur { s.thr s.cur with q := (s.thr s.cur).q.drop k }
      gB := s.gB ++ (((s.thr s.cur).q.take s.rem).take k).map fun c => (s.cur, c) } ∧
    (s.rem - k = 0 ∧ s' = s1.adv ∨ s.rem - k ≠ 0 ∧ s' = s1)

/-- A step of the background thread does some of the work or is one of those listed. -/
theorem bg_did {cfg : Config} {prog : List Site} (hP : ProgOK cfg prog) (hL : LiveOK cfg prog)
    {s s' : Rt} {l : Lbl} (hc : RtInv s) (h : FInv cfg prog s) (hl : l.isBg = true)
    (hj : ∀ t jk c, l ≠ .join t jk c) (hd : l ≠ .dict true) (ha : s.act cfg prog l = .ok s') :
    (s'.work < s.work ∧ (s'.bufs = s.bufs ∧ s.pos < s'.pos ∧ s'.pos ≤ s.sites.length ∨ Took s s' ∨
      s'.pos = s.pos ∧ s'.bufs.length < s.bufs.length)) ∨
    (s'.work = s.work ∧ Next l s s' ∧ (s.pc = .encode → ¬ (s.pos = s.sites.length ∧
      (s.mem s.encPtr).length + 25 + 2 * queueSize s.sites ((s.thr s.cur).q.take s.rem) ≤ cfg.output))) := by
  have hroom := hP.room
  cases l <;> simp only [Lbl.isBg, Bool.false_eq_true] at hl <;>
    simp only [Rt.act, Rt.actScan, Rt.actIo, ne_eq] at ha
  case join t jk c => exact absurd rfl (hj t jk c)
  case top =>
    split at ha
    · cases ha
    rename_i hpc; simp only [not_not] at hpc
    split at ha <;> cases ha
    · rename_i hx; exact .inr ⟨rfl, .dead hpc hx.1 hx.2.1 hx.2.2, fun hx => by rw [hpc] at hx; cases hx⟩
    · rename_i hx; exact .inr ⟨rfl, .top hpc hx, fun hx => by rw [hpc] at hx; cases hx⟩
  case dict skip =>
    split at ha
    · cases ha
    rename_i hpc; simp only [not_not] at hpc
    split at ha
    · rename_i hs; subst hs; exact absurd rfl hd
    split at ha <;> cases ha
    rename_i e n he
    rcases dict_live hL h hroom he with ⟨h1, rfl⟩ | ⟨h1, h2⟩ | ⟨h1, h2, h3, h4⟩
    · refine .inr ⟨rfl, ?_⟩
      have : ({ s.setEnc s.enc with pc := .scan } : Rt) = { s with pc := .scan } := by
        simp only [Rt.setEnc, Rt.enc]
        congr 1
        funext b
        simp only [upd]; split <;> simp_all
      rw [this]
      exact ⟨.dict0 hpc h1, fun hx => by rw [hpc] at hx; cases hx⟩
    · left
      refine ⟨?_, .inl ⟨rfl, h1, h2⟩⟩
      simp only [Rt.work, Rt.setEnc]
      omega
    · right
      have : ({ s.setEnc e with pc := .scan } : Rt) =
          { s with mem := upd s.mem s.encPtr e.buf, pc := .scan } := by
        simp only [Rt.setEnc, h2, h3]
      rw [this]
      exact ⟨rfl, .dict1 hpc h1 _ h4, fun hx => by rw [hpc] at hx; cases hx⟩
  case peek n =>
    split at ha
    · cases ha
    rename_i hpc; simp only [not_not] at hpc
    split at ha
    · cases ha; rename_i hf; exact .inr ⟨rfl, .stop hpc hf, fun hx => by rw [hpc] at hx; cases hx⟩
    rename_i hf
    have hf' : s.full = false := by
      by_contra hn
      exact hf (.inl (by simpa using hn))
    split at ha
    · cases ha
    rename_i t ht
    split at ha
    · cases ha
    split at ha
    · split at ha <;> cases ha
      rename_i hq
      exact .inr ⟨rfl, .look hpc hf' t ht hq, fun hx => by rw [hpc] at hx; cases hx⟩
    · split at ha <;> cases ha
      exact .inr ⟨rfl, .enc hpc hf' t n ht, fun hx => by rw [hpc] at hx; cases hx⟩
  case check =>
    split at ha
    · cases ha
    rename_i hpc; simp only [not_not] at hpc
    have hcur := hc.curI (.inl hpc)
    have hlt : s.i < s.bufs.length := by
      by_contra hn; rw [List.getElem?_eq_none (by omega)] at hcur; cases hcur
    split at ha
    · left
      have key : ∀ s1 : Rt, s1.bufs = s.bufs.eraseIdx s.i → s1.sites = s.sites → s1.pos = s.pos →
          (∀ t, (s1.thr t).q.length = (s.thr t).q.length) → s1.work < s.work := by
        intro s1 e1 e2 e3 e4
        simp only [Rt.work, e1, e2, e3, e4, map_eraseIdx']
        have := sum_eraseIdx_le (s.bufs.map fun t => (s.thr t).q.length) s.i
        have := List.length_eraseIdx_of_lt hlt
        omega
      have hq : ∀ t, ((s.setThr s.cur { s.thr s.cur with freed := true }).thr t).q.length =
          (s.thr t).q.length := by
        intro t
        simp only [Rt.setThr]
        by_cases ht : t = s.cur
        · subst ht; rw [upd_same]
        · rw [upd_other _ _ ht]
      have hel := List.length_eraseIdx_of_lt hlt
      split at ha
      · cases ha
        exact ⟨key _ rfl rfl rfl hq, .inr (.inr ⟨rfl, by simp only; omega⟩)⟩
      · rw [advance_eq ha]
        exact ⟨key _ rfl rfl rfl hq, .inr (.inr ⟨rfl, by simp only; omega⟩)⟩
    · rw [advance_eq ha]
      exact .inr ⟨rfl, .check hpc, fun hx => by rw [hpc] at hx; cases hx⟩
  case encode junk more =>
    split at ha
    · cases ha
    rename_i hpc; simp only [not_not] at hpc
    have hcur := hc.curI (.inr hpc)
    have hmem : s.cur ∈ s.bufs := List.mem_of_getElem? hcur
    split at ha
    · cases ha
    split at ha
    · cases ha
    rename_i b hb
    split at ha
    · rename_i e n he
      split at ha
      · rename_i hn
        subst hn
        right
        rw [advance_eq ha]
        obtain ⟨-, -, p3, p4⟩ := batch_all he
        have hne := batch_nonempty hroom he
        have : ({ s.setEnc e with last := s.i, full := true } : Rt) =
            { s with mem := upd s.mem s.encPtr e.buf, last := s.i, full := true } := by
          have p3' : e.shadow = s.shadow := p3
          have p4' : e.pos = s.pos := p4
          simp only [Rt.setEnc, p3', p4']
        rw [this]
        exact ⟨rfl, .fail hpc (batch_live hL hc h hpc hb he) _ hne, fun _ => batch_room hL hc h hpc hb he⟩
      · rename_i hn
        split at ha
        · cases ha
        rename_i k hk
        left
        obtain ⟨e1, rs, k', q1, q2, q3, -⟩ := batch_step hP hc h ⟨0, 0, [], 0, 0⟩ hb junk more
        rw [he] at q1
        simp only [Option.some.injEq, Prod.mk.injEq] at q1
        have hk0 := countBytes_pos (by omega) hk
        obtain ⟨-, -, p3, p4⟩ := batch_all he
        obtain ⟨hr1, hr2⟩ := hc.rem hpc
        have key : ∀ s1 : Rt, s1.bufs = s.bufs → s1.sites = s.sites → s1.pos = s.pos →
            s1.thr = upd s.thr s.cur { s.thr s.cur with q := (s.thr s.cur).q.drop k } →
            s1.work < s.work := by
          intro s1 e1 e2 e3 e4
          simp only [Rt.work, e1, e2, e3, e4]
          have := sum_map_lt (l := s.bufs) (u := s.cur)
            (f := fun t => (upd s.thr s.cur { s.thr s.cur with q := (s.thr s.cur).q.drop k } t).q.length)
            (g := fun t => (s.thr t).q.length) (by
              intro t _
              simp only
              by_cases ht : t = s.cur
              · subst ht; rw [upd_same]; simp
              · rw [upd_other _ _ ht]; exact Nat.le_refl _) hmem (by simp only [upd_same, List.length_drop]; omega)
          exact Nat.add_lt_add_right (Nat.add_lt_add_right this _) _
        have hlen := batch_len hc h hb hn he
        have hne := batch_nonempty hroom he
        have p3' : e.shadow = s.shadow := p3
        have p4' : e.pos = s.pos := p4
        have hkk : k' = k := by
          have hnn : n = (queueSize s.sites (((s.thr s.cur).q.take s.rem).take k') : Int) := q1.2.symm ▸ rfl
          rw [hnn, Int.toNat_natCast, q3] at hk
          exact Option.some.inj hk
        have hlen' : e.buf.length ≤ (s.mem s.encPtr).length +
            3 * queueSize s.sites (((s.thr s.cur).q.take s.rem).take k) := by
          rw [← hkk]; omega
        have hkr : k ≤ s.rem := by
          rw [← hkk]; rw [List.length_take] at q2; omega
        have he1 : ({ (s.setEnc e).setThr s.cur { s.thr s.cur with q := (s.thr s.cur).q.drop k } with
              wrap := false, rem := s.rem - k
              gB := s.gB ++ (((s.thr s.cur).q.take s.rem).take k).map fun c => (s.cur, c) } : Rt) =
            { s with
              mem := upd s.mem s.encPtr e.buf, wrap := false, rem := s.rem - k
              thr := upd s.thr s.cur { s.thr s.cur with q := (s.thr s.cur).q.drop k }
              gB := s.gB ++ (((s.thr s.cur).q.take s.rem).take k).map fun c => (s.cur, c) } := by
          simp only [Rt.setEnc, Rt.setThr, p3', p4']
        split at ha
        · rename_i h0
          refine ⟨by rw [advance_eq ha]; exact key _ rfl rfl p4 rfl, .inr (.inl ⟨hpc, k, e.buf, _, hk0, hkr,
            hne, hlen', rfl, .inl ⟨h0, ?_⟩⟩)⟩
          rw [advance_eq ha, ← he1]; rfl
        · rename_i h0
          refine ⟨by cases ha; exact key _ rfl rfl p4 rfl, .inr (.inl ⟨hpc, k, e.buf, _, hk0, hkr,
            hne, hlen', rfl, .inr ⟨h0, ?_⟩⟩)⟩
          rw [← Out.ok.inj ha, ← he1]
    · cases ha
  case scanned w =>
    split at ha
    · cases ha
    rename_i hpc; simp only [not_not] at hpc
    split at ha
    · cases ha; rename_i hm; exact .inr ⟨rfl, .data hpc hm, fun hx => by rw [hpc] at hx; cases hx⟩
    rename_i hm; simp only [not_not] at hm
    split at ha
    · cases ha; rename_i hs; exact .inr ⟨rfl, .again hpc hm hs, fun hx => by rw [hpc] at hx; cases hx⟩
    rename_i hs
    split at ha
    · rename_i hi
      rw [hi] at ha
      exact .inr ⟨(notify_work ha).trans rfl, .done hpc hm hs hi w rfl _ ha, fun hx => by rw [hpc] at hx; cases hx⟩
    · rename_i hi
      cases ha; exact .inr ⟨rfl, .idle hpc hm hs hi, fun hx => by rw [hpc] at hx; cases hx⟩
  case aio =>
    split at ha
    · cases ha
    rename_i hpc; simp only [not_not] at hpc
    split at ha
    · cases ha; rename_i hn; exact .inr ⟨rfl, .noaio hpc hn, fun hx => by rw [hpc] at hx; cases hx⟩
    rename_i a hn
    split at ha
    · cases ha; rename_i hd; exact .inr ⟨rfl, .ioDone hpc a hn hd, fun hx => by rw [hpc] at hx; cases hx⟩
    rename_i hd
    split at ha <;> cases ha
    rename_i hf
    exact .inr ⟨rfl, .busy hpc a hn hd (by simpa using hf), fun hx => by rw [hpc] at hx; cases hx⟩
  case aioDone w =>
    split at ha
    · cases ha
    rename_i hpc; simp only [not_not] at hpc
    split at ha
    · rename_i hs
      exact .inr ⟨(notify_work ha).trans rfl, .wake hpc hs w rfl _ ha, fun hx => by rw [hpc] at hx; cases hx⟩
    · cases ha; rename_i hs; exact .inr ⟨rfl, .nowake hpc hs, fun hx => by rw [hpc] at hx; cases hx⟩
  case write =>
    split at ha
    · cases ha
    rename_i hpc; simp only [not_not] at hpc
    split at ha
    · cases ha; rename_i hm; exact .inr ⟨rfl, .nothing hpc hm, fun hx => by rw [hpc] at hx; cases hx⟩
    · cases ha; rename_i hm; exact .inr ⟨rfl, .write hpc hm, fun hx => by rw [hpc] at hx; cases hx⟩

/-- As `bg_did`. -/
theorem bg_next {cfg : Config} {prog : List Site} (hP : ProgOK cfg prog) (hL : LiveOK cfg prog)
    {s s' : Rt} {l : Lbl} (hc : RtInv s) (h : FInv cfg prog s) (hl : l.isBg = true)
    (hj : ∀ t jk c, l ≠ .join t jk c) (hd : l ≠ .dict true) (ha : s.act cfg prog l = .ok s') :
    s'.work < s.work ∨ (s'.work = s.work ∧ Next l s s') := by
  rcases bg_did hP hL hc h hl hj hd ha with h1 | h1
  · exact .inl h1.1
  · exact .inr ⟨h1.1, h1.2.1⟩

end NanoLog
