import Verif.RuntimeDecode

/-! Helper lemmas: a pass of the background thread over the staging buffers. -/

namespace NanoLog

/-- The states before the steps of a run, with the steps. -/
def Rt.trace (cfg : Config) (prog : List Site) (s : Rt) : List Lbl → List (Rt × Lbl)
  | [] => []
  | l :: ls =>
    (s, l) :: match s.act cfg prog l with
      | .ok s' => Rt.trace cfg prog s' ls
      | _ => []

/-- The step deletes the buffer with which the pass began while there are others
(runtime/RuntimeLogger.cc:473-491 with `i == lastStagingBufferChecked`). -/
def FirstDeleted (p : Rt × Lbl) : Prop :=
  p.2 = .check ∧ p.1.i = p.1.last ∧ 1 < p.1.bufs.length ∧
    (p.1.thr p.1.cur).dealloc = true ∧ (p.1.thr p.1.cur).q = []

/-- What a pass at index `i` still has to inspect, beginning with index `i` itself. -/
def pend (bufs : List Nat) (last i : Nat) : List Nat :=
  if last ≤ i then bufs.drop i ++ bufs.take last else (bufs.take last).drop i

theorem pend_head {bufs : List Nat} {last i c : Nat} (h : bufs[i]? = some c) :
    pend bufs last i = c :: (pend bufs last i).tail := by
  have hlt : i < bufs.length := by
    by_contra hn
    rw [List.getElem?_eq_none (by omega)] at h; cases h
  have hd : bufs.drop i = c :: bufs.drop (i + 1) := by
    rw [List.drop_eq_getElem_cons hlt]
    rw [List.getElem?_eq_getElem hlt] at h
    rw [Option.some.inj h]
  unfold pend
  split
  · rw [hd]; rfl
  · rw [List.drop_take, hd]
    obtain ⟨m, hm⟩ : ∃ m, last - i = m + 1 := ⟨last - i - 1, by omega⟩
    rw [hm]; rfl

theorem pend_tail_ge {bufs : List Nat} {last i : Nat} (h : last ≤ i) (hi : i < bufs.length) :
    (pend bufs last i).tail = bufs.drop (i + 1) ++ bufs.take last := by
  rw [pend, if_pos h, List.drop_eq_getElem_cons hi]; rfl

theorem pend_tail_lt {bufs : List Nat} {last i : Nat} (h : i < last) :
    (pend bufs last i).tail = (bufs.take last).drop (i + 1) := by
  rw [pend, if_neg (by omega), List.tail_drop]

/-- Going on without a deletion. -/
theorem pend_next {bufs : List Nat} {last i : Nat} (hi : i < bufs.length) (hl : last < bufs.length) :
    if (i + 1) % bufs.length = last then (pend bufs last i).tail = []
    else pend bufs last ((i + 1) % bufs.length) = (pend bufs last i).tail := by
  rcases Nat.lt_or_ge i last with h | h
  · rw [pend_tail_lt h, Nat.mod_eq_of_lt (by omega)]
    split
    · rename_i he
      rw [he]; simp
    · rw [pend, if_neg (by omega)]
  · rw [pend_tail_ge h hi]
    rcases Nat.lt_or_ge (i + 1) bufs.length with h1 | h1
    · rw [Nat.mod_eq_of_lt h1, if_neg (by omega), pend, if_pos (by omega)]
    · have : i + 1 = bufs.length := by omega
      rw [this, Nat.mod_self, List.drop_length]
      split
      · rename_i he; rw [← he]; simp
      · rw [pend, if_neg (by omega)]; simp

/-- Going on after a deletion, unless the first buffer of the pass was deleted. -/
theorem pend_delete {bufs : List Nat} {last i : Nat} (hi : i < bufs.length) (hl : last < bufs.length)
    (hne : i ≠ last) :
    let bufs' := bufs.eraseIdx i
    let last' := if last ≥ i ∧ last > 0 then last - 1 else last
    if i % bufs'.length = last' then (pend bufs last i).tail = []
    else pend bufs' last' (i % bufs'.length) = (pend bufs last i).tail := by
  simp only
  have hlen : (bufs.eraseIdx i).length = bufs.length - 1 := List.length_eraseIdx_of_lt hi
  have hdrop : (bufs.eraseIdx i).drop i = bufs.drop (i + 1) := by
    rw [List.eraseIdx_eq_take_drop_succ, List.drop_append, List.drop_eq_nil_of_le (by simp; omega)]
    simp [Nat.min_eq_left (Nat.le_of_lt hi)]
  have htake : ∀ k, k ≤ i → (bufs.eraseIdx i).take k = bufs.take k := by
    intro k hk
    rw [List.eraseIdx_eq_take_drop_succ, List.take_append, List.take_take, Nat.min_eq_left hk]
    simp [Nat.min_eq_left (Nat.le_of_lt hi), Nat.sub_eq_zero_of_le hk]
  rw [hlen]
  rcases Nat.lt_or_ge i last with h | h
  · have hl' : (if last ≥ i ∧ last > 0 then last - 1 else last) = last - 1 :=
      if_pos ⟨by omega, by omega⟩
    rw [hl', pend_tail_lt h, Nat.mod_eq_of_lt (by omega)]
    split
    · have : i + 1 = last := by omega
      rw [this]; simp
    · rw [pend, if_neg (by omega), List.drop_take, hdrop, List.drop_take]
      congr 1
      omega
  · have h : last < i := by omega
    have hl' : (if last ≥ i ∧ last > 0 then last - 1 else last) = last :=
      if_neg (by omega)
    rw [hl', pend_tail_ge (by omega) hi]
    rcases Nat.lt_or_ge i (bufs.length - 1) with h1 | h1
    · rw [Nat.mod_eq_of_lt h1, if_neg (by omega), pend, if_pos (by omega), hdrop, htake _ (by omega)]
    · have : i = bufs.length - 1 := by omega
      rw [← this, Nat.mod_self, show i + 1 = bufs.length by omega, List.drop_length]
      split
      · rename_i he; rw [← he]; simp
      · rw [pend, if_neg (by omega), htake _ (by omega)]; simp

/-- A new buffer at the end. -/
theorem pend_push {bufs : List Nat} {last i t u : Nat} (hl : last < bufs.length)
    (h : u ∈ pend bufs last i) : u ∈ pend (bufs ++ [t]) last i := by
  unfold pend at *
  rw [List.take_append_of_le_length (by omega)]
  split
  · rename_i hc
    rw [if_pos hc] at h
    rcases List.mem_append.1 h with h | h
    · rw [List.drop_append]; simp [h]
    · simp [h]
  · rename_i hc
    rw [if_neg hc] at h; exact h

theorem pend_push_tail {bufs : List Nat} {last i t u : Nat} (hi : i < bufs.length)
    (hl : last < bufs.length) (h : u ∈ (pend bufs last i).tail) :
    u ∈ (pend (bufs ++ [t]) last i).tail := by
  rcases Nat.lt_or_ge i last with hc | hc
  · rw [pend_tail_lt hc] at *
    rw [List.take_append_of_le_length (by omega)]; exact h
  · rw [pend_tail_ge hc hi] at h
    rw [pend_tail_ge hc (by simp; omega), List.take_append_of_le_length (by omega), List.drop_append]
    rcases List.mem_append.1 h with h | h
    · simp [h]
    · simp [h]

/-- At the beginning of a pass. -/
theorem pend_start (bufs : List Nat) (last u : Nat) : u ∈ pend bufs last last ↔ u ∈ bufs := by
  rw [pend, if_pos (Nat.le_refl _), List.mem_append, Or.comm, ← List.mem_append,
    List.take_append_drop]

/-! ## Steps of a pass -/

theorem RtInv.idx_lt {s : Rt} (h : RtInv s) {i c : Nat} (hc : s.bufs[i]? = some c) :
    i < s.bufs.length ∧ s.last < s.bufs.length := by
  have hlt : i < s.bufs.length := by
    by_contra hn
    rw [List.getElem?_eq_none (by omega)] at hc; cases hc
  refine ⟨hlt, ?_⟩
  rcases h.idx with hi | hi
  · exact hi
  · rw [hi.1] at hlt; simp at hlt

theorem advance_eq {s s' : Rt} {j : Nat} (ha : s.advance j = .ok s') :
    s' = { s with i := j % s.bufs.length, wrap := s.wrap || j % s.bufs.length = 0
                  pc := if j % s.bufs.length = s.last then .scanned else .scan } := by
  unfold Rt.advance at ha
  split at ha <;> cases ha
  rfl

/-- Advancing to the next buffer. -/
theorem advance_pend {s s' : Rt} {i : Nat} (ha : s.advance (i + 1) = .ok s') (hi : i < s.bufs.length)
    (hl : s.last < s.bufs.length) :
    (s'.pc = .scan ∨ s'.pc = .scanned) ∧ ∀ u ∈ (pend s.bufs s.last i).tail,
      s'.pc = .scan ∧ u ∈ pend s'.bufs s'.last s'.i := by
  unfold Rt.advance at ha
  split at ha <;> cases ha
  have := pend_next hi hl
  simp only
  split
  · rename_i he
    rw [if_pos he] at this
    exact ⟨.inr rfl, by rw [this]; simp⟩
  · rename_i he
    rw [if_neg he] at this
    exact ⟨.inl rfl, fun u hu => ⟨rfl, by rw [this]; exact hu⟩⟩

/-- The test for deletion. -/
theorem check_pend {cfg : Config} {s s' : Rt} (h : RtInv s) (ha : s.actScan cfg .check = .ok s')
    (hnd : ¬ FirstDeleted (s, .check)) :
    s.pc = .check ∧ (s'.pc = .scan ∨ s'.pc = .scanned) ∧ s'.full = s.full ∧ s'.mem = s.mem ∧
    s'.encPtr = s.encPtr ∧ s'.status = s.status ∧ s'.encoded = s.encoded ∧
    ∀ u ∈ (pend s.bufs s.last s.i).tail, s'.pc = .scan ∧ u ∈ pend s'.bufs s'.last s'.i := by
  simp only [Rt.actScan] at ha
  split at ha
  · cases ha
  rename_i hpc
  simp only [ne_eq, Decidable.not_not] at hpc
  obtain ⟨hi, hl⟩ := h.idx_lt (h.curI (.inl hpc))
  split at ha
  · rename_i hdel
    have hor : s.i ≠ s.last ∨ s.bufs.length = 1 := by
      by_cases hne : s.i = s.last
      · right
        by_contra hn
        exact hnd ⟨rfl, hne, by simp only; omega, hdel⟩
      · exact .inl hne
    split at ha
    · rename_i he
      cases ha
      refine ⟨hpc, .inr rfl, rfl, rfl, rfl, rfl, rfl, ?_⟩
      have hlen : (s.bufs.eraseIdx s.i).length = s.bufs.length - 1 :=
        List.length_eraseIdx_of_lt hi
      rw [he] at hlen
      simp only [List.length_nil] at hlen
      rw [pend_tail_ge (by omega) hi, List.drop_eq_nil_of_le (by omega)]
      have : s.last = 0 := by omega
      rw [this]; simp
    · rename_i he
      have hlen : (s.bufs.eraseIdx s.i).length = s.bufs.length - 1 :=
        List.length_eraseIdx_of_lt hi
      have hpos := List.length_pos_iff.2 he
      have hne : s.i ≠ s.last := by
        rcases hor with h1 | h1
        · exact h1
        · have : 0 < (s.bufs.eraseIdx s.i).length := hpos
          omega
      have hd := pend_delete hi hl hne
      simp only at hd
      generalize (if s.last ≥ s.i ∧ s.last > 0 then s.last - 1 else s.last) = last' at hd ha
      have heq := advance_eq ha
      subst heq
      refine ⟨hpc, ?_, rfl, rfl, rfl, rfl, rfl, ?_⟩
      · simp only; split <;> simp
      · simp only
        split
        · rename_i heq
          rw [if_pos heq] at hd
          rw [hd]; simp
        · rename_i heq
          rw [if_neg heq] at hd
          exact fun u hu => ⟨rfl, by rw [hd]; exact hu⟩
  · obtain ⟨h1, h2⟩ := advance_pend ha hi hl
    unfold Rt.advance at ha
    split at ha <;> cases ha
    exact ⟨hpc, h1, rfl, rfl, rfl, rfl, rfl, h2⟩

/-- Encoding. -/
theorem encode_pend {cfg : Config} (hroom : 40 ≤ cfg.output) {s s' : Rt} {junk : Nat → Nat}
    {more : List Byte} (h : RtInv s) (ha : s.actScan cfg (.encode junk more) = .ok s') :
    s.pc = .encode ∧ s'.mem s'.encPtr ≠ [] ∧ s'.status = s.status ∧
    (s'.full = true ∨
     (s'.full = s.full ∧ s'.pc = .encode ∧ s'.bufs = s.bufs ∧ s'.last = s.last ∧ s'.i = s.i) ∨
     (s'.full = s.full ∧ (s'.pc = .scan ∨ s'.pc = .scanned) ∧
      ∀ u ∈ (pend s.bufs s.last s.i).tail, s'.pc = .scan ∧ u ∈ pend s'.bufs s'.last s'.i)) := by
  simp only [Rt.actScan] at ha
  split at ha
  · cases ha
  rename_i hpc
  simp only [ne_eq, Decidable.not_not] at hpc
  obtain ⟨hi, hl⟩ := h.idx_lt (h.curI (.inr hpc))
  split at ha
  · cases ha
  split at ha
  · cases ha
  split at ha
  · rename_i e n he
    have hne := batch_nonempty hroom he
    split at ha
    · unfold Rt.advance at ha
      split at ha <;> cases ha
      exact ⟨hpc, by simpa [Rt.setEnc] using hne, rfl, .inl rfl⟩
    · split at ha
      · cases ha
      split at ha
      · obtain ⟨h1, h2⟩ := advance_pend ha hi hl
        unfold Rt.advance at ha
        split at ha <;> cases ha
        exact ⟨hpc, by simpa [Rt.setEnc, Rt.setThr] using hne, rfl, .inr (.inr ⟨rfl, h1, h2⟩)⟩
      · cases ha
        exact ⟨hpc, by simpa [Rt.setEnc, Rt.setThr] using hne, rfl,
          .inr (.inl ⟨rfl, hpc, rfl, rfl, rfl⟩)⟩
  · cases ha

/-! ## Steps of other threads -/

/-- A step of an application thread or of the system seen from the background thread. -/
structure AppStep (s s' : Rt) : Prop where
  pc : s'.pc = s.pc
  last : s'.last = s.last
  i : s'.i = s.i
  full : s'.full = s.full
  cur : s'.cur = s.cur
  mem : s'.mem = s.mem
  encPtr : s'.encPtr = s.encPtr
  bufs : s'.bufs = s.bufs ∨ ∃ t, s'.bufs = s.bufs ++ [t] ∧ s.bufLocked = false
  encoded : s'.encoded = s.encoded

/-- Steps of the background thread and `join`. -/
def Lbl.isBg : Lbl → Bool
  | .top | .dict _ | .peek _ | .check | .encode .. | .scanned _ | .aio | .aioDone _ | .write
  | .join .. => true
  | _ => false

theorem act_app {cfg : Config} {prog : List Site} {s s' : Rt} {l : Lbl}
    (ha : s.act cfg prog l = .ok s') (hl : l.isBg = false) : AppStep s s' := by
  have h0 : AppStep s s := ⟨rfl, rfl, rfl, rfl, rfl, rfl, rfl, .inl rfl, rfl⟩
  cases l <;> simp only [Rt.act, Lbl.isBg, Bool.true_eq_false] at ha hl
  case push t =>
    simp only [Rt.actBuf] at ha
    split at ha <;> try cases ha
    split at ha <;> cases ha
    rename_i hlk
    exact { h0 with bufs := .inr ⟨t, rfl, by simpa using hlk⟩ }
  all_goals
    simp only [Rt.actLog, Rt.actBuf, Rt.actCtl, Rt.actIo] at ha
    repeat' split at ha
    all_goals first
      | (cases ha; done)
      | (cases ha; exact h0)
      | (cases ha; exact { h0 with })

/-! ## History -/

/-- The messages logged by a thread only grow. -/
theorem act_log {cfg : Config} {prog : List Site} {s s' : Rt} {l : Lbl}
    (ha : s.act cfg prog l = .ok s') (u : Nat) : (s.thr u).log <+: (s'.thr u).log := by
  have hset : ∀ (t : Nat) (th : Thr), (s.thr t).log <+: th.log →
      (s.thr u).log <+: (upd s.thr t th u).log := by
    intro t th h
    by_cases hu : u = t
    · subst hu; rw [upd_same]; exact h
    · rw [upd_other _ _ hu]; exact List.prefix_refl _
  cases l <;> simp only [Rt.act] at ha
  all_goals first
    | (rw [(actScan_bg ha).log u]; exact List.prefix_refl _)
    | (rw [(actIo_bg ha).log u]; exact List.prefix_refl _)
    | (simp only [Rt.actLog, Rt.actBuf, Rt.actCtl] at ha
       repeat' split at ha
       all_goals first
         | (cases ha; done)
         | (cases ha; exact List.prefix_refl _)
         | (cases ha; exact hset _ _ (List.prefix_refl _))
         | (cases ha; exact hset _ _ (List.prefix_append _ _)))

/-- Messages in the files. -/
def Rt.persisted (s : Rt) : List (Nat × LogCall) := s.closed.flatMap (·.2) ++ s.gD

theorem act_hist {cfg : Config} {prog : List Site} {s s' : Rt} {l : Lbl} (h : RtInv s)
    (ha : s.act cfg prog l = .ok s') :
    s.persisted <+: s'.persisted ∧ s.persisted ++ s.gO <+: s'.persisted ++ s'.gO ∧
    s.encoded <+: s'.encoded := by
  have same : ∀ s2 : Rt, s2.closed = s.closed → s2.gD = s.gD → s2.gO = s.gO → s2.gB = s.gB →
      s.persisted <+: s2.persisted ∧ s.persisted ++ s.gO <+: s2.persisted ++ s2.gO ∧
      s.encoded <+: s2.encoded := by
    intro s2 e1 e2 e3 e4
    simp only [Rt.persisted, Rt.encoded, e1, e2, e3, e4]
    exact ⟨List.prefix_refl _, List.prefix_refl _, List.prefix_refl _⟩
  have adv : ∀ (s1 s2 : Rt) (j : Nat), s1.advance j = .ok s2 → s1.closed = s.closed → s1.gD = s.gD →
      s1.gO = s.gO → s.gB <+: s1.gB →
      s.persisted <+: s2.persisted ∧ s.persisted ++ s.gO <+: s2.persisted ++ s2.gO ∧
      s.encoded <+: s2.encoded := by
    intro s1 s2 j hj e1 e2 e3 e4
    unfold Rt.advance at hj
    split at hj <;> cases hj
    simp only [Rt.persisted, Rt.encoded, e1, e2, e3]
    exact ⟨List.prefix_refl _, List.prefix_refl _, (List.prefix_append_right_inj _).2 e4⟩
  have ntf : ∀ (s1 s2 : Rt) (w : Option Nat), s1.notify w = .ok s2 → s1.closed = s.closed →
      s1.gD = s.gD → s1.gO = s.gO → s1.gB = s.gB →
      s.persisted <+: s2.persisted ∧ s.persisted ++ s.gO <+: s2.persisted ++ s2.gO ∧
      s.encoded <+: s2.encoded := by
    intro s1 s2 w hj e1 e2 e3 e4
    unfold Rt.notify at hj
    split at hj
    · cases hj; exact same _ e1 e2 e3 e4
    · split at hj <;> cases hj
      exact same _ e1 e2 e3 e4
  cases l <;> simp only [Rt.act] at ha
  case join t jk c =>
    simp only [Rt.actCtl] at ha
    split at ha <;> try cases ha
    rename_i hd
    split at ha <;> cases ha
    have h1 := h.aioNone (h.pcAio (.inr (.inr hd)))
    have h2 := h.gB (h.dead hd)
    simp [Rt.persisted, Rt.encoded, h1, h2, Rt.setThr]
  case write =>
    simp only [Rt.actIo] at ha
    split at ha
    · cases ha
    split at ha <;> cases ha
    · exact same _ rfl rfl rfl rfl
    · simp [Rt.persisted, Rt.encoded]
  case aio =>
    simp only [Rt.actIo] at ha
    repeat' split at ha
    all_goals cases ha
    · exact same _ rfl rfl rfl rfl
    · simp [Rt.persisted, Rt.encoded]
    · exact same _ rfl rfl rfl rfl
  case encode junk more =>
    simp only [Rt.actScan] at ha
    split at ha
    · cases ha
    split at ha
    · cases ha
    split at ha
    · cases ha
    split at ha <;> try cases ha
    split at ha
    · exact adv _ _ _ ha rfl rfl rfl (List.prefix_refl _)
    · split at ha
      · cases ha
      split at ha
      · exact adv _ _ _ ha rfl rfl rfl (List.prefix_append _ _)
      · cases ha
        simp [Rt.persisted, Rt.encoded, Rt.setEnc, Rt.setThr]
  all_goals
    simp only [Rt.actLog, Rt.actBuf, Rt.actCtl, Rt.actScan, Rt.actIo] at ha
    repeat' split at ha
    all_goals first
      | (cases ha; done)
      | (cases ha; exact same _ rfl rfl rfl rfl)
      | exact adv _ _ _ ha rfl rfl rfl (List.prefix_refl _)
      | exact ntf _ _ _ ha rfl rfl rfl rfl

end NanoLog
