import Verif.RuntimeLive
import Mathlib.Order.Nat
import Mathlib.Data.Nat.Find
import Mathlib.Data.Nat.Init

/-!
# Infinite executions in which the work does not change any more
-/

namespace NanoLog

/-- The outstanding operation, if any, is complete. -/
def Rt.ioDone (s : Rt) : Prop := ∀ a, s.aio = some a → a.done = a.len

/-- Thread `u` waits in `sync`. -/
def Rt.waits (s : Rt) (u : Nat) : Prop := ∃ sw, (s.thr u).pc = .sync sw

instance (s : Rt) (u : Nat) : Decidable (s.waits u) :=
  match h : (s.thr u).pc with
  | .sync sw => .isTrue ⟨sw, h⟩
  | .idle | .called .. | .reg .. | .known .. | .stamped .. | .take .. | .push .. | .write ..
  | .woken .. | .stop | .join | .exited => .isFalse fun ⟨sw, h'⟩ => by rw [h] at h'; cases h'

/-- Steps that do not concern the background thread. -/
structure Still (s s' : Rt) : Prop where
  pc : s'.pc = s.pc
  last : s'.last = s.last
  i : s'.i = s.i
  full : s'.full = s.full
  cur : s'.cur = s.cur
  mem : s'.mem = s.mem
  encPtr : s'.encPtr = s.encPtr
  bufs : s'.bufs = s.bufs
  status : s'.status = s.status
  exit : s'.exit = s.exit
  sites : s'.sites = s.sites
  pos : s'.pos = s.pos
  q : ∀ t, (s'.thr t).q = (s.thr t).q
  none : s'.aio = none ↔ s.aio = none
  ioDone : s.ioDone → s'.ioDone
  waits : ∀ u, s'.waits u → s.waits u

theorem Still.refl (s : Rt) : Still s s :=
  ⟨rfl, rfl, rfl, rfl, rfl, rfl, rfl, rfl, rfl, rfl, rfl, rfl, fun _ => rfl, Iff.rfl, id,
    fun _ h => h⟩

/-- Labels without effect on the background thread: everything but logging, new statements, new
buffers, `sync` and `setLogFile`. -/
def Lbl.quiet : Lbl → Bool
  | .commit _ | .push _ | .register _ | .sync _ | .setFile .. | .stop _ | .join .. => false
  | _ => true

theorem still_thr {s : Rt} {t : Nat} {th : Thr} (hq : th.q = (s.thr t).q)
    (hw : th.pc = (s.thr t).pc ∨ (∀ sw, (s.thr t).pc ≠ .sync sw) ∧ (∀ sw, th.pc ≠ .sync sw) ∨
      ∃ sw, (s.thr t).pc = .sync sw ∧ th.pc = .woken sw) :
    Still s (s.setThr t th) := by
  refine { Still.refl s with q := ?_, waits := ?_, ioDone := fun h => h, none := Iff.rfl }
  · intro u
    simp only [Rt.setThr]
    by_cases hu : u = t
    · subst hu; rw [upd_same, hq]
    · rw [upd_other _ _ hu]
  · rintro u ⟨sw, h⟩
    simp only [Rt.setThr] at h
    by_cases hu : u = t
    · subst hu
      rw [upd_same] at h
      rcases hw with hw | ⟨h1, h2⟩ | ⟨sw', h1, h2⟩
      · exact ⟨sw, hw ▸ h⟩
      · exact absurd h (h2 sw)
      · exact ⟨sw', h1⟩
    · rw [upd_other _ _ hu] at h; exact ⟨sw, h⟩

/-- Steps other than those of the background thread, when nothing is logged. -/
theorem quiet_still {cfg : Config} {prog : List Site} {s s' : Rt} {l : Lbl}
    (hl : l.isBg = false) (hq : l.quiet = true) (ha : s.act cfg prog l = .ok s') : Still s s' := by
  cases l <;> simp only [Lbl.isBg, Lbl.quiet, Bool.true_eq_false, Bool.false_eq_true] at hl hq <;>
    simp only [Rt.act, Rt.actLog, Rt.actBuf, Rt.actCtl, Rt.actIo] at ha
  case disk n =>
    split at ha
    · cases ha
    rename_i a hs
    split at ha <;> try cases ha
    rename_i hn
    split at ha <;> cases ha
    refine { Still.refl s with none := ?_, ioDone := ?_, waits := fun u hu => hu }
    · simp [hs]
    · intro h b hb
      simp only [Option.some.injEq] at hb
      subst hb
      have := h a hs
      simp only
      omega
  case setLevel l => cases ha; exact { Still.refl s with waits := fun u hu => hu, ioDone := fun h => h }
  case takeId t =>
    split at ha <;> try cases ha
    rename_i hpc
    split at ha <;> cases ha
    have := still_thr (s := s) (t := t) (th := { s.thr t with pc := .push ‹_›, bid := some s.nextId }) rfl
      (.inr (.inl ⟨by simp [hpc], by simp⟩))
    exact { this with waits := this.waits, ioDone := this.ioDone }
  case spurious t =>
    split at ha <;> cases ha
    rename_i sw hpc
    exact still_thr rfl (.inr (.inr ⟨sw, hpc, rfl⟩))
  case ret t =>
    split at ha <;> cases ha
    rename_i sw hpc
    refine still_thr rfl (.inr (.inl ⟨by simp [hpc], ?_⟩))
    simp only; split <;> simp
  all_goals
    repeat' split at ha
    all_goals first
      | cases ha; exact Still.refl s
      | (cases ha
         refine still_thr rfl (.inr (.inl ⟨by simp [*], ?_⟩))
         simp)
      | cases ha

theorem Still.trans {a b c : Rt} (h : Still a b) (h' : Still b c) : Still a c where
  pc := h'.pc.trans h.pc
  last := h'.last.trans h.last
  i := h'.i.trans h.i
  full := h'.full.trans h.full
  cur := h'.cur.trans h.cur
  mem := h'.mem.trans h.mem
  encPtr := h'.encPtr.trans h.encPtr
  bufs := h'.bufs.trans h.bufs
  status := h'.status.trans h.status
  exit := h'.exit.trans h.exit
  sites := h'.sites.trans h.sites
  pos := h'.pos.trans h.pos
  q t := (h'.q t).trans (h.q t)
  none := h'.none.trans h.none
  ioDone := h'.ioDone ∘ h.ioDone
  waits u hu := h.waits u (h'.waits u hu)

/-- An infinite execution in which the work does not change. -/
structure Steady (σ : Nat → Rt) (lbl : Nat → Option Lbl) : Prop where
  inv : ∀ k, RtInv (σ k)
  step : ∀ k, Still (σ k) (σ (k + 1)) ∨ ∃ l, lbl k = some l ∧ Next l (σ k) (σ (k + 1))
  bg : ∀ k, ∃ j ≥ k, (∃ l, lbl j = some l ∧ Next l (σ j) (σ (j + 1))) ∨ (σ j).pc = .dead ∨
    ((σ j).pc = .aio ∧ (σ j).full = true ∧ ¬ (σ j).ioDone)
  disk : ∀ k, ∃ j ≥ k, (σ j).ioDone
  notify : ∀ k, lbl k = some (.scanned none) → (σ k).mem (σ k).encPtr = [] →
    (σ k).status ≠ .requested → (σ k).idleStatus = .completed → ∀ u, ¬ (σ k).waits u
  wait : ∀ k, (σ k).status = .waitAio → (σ k).aio ≠ none ∨ (σ k).pc = .aioDone

section
variable {σ : Nat → Rt} {lbl : Nat → Option Lbl}

/-- The background thread moves at `j`. -/
def Moves (σ : Nat → Rt) (lbl : Nat → Option Lbl) (j : Nat) : Prop :=
  ∃ l, lbl j = some l ∧ Next l (σ j) (σ (j + 1))

theorem Steady.still_until (h : Steady σ lbl) {k n : Nat} (hn : ∀ j, k ≤ j → j < k + n → ¬ Moves σ lbl j) :
    Still (σ k) (σ (k + n)) := by
  induction n with
  | zero => exact Still.refl _
  | succ n ih =>
    refine (ih fun j h1 h2 => hn j h1 (by omega)).trans ?_
    rcases h.step (k + n) with h1 | h1
    · exact h1
    · exact absurd h1 (hn _ (by omega) (by omega))

theorem Steady.next_step (h : Steady σ lbl) (k : Nat) :
    ∃ j ≥ k, Still (σ k) (σ j) ∧ ((σ j).pc = .dead ∨ Moves σ lbl j) := by
  by_cases hx : ∃ n, Moves σ lbl (k + n)
  · classical
    have h1 := Nat.find_spec hx
    have h2 := fun m => Nat.find_min hx (m := m)
    refine ⟨k + Nat.find hx, by omega, h.still_until ?_, .inr h1⟩
    intro j hj hj' hm
    refine h2 (j - k) (by omega) ?_
    rwa [Nat.add_sub_cancel' hj]
  · have hs : ∀ j ≥ k, Still (σ k) (σ j) := by
      intro j hj
      obtain ⟨n, rfl⟩ := Nat.exists_eq_add_of_le hj
      refine h.still_until fun j h1 _ hm => hx ⟨j - k, ?_⟩
      rwa [Nat.add_sub_cancel' h1]
    have hnm : ∀ j ≥ k, ¬ Moves σ lbl j := fun j hj hm => hx ⟨j - k, by rwa [Nat.add_sub_cancel' hj]⟩
    obtain ⟨j, hj, hd⟩ := h.disk k
    obtain ⟨j', hj', hb | hb | hb⟩ := h.bg j
    · exact absurd hb (hnm j' (by omega))
    · exact ⟨j', by omega, hs j' (by omega), .inl hb⟩
    · exfalso
      have hs' : Still (σ j) (σ j') := by
        obtain ⟨n, rfl⟩ := Nat.exists_eq_add_of_le hj'
        exact h.still_until fun i h1 _ => hnm i (by omega)
      exact hb.2.2 (hs'.ioDone hd)

/-- Progress by a rank. -/
theorem Steady.leads (h : Steady σ lbl) (P Q : Rt → Prop) (m : Rt → Nat)
    (hs : ∀ s s', Still s s' → P s → P s' ∧ m s' ≤ m s)
    (hd : ∀ s, P s → s.pc ≠ .dead)
    (hn : ∀ k l, lbl k = some l → P (σ k) → Next l (σ k) (σ (k + 1)) →
      Q (σ (k + 1)) ∨ P (σ (k + 1)) ∧ m (σ (k + 1)) < m (σ k))
    (k : Nat) (hk : P (σ k)) : ∃ j > k, Q (σ j) := by
  induction hm : m (σ k) using Nat.strongRecOn generalizing k with
  | ind n ih =>
    subst hm
    obtain ⟨j, hj, hst, hx⟩ := h.next_step k
    obtain ⟨hp, hle⟩ := hs _ _ hst hk
    rcases hx with hx | ⟨l, hl, hx⟩
    · exact absurd hx (hd _ hp)
    · rcases hn j l hl hp hx with h1 | ⟨h1, h2⟩
      · exact ⟨j + 1, by omega, h1⟩
      · obtain ⟨j', hj', h3⟩ := ih _ (by omega) (j + 1) h1 rfl
        exact ⟨j', by omega, h3⟩

/-- A predicate kept by all steps. -/
theorem Steady.stable (h : Steady σ lbl) {P : Rt → Prop} (hs : ∀ s s', Still s s' → P s → P s')
    (hn : ∀ k l, lbl k = some l → P (σ k) → Next l (σ k) (σ (k + 1)) → P (σ (k + 1))) {k : Nat}
    (hk : P (σ k)) : ∀ j ≥ k, P (σ j) := by
  intro j hj
  induction j, hj using Nat.le_induction with
  | base => exact hk
  | succ j hj ih =>
    rcases h.step j with h1 | ⟨l, hl, h1⟩
    · exact hs _ _ h1 ih
    · exact hn j l hl ih h1

/-! ## A round of the background thread -/

/-- Buffers of the pass after the current one. -/
def Rt.left (s : Rt) : Nat :=
  if s.i < s.last then s.last - 1 - s.i else s.last + s.bufs.length - 1 - s.i

/-- Bound on the steps to the top of the loop. -/
def Rt.dist (s : Rt) : Nat :=
  match s.pc with
  | .dead => 0
  | .write => 1
  | .aioDone => 2
  | .aio => 3
  | .scanned => 4
  | .scan => if s.full = true ∨ s.bufs = [] then 5 else 3 * s.left + 7
  | .check | .encode => 3 * s.left + 6
  | .dict => 3 * s.bufs.length + 8
  | .top => 3 * s.bufs.length + 9

theorem Still.dist {s s' : Rt} (h : Still s s') : s'.dist = s.dist := by
  simp only [Rt.dist, Rt.left, h.pc, h.full, h.bufs, h.i, h.last]

theorem adv_dist {s : Rt} (hi : s.i < s.bufs.length) (hl : s.last < s.bufs.length) :
    s.adv.dist < 3 * s.left + 6 := by
  simp only [Rt.adv, Rt.dist]
  split
  all_goals rename_i hpc; split at hpc <;> try cases hpc
  · omega
  · rename_i hne
    split
    · omega
    · simp only [Rt.left]
      rcases Nat.lt_or_ge (s.i + 1) s.bufs.length with h1 | h1
      · rw [Nat.mod_eq_of_lt h1] at hne ⊢
        split <;> split <;> omega
      · have : s.i + 1 = s.bufs.length := by omega
        rw [this, Nat.mod_self] at hne ⊢
        split <;> split <;> omega

theorem notify_keeps {s s' : Rt} {w : Option Nat} (h : s.notify w = .ok s') :
    s'.pc = s.pc ∧ s'.bufs = s.bufs ∧ s'.aio = s.aio ∧ s'.mem = s.mem ∧ s'.encPtr = s.encPtr ∧
    s'.status = s.status ∧ s'.exit = s.exit ∧ s'.sites = s.sites ∧ s'.pos = s.pos ∧
    s'.full = s.full ∧ s'.last = s.last ∧ s'.i = s.i ∧ (∀ t, (s'.thr t).q = (s.thr t).q) := by
  unfold Rt.notify at h
  split at h
  · cases h; simp
  · rename_i w
    split at h <;> cases h
    refine ⟨rfl, rfl, rfl, rfl, rfl, rfl, rfl, rfl, rfl, rfl, rfl, rfl, ?_⟩
    intro t
    simp only [Rt.setThr]
    by_cases ht : t = w
    · subst ht; rw [upd_same]
    · rw [upd_other _ _ ht]

/-- Every step leads to the top of the loop or closer to it. -/
theorem next_dist {l : Lbl} {s s' : Rt} (hc : RtInv s) (h : Next l s s') :
    s'.pc = .top ∨ s'.pc = .dead ∨ s'.dist < s.dist := by
  have hleft : s.pc = .scan ∨ s.pc = .dict → s.bufs ≠ [] → s.left < s.bufs.length := by
    intro hpc hb
    have := hc.scanI hpc.symm hb
    rcases hc.idx with h1 | h1
    · simp only [Rt.left]; split <;> omega
    · exact absurd h1.1 hb
  cases h with
  | dead h => exact .inr (.inl rfl)
  | top h => right; right; simp only [Rt.dist, h]; omega
  | dict0 h =>
    right; right
    simp only [Rt.dist, h]
    split
    · omega
    · rename_i hn
      have := hleft (.inr h) (fun hb => hn (.inr hb))
      simp only [Rt.left] at this ⊢
      omega
  | dict1 h =>
    right; right
    simp only [Rt.dist, h]
    split
    · omega
    · rename_i hn
      have := hleft (.inr h) (fun hb => hn (.inr hb))
      simp only [Rt.left] at this ⊢
      omega
  | stop h hf => right; right; simp only [Rt.dist, h]; rw [if_pos hf]; omega
  | look h hf t ht =>
    right; right
    have : s.bufs ≠ [] := by intro hb; rw [hb] at ht; simp at ht
    simp only [Rt.dist, h, hf, this]
    simp [Rt.left]
  | enc h hf t n ht =>
    right; right
    have : s.bufs ≠ [] := by intro hb; rw [hb] at ht; simp at ht
    simp only [Rt.dist, h, hf, this]
    simp [Rt.left]
  | check h =>
    right; right
    have hcur := hc.idx_lt (hc.curI (.inl h))
    have := adv_dist hcur.1 hcur.2
    simp only [Rt.dist, h] at this ⊢
    exact this
  | fail h hx m hm =>
    right; right
    have hcur := hc.idx_lt (hc.curI (.inr h))
    simp only [Rt.dist, h, Rt.adv]
    split <;> rename_i hpc <;> split at hpc <;> simp at hpc
    · omega
    · simp
  | data h => right; right; simp [Rt.dist, h]
  | again h => exact .inl rfl
  | idle h => right; right; simp [Rt.dist, h]
  | done h _ _ _ w _ _ hn => right; right; simp [Rt.dist, h, (notify_keeps hn).1]
  | noaio h => right; right; simp [Rt.dist, h]
  | ioDone h => right; right; simp [Rt.dist, h]
  | busy h => exact .inl rfl
  | wake h _ w _ _ hn => right; right; simp [Rt.dist, h, (notify_keeps hn).1]
  | nowake h => right; right; simp [Rt.dist, h]
  | nothing h => exact .inl rfl
  | write h => exact .inl rfl

/-- The loop is repeated unless the thread ends. -/
theorem Steady.reach_top (h : Steady σ lbl) (k : Nat) : ∃ j ≥ k, (σ j).pc = .top ∨ (σ j).pc = .dead := by
  by_cases hd : (σ k).pc = .dead
  · exact ⟨k, Nat.le_refl _, .inr hd⟩
  · obtain ⟨j, hj, hx⟩ := h.leads (fun s => s.pc ≠ .dead) (fun s => s.pc = .top ∨ s.pc = .dead) Rt.dist
      (fun s s' hs hp => ⟨by rw [hs.pc]; exact hp, Nat.le_of_eq hs.dist⟩) (fun _ h => h)
      (fun k l hl hp hn => by
        by_cases hx : (σ (k + 1)).pc = .dead
        · exact .inl (.inr hx)
        rcases next_dist (h.inv k) hn with h1 | h1 | h1
        · exact .inl (.inl h1)
        · exact absurd h1 hx
        · exact .inr ⟨hx, h1⟩) k hd
    exact ⟨j, by omega, hx⟩

theorem Still.clean {s s' : Rt} (h : Still s s') : (s'.mem s'.encPtr = [] ↔ s.mem s.encPtr = []) ∧
    (s'.pos = s'.sites.length ↔ s.pos = s.sites.length) := by
  rw [h.mem, h.encPtr, h.pos, h.sites]; exact ⟨Iff.rfl, Iff.rfl⟩

/-- Every pass ends, unless the thread does. -/
theorem Steady.at_scanned (h : Steady σ lbl) (k : Nat) :
    (∃ j ≥ k, (σ j).pc = .dead) ∨ ∃ j ≥ k, (σ j).pc = .scanned ∧ Moves σ lbl j := by
  obtain ⟨k1, hk1, h1 | h1⟩ := h.reach_top k
  swap
  · exact .inl ⟨k1, hk1, h1⟩
  obtain ⟨k2, hk2, h2⟩ := h.leads
    (fun s => s.pc = .top ∨ s.pc = .dict ∨ s.pc = .scan ∨ s.pc = .check ∨ s.pc = .encode)
    (fun s => s.pc = .scanned ∨ s.pc = .dead) Rt.dist
    (fun s s' hs hp => ⟨by rw [hs.pc]; exact hp, Nat.le_of_eq hs.dist⟩)
    (fun s hs => by rcases hs with hs | hs | hs | hs | hs <;> rw [hs] <;> simp)
    (fun k l hl hp hn => by
      have hd := next_dist (h.inv k) hn
      generalize σ (k + 1) = s' at *
      generalize σ k = s at *
      have hadv : ∀ s : Rt, s.adv.pc = .scanned ∨ s.adv.pc = .scan := by
        intro s; simp only [Rt.adv]; split <;> simp
      cases hn
      case check => rcases hadv s with h1 | h1 <;> simp_all
      case fail m _ =>
        rcases hadv { s with mem := upd s.mem s.encPtr m, last := s.i, full := true } with h1 | h1 <;> simp_all
      all_goals simp_all) k1 (.inl h1)
  rcases h2 with h2 | h2
  · obtain ⟨j, hj, hst, hx | hx⟩ := h.next_step k2
    · rw [hst.pc, h2] at hx; cases hx
    · exact .inr ⟨j, by omega, by rw [hst.pc, h2], hx⟩
  · exact .inl ⟨k2, by omega, h2⟩

/-- From a state in which the disk is done, the encoder's buffer gets empty. -/
theorem Steady.reach_empty (h : Steady σ lbl) (k : Nat) :
    ∃ j ≥ k, (σ j).pc = .dead ∨ (σ j).pc = .top ∧ (σ j).mem (σ j).encPtr = [] := by
  obtain ⟨k1, hk1, h1⟩ := h.disk k
  by_cases hd : (σ k1).pc = .dead
  · exact ⟨k1, hk1, .inl hd⟩
  obtain ⟨k2, hk2, h2⟩ := h.leads (fun s => s.pc ≠ .dead ∧ s.ioDone)
    (fun s => s.pc = .dead ∨ s.pc = .top ∧ s.mem s.encPtr = []) Rt.dist
    (fun s s' hs hp => ⟨⟨by rw [hs.pc]; exact hp.1, hs.ioDone hp.2⟩, Nat.le_of_eq hs.dist⟩)
    (fun s hs => hs.1)
    (fun k l hl hp hn => by
      have hd := next_dist (h.inv k) hn
      generalize σ (k + 1) = s' at *
      generalize σ k = s at *
      by_cases hdd : s'.pc = .dead
      · exact .inl (.inl hdd)
      by_cases htt : s'.pc = .top
      · left; right
        cases hn
        case busy hx a ha hy hz => exact absurd (hp.2 a ha) hy
        case top => cases htt
        case check => simp only [Rt.adv] at htt; split at htt <;> cases htt
        case fail => simp only [Rt.adv] at htt; split at htt <;> cases htt
        case done hn => rw [(notify_keeps hn).1] at htt; cases htt
        case wake hn => rw [(notify_keeps hn).1] at htt; cases htt
        case again hm hs => exact ⟨rfl, hm⟩
        case nothing hm => exact ⟨rfl, hm⟩
        case write hm => exact ⟨rfl, by simp⟩
        all_goals cases htt
      · refine .inr ⟨⟨hdd, ?_⟩, ?_⟩
        · have hio := hp.2
          cases hn
          case done hn => intro a ha; rw [(notify_keeps hn).2.2.1] at ha; exact hio a ha
          case wake hn => intro a ha; rw [(notify_keeps hn).2.2.1] at ha; exact hio a ha
          case ioDone => intro a ha; cases ha
          case write => exact absurd rfl htt
          all_goals exact fun a ha => hio a ha
        · rcases hd with hd | hd | hd
          · exact absurd hd htt
          · exact absurd hd hdd
          · exact hd) k1 ⟨hd, h1⟩
  exact ⟨k2, by omega, h2⟩

/-- Nothing in the encoder's buffer, all statements written. -/
def Rt.Clean (s : Rt) : Prop := s.mem s.encPtr = [] ∧ s.pos = s.sites.length

theorem Still.cleans {s s' : Rt} (h : Still s s') (hs : s.Clean) : s'.Clean :=
  ⟨h.clean.1.2 hs.1, h.clean.2.2 hs.2⟩

theorem next_clean {l : Lbl} {s s' : Rt} (h : Next l s s') (hs : s.Clean) : s'.Clean := by
  cases h
  case dict1 hm _ _ => exact absurd hs.1 hm
  case fail hc _ _ => exact absurd hs hc
  case write hm => exact absurd hs.1 hm
  case done hn =>
    obtain ⟨-, -, -, h4, h5, -, -, h8, h9, -⟩ := notify_keeps hn
    simp only [Rt.Clean, h4, h5, h8, h9]; exact hs
  case wake hn =>
    obtain ⟨-, -, -, h4, h5, -, -, h8, h9, -⟩ := notify_keeps hn
    simp only [Rt.Clean, h4, h5, h8, h9]; exact hs
  all_goals exact hs

theorem Steady.clean_stable (h : Steady σ lbl) {k : Nat} (hk : (σ k).Clean) : ∀ j ≥ k, (σ j).Clean :=
  h.stable (fun _ _ hs => hs.cleans) (fun _ _ _ hp hn => next_clean hn hp) hk

theorem Steady.reach_clean (h : Steady σ lbl) (k : Nat) : ∃ j ≥ k, (σ j).pc = .dead ∨ (σ j).Clean := by
  obtain ⟨k1, hk1, h1 | ⟨h1, h2⟩⟩ := h.reach_empty k
  · exact ⟨k1, hk1, .inl h1⟩
  obtain ⟨k2, hk2, hs, h3 | ⟨l, hl, hn⟩⟩ := h.next_step k1
  · exact ⟨k2, by omega, .inl h3⟩
  have ht : (σ k2).pc = .top := by rw [hs.pc, h1]
  have hm := hs.clean.1.2 h2
  have h4 : (σ (k2 + 1)).pc = .dead ∨ (σ (k2 + 1)).pc = .dict ∧
      (σ (k2 + 1)).mem (σ (k2 + 1)).encPtr = [] := by
    generalize σ (k2 + 1) = s' at *
    generalize σ k2 = s at *
    cases hn <;> simp_all
  rcases h4 with h4 | ⟨h4, h5⟩
  · exact ⟨k2 + 1, by omega, .inl h4⟩
  obtain ⟨k3, hk3, hs3, h6 | ⟨l3, hl3, hn3⟩⟩ := h.next_step (k2 + 1)
  · exact ⟨k3, by omega, .inl h6⟩
  have ht3 : (σ k3).pc = .dict := by rw [hs3.pc, h4]
  have hm3 := hs3.clean.1.2 h5
  refine ⟨k3, by omega, .inr ⟨hm3, ?_⟩⟩
  generalize σ (k3 + 1) = s' at *
  generalize σ k3 = s at *
  cases hn3 <;> simp_all

/-! ## What happens from then on -/

/-- How far a request for synchronization is from being completed. -/
def SyncStatus.rank : SyncStatus → Nat
  | .requested => 3
  | .second => 2
  | .waitAio => 1
  | .completed => 0

theorem idleStatus_rank (s : Rt) : s.idleStatus.rank ≤ s.status.rank := by
  unfold Rt.idleStatus
  split
  · rename_i h; rw [h]; split <;> decide
  · exact Nat.le_refl _

theorem idleStatus_le {s : Rt} (h : s.status ≠ .requested) : s.idleStatus.rank ≤ 1 := by
  unfold Rt.idleStatus
  split
  · split <;> decide
  · cases hs : s.status <;> simp_all [SyncStatus.rank]

theorem next_status {l : Lbl} {s s' : Rt} (h : Next l s s') : s'.status.rank ≤ s.status.rank := by
  cases h
  case again => simp_all [SyncStatus.rank]
  case idle => exact idleStatus_rank s
  case done hn => rw [(notify_keeps hn).2.2.2.2.2.1]; simp [SyncStatus.rank]
  case wake hn => rw [(notify_keeps hn).2.2.2.2.2.1]; simp [SyncStatus.rank]
  all_goals exact Nat.le_refl _

theorem Steady.status_mono (h : Steady σ lbl) {k j : Nat} (hj : k ≤ j) :
    (σ j).status.rank ≤ (σ k).status.rank :=
  h.stable (P := fun s => s.status.rank ≤ (σ k).status.rank) (fun s s' hs hp => by rw [hs.status]; exact hp)
    (fun _ _ _ hp hn => (next_status hn).trans hp) (Nat.le_refl _) j hj

theorem Steady.dead_stable (h : Steady σ lbl) {k : Nat} (hk : (σ k).pc = .dead) :
    ∀ j ≥ k, (σ j).pc = .dead :=
  h.stable (P := fun s => s.pc = .dead) (fun _ _ hs hp => by rw [hs.pc]; exact hp)
    (fun k _ _ hp hn => by
      generalize σ (k + 1) = s' at *
      generalize σ k = s at *
      cases hn <;> simp_all) hk

/-- The steps at the end of a pass with an empty buffer. -/
theorem scanned_next {l : Lbl} {s s' : Rt} (h : Next l s s') (hpc : s.pc = .scanned)
    (hm : s.mem s.encPtr = []) : s.status = .requested ∧ s'.status = .second ∧ s'.pc = .top ∨
      s.status ≠ .requested ∧ s'.status = s.idleStatus ∧ s'.pc = .aio := by
  cases h
  case again hs => exact .inl ⟨hs, rfl, rfl⟩
  case idle hs hi => exact .inr ⟨hs, rfl, rfl⟩
  case done hs hi w hl hn =>
    right
    have := notify_keeps hn
    exact ⟨hs, by rw [this.2.2.2.2.2.1, hi], this.1⟩
  all_goals simp_all

/-- The request is completed. -/
theorem Steady.reach_completed (h : Steady σ lbl) {k : Nat} (hk : (σ k).Clean) :
    ∃ j ≥ k, (σ j).pc = .dead ∨ (σ j).status = .completed := by
  induction hr : (σ k).status.rank using Nat.strongRecOn generalizing k with
  | ind n ih =>
    subst hr
    have again : ∀ j ≥ k, (σ j).status.rank < (σ k).status.rank →
        ∃ j ≥ k, (σ j).pc = .dead ∨ (σ j).status = .completed := by
      intro j hj hlt
      obtain ⟨j', hj', hx⟩ := ih _ hlt (h.clean_stable hk j hj) rfl
      exact ⟨j', by omega, hx⟩
    by_cases hcompl : (σ k).status = .completed
    · exact ⟨k, Nat.le_refl _, .inr hcompl⟩
    by_cases hwait : (σ k).status = .waitAio
    · obtain ⟨k1, hk1, hio⟩ := h.disk k
      have hcl := h.clean_stable hk k1 hk1
      by_cases hd1 : (σ k1).pc = .dead
      · exact ⟨k1, hk1, .inl hd1⟩
      by_cases hst : (σ k1).status = .waitAio
      swap
      · have := h.status_mono hk1
        refine again k1 hk1 ?_
        rw [hwait] at this ⊢
        cases hs : (σ k1).status <;> simp_all [SyncStatus.rank]
      obtain ⟨k2, hk2, hx⟩ := h.leads (fun s => s.pc ≠ .dead ∧ s.Clean ∧ s.ioDone ∧ s.status = .waitAio)
        (fun s => s.pc = .dead ∨ s.status = .completed)
        Rt.dist
        (fun s s' hs hp => ⟨⟨by rw [hs.pc]; exact hp.1, hs.cleans hp.2.1, hs.ioDone hp.2.2.1,
          by rw [hs.status]; exact hp.2.2.2⟩, Nat.le_of_eq hs.dist⟩)
        (fun s hs => hs.1)
        (fun k l hl hp hn => by
          have hdist := next_dist (h.inv k) hn
          have hcl := next_clean hn hp.2.1
          have hw := h.wait k
          have hpa := (h.inv k).pcAio
          generalize σ (k + 1) = s' at *
          generalize σ k = s at *
          by_cases hdd : s'.pc = .dead
          · exact .inl (.inl hdd)
          by_cases hss : s'.status = .completed
          · exact .inl (.inr hss)
          obtain ⟨p1, p2, p3, p4⟩ := hp
          have hw' := hw p4
          have hpm := p2.1
          have key : s'.ioDone ∧ s'.status = .waitAio ∧ s'.pc ≠ .top := by
            cases hn
            case top => exact ⟨p3, p4, by simp⟩
            case check => exact ⟨p3, p4, by simp only [Rt.adv]; split <;> simp⟩
            case fail => exact absurd p2 ‹_›
            case again => simp_all
            case idle => exact ⟨p3, by simp [Rt.idleStatus, p4], by simp⟩
            case done => simp_all [Rt.idleStatus]
            case wake hn => rw [(notify_keeps hn).2.2.2.2.2.1] at hss; exact absurd rfl hss
            case ioDone => exact ⟨(fun a ha => by cases ha), p4, by simp⟩
            case busy hx a ha hy hz => exact absurd (p3 a ha) hy
            case nothing hpc _ =>
              rcases hw' with hw' | hw'
              · exact absurd (hpa (.inr (.inl hpc))) hw'
              · rw [hpc] at hw'; cases hw'
            case write => simp_all
            all_goals exact ⟨p3, p4, by simp⟩
          refine .inr ⟨⟨hdd, hcl, key.1, key.2.1⟩, ?_⟩
          rcases hdist with hdist | hdist | hdist
          · exact absurd hdist key.2.2
          · exact absurd hdist hdd
          · exact hdist) k1 ⟨hd1, hcl, hio, hst⟩
      exact ⟨k2, by omega, hx⟩
    · rcases h.at_scanned k with ⟨j, hj, hd⟩ | ⟨j, hj, hpc, l, hl, hn⟩
      · exact ⟨j, hj, .inl hd⟩
      · have hm := h.clean_stable hk j hj
        have hmono := h.status_mono hj
        have h1 := scanned_next hn hpc hm.1
        refine again (j + 1) (by omega) ?_
        rcases h1 with ⟨h1, h2, -⟩ | ⟨h1, h2, -⟩
        · rw [h2]; rw [h1] at hmono; simp only [SyncStatus.rank] at hmono ⊢; omega
        · rw [h2]
          have h3 := idleStatus_le h1
          have h4 : 2 ≤ (σ k).status.rank := by
            cases hk' : (σ k).status
            · decide
            · decide
            · exact absurd hk' hwait
            · exact absurd hk' hcompl
          omega

/-- Clean, and no request pending. -/
def Rt.Calm (s : Rt) : Prop := s.Clean ∧ s.status = .completed

theorem Steady.calm_stable (h : Steady σ lbl) {k : Nat} (hk : (σ k).Calm) : ∀ j ≥ k, (σ j).Calm := by
  intro j hj
  refine ⟨h.clean_stable hk.1 j hj, ?_⟩
  have := h.status_mono hj
  rw [hk.2] at this
  cases hs : (σ j).status <;> simp_all [SyncStatus.rank]

theorem Steady.reach_calm (h : Steady σ lbl) (k : Nat) : ∃ j ≥ k, (σ j).pc = .dead ∨ (σ j).Calm := by
  obtain ⟨k1, hk1, h1 | h1⟩ := h.reach_clean k
  · exact ⟨k1, hk1, .inl h1⟩
  obtain ⟨k2, hk2, h2 | h2⟩ := h.reach_completed h1
  · exact ⟨k2, by omega, .inl h2⟩
  · exact ⟨k2, by omega, .inr ⟨h.clean_stable h1 k2 hk2, h2⟩⟩

/-- Once calm, no operation is started. -/
theorem Steady.none_stable (h : Steady σ lbl) {k : Nat} (hk : (σ k).Calm) (ha : (σ k).aio = none) :
    ∀ j ≥ k, (σ j).aio = none := by
  intro j hj
  have := h.stable (P := fun s => s.Clean ∧ s.aio = none) (fun s s' hs hp => ⟨hs.cleans hp.1, hs.none.2 hp.2⟩)
    (fun k l hl hp hn => by
      refine ⟨next_clean hn hp.1, ?_⟩
      generalize σ (k + 1) = s' at *
      generalize σ k = s at *
      obtain ⟨p1, p2⟩ := hp
      cases hn
      case done hn => rw [(notify_keeps hn).2.2.1]; exact p2
      case wake hn => rw [(notify_keeps hn).2.2.1]; exact p2
      case write hm => exact absurd p1.1 hm
      case ioDone => rfl
      all_goals exact p2) ⟨hk.1, ha⟩ j hj
  exact this.2

theorem Steady.reach_none (h : Steady σ lbl) (k : Nat) :
    ∃ j ≥ k, (σ j).pc = .dead ∨ (σ j).Calm ∧ (σ j).aio = none := by
  obtain ⟨k0, hk0, h0 | h0⟩ := h.reach_calm k
  · exact ⟨k0, hk0, .inl h0⟩
  obtain ⟨k1, hk1, h1⟩ := h.disk k0
  by_cases hd : (σ k1).pc = .dead
  · exact ⟨k1, by omega, .inl hd⟩
  have hc1 := h.calm_stable h0 k1 hk1
  by_cases ha1 : (σ k1).aio = none
  · exact ⟨k1, by omega, .inr ⟨hc1, ha1⟩⟩
  obtain ⟨k2, hk2, hx⟩ := h.leads (fun s => s.pc ≠ .dead ∧ s.Calm ∧ s.ioDone ∧ s.aio ≠ none)
    (fun s => s.pc = .dead ∨ s.aio = none) Rt.dist
    (fun s s' hs hp => ⟨⟨by rw [hs.pc]; exact hp.1, ⟨hs.cleans hp.2.1.1, by rw [hs.status]; exact hp.2.1.2⟩,
      hs.ioDone hp.2.2.1, fun hn => hp.2.2.2 (hs.none.1 hn)⟩, Nat.le_of_eq hs.dist⟩)
    (fun s hs => hs.1)
    (fun k l hl hp hn => by
      have hdist := next_dist (h.inv k) hn
      have hcl := h.calm_stable hp.2.1 (k + 1) (by omega)
      have hpa := (h.inv k).pcAio
      generalize σ (k + 1) = s' at *
      generalize σ k = s at *
      by_cases hdd : s'.pc = .dead
      · exact .inl (.inl hdd)
      by_cases hss : s'.aio = none
      · exact .inl (.inr hss)
      obtain ⟨p1, p2, p3, p4⟩ := hp
      have key : s'.ioDone ∧ s'.pc ≠ .top := by
        obtain ⟨⟨p5, p6⟩, p7⟩ := p2
        cases hn
        case check => exact ⟨p3, by simp only [Rt.adv]; split <;> simp⟩
        case fail hx _ _ => exact absurd ⟨p5, p6⟩ hx
        case done hn =>
          have := notify_keeps hn
          refine ⟨?_, by rw [this.1]; simp⟩
          intro a ha; rw [this.2.2.1] at ha; exact p3 a ha
        case wake hn =>
          have := notify_keeps hn
          refine ⟨?_, by rw [this.1]; simp⟩
          intro a ha; rw [this.2.2.1] at ha; exact p3 a ha
        case busy hx a ha hy hz => exact absurd (p3 a ha) hy
        case nothing hpc _ => exact absurd (hpa (.inr (.inl hpc))) p4
        case ioDone => exact absurd rfl hss
        case again hx => rw [p7] at hx; cases hx
        case write hx => exact absurd p5 hx
        all_goals exact ⟨p3, by simp⟩
      refine .inr ⟨⟨hdd, hcl, key.1, hss⟩, ?_⟩
      rcases hdist with hdist | hdist | hdist
      · exact absurd hdist key.2
      · exact absurd hdist hdd
      · exact hdist) k1 ⟨hd, hc1, h1, ha1⟩
  rcases hx with hx | hx
  · exact ⟨k2, by omega, .inl hx⟩
  · exact ⟨k2, by omega, .inr ⟨h.calm_stable hc1 k2 (by omega), hx⟩⟩

/-- A thread that should exit does. -/
theorem Steady.reach_dead (h : Steady σ lbl) {k : Nat} (he : (σ k).exit = true) : ∃ j ≥ k, (σ j).pc = .dead := by
  obtain ⟨k1, hk1, h1 | ⟨h1, h2⟩⟩ := h.reach_none k
  · exact ⟨k1, hk1, h1⟩
  obtain ⟨k2, hk2, h3 | h3⟩ := h.reach_top k1
  swap
  · exact ⟨k2, by omega, h3⟩
  obtain ⟨k3, hk3, hs, h4 | ⟨l, hl, hn⟩⟩ := h.next_step k2
  · exact ⟨k3, by omega, h4⟩
  refine ⟨k3 + 1, by omega, ?_⟩
  have hex : ∀ j ≥ k, (σ j).exit = true :=
    h.stable (P := fun s => s.exit = true) (fun s s' hs hp => by rw [hs.exit]; exact hp)
      (fun k l _ hp hn => by
        generalize σ (k + 1) = s' at *
        generalize σ k = s at *
        cases hn
        case done hn => rw [(notify_keeps hn).2.2.2.2.2.2.1]; exact hp
        case wake hn => rw [(notify_keeps hn).2.2.2.2.2.2.1]; exact hp
        all_goals exact hp) he
  have e3 := hex k3 (by omega)
  have ht : (σ k3).pc = .top := by rw [hs.pc, h3]
  have hcl := (h.calm_stable h1 k3 (by omega)).1.1
  have ha := h.none_stable h1 h2 k3 (by omega)
  generalize σ (k3 + 1) = s' at *
  generalize σ k3 = s at *
  cases hn <;> simp_all

/-- Once clean, the staging buffers are empty. -/
theorem Steady.queues (h : Steady σ lbl) {k : Nat} (hk : (σ k).Clean) {t : Nat} (ht : t ∈ (σ k).bufs)
    (hq : ((σ k).thr t).q ≠ []) : ∃ j ≥ k, (σ j).pc = .dead := by
  have hst : ∀ j ≥ k, (σ j).Clean ∧ t ∈ (σ j).bufs ∧ ((σ j).thr t).q ≠ [] :=
    h.stable (P := fun s => s.Clean ∧ t ∈ s.bufs ∧ (s.thr t).q ≠ [])
      (fun s s' hs hp => ⟨hs.cleans hp.1, by rw [hs.bufs]; exact hp.2.1, by rw [hs.q]; exact hp.2.2⟩)
      (fun k l _ hp hn => by
        refine ⟨next_clean hn hp.1, ?_⟩
        generalize σ (k + 1) = s' at *
        generalize σ k = s at *
        cases hn
        case done hn =>
          have := notify_keeps hn
          rw [this.2.1, this.2.2.2.2.2.2.2.2.2.2.2.2 t]; exact hp.2
        case wake hn =>
          have := notify_keeps hn
          rw [this.2.1, this.2.2.2.2.2.2.2.2.2.2.2.2 t]; exact hp.2
        all_goals exact hp.2) ⟨hk, ht, hq⟩
  by_contra hdead
  have hnd : ∀ j ≥ k, (σ j).pc ≠ .dead := fun j hj hd => hdead ⟨j, hj, hd⟩
  obtain ⟨k1, hk1, h1 | h1⟩ := h.reach_top k
  swap
  · exact hnd k1 hk1 h1
  obtain ⟨k2, hk2, hx⟩ := h.leads
    (fun s => s.Clean ∧ (s.thr t).q ≠ [] ∧ (s.pc = .check → (s.thr s.cur).q = []) ∧
      (s.pc = .top ∧ t ∈ s.bufs ∨ s.pc = .encode ∨
      (s.pc = .dict ∨ s.pc = .scan ∨ s.pc = .check) ∧ t ∈ pend s.bufs s.last s.i))
    (fun s => s.pc = .dead) Rt.dist
    (fun s s' hs hp => ⟨⟨hs.cleans hp.1, by rw [hs.q]; exact hp.2.1,
      by rw [hs.pc, hs.cur, hs.q]; exact hp.2.2.1,
      by rw [hs.pc, hs.bufs, hs.last, hs.i]; exact hp.2.2.2⟩, Nat.le_of_eq hs.dist⟩)
    (fun s hs => by
      rcases hs.2.2.2 with ⟨h1, -⟩ | h1 | ⟨h1 | h1 | h1, -⟩ <;> rw [h1] <;> simp)
    (fun k l hl hp hn => by
      have hinv := h.inv k
      have hdist := next_dist hinv hn
      have hcl := next_clean hn hp.1
      generalize σ (k + 1) = s' at *
      generalize σ k = s at *
      by_cases hdd : s'.pc = .dead
      · exact .inl hdd
      obtain ⟨p1, p2, p3, p4⟩ := hp
      have key : (s'.thr t).q ≠ [] ∧ (s'.pc = .check → (s'.thr s'.cur).q = []) ∧ s'.pc ≠ .top ∧
          (s'.pc = .top ∧ t ∈ s'.bufs ∨ s'.pc = .encode ∨
          (s'.pc = .dict ∨ s'.pc = .scan ∨ s'.pc = .check) ∧ t ∈ pend s'.bufs s'.last s'.i) := by
        cases hn
        case dead => exact absurd rfl hdd
        case top hpc _ =>
          refine ⟨p2, by simp, by simp, .inr (.inr ⟨.inl rfl, ?_⟩)⟩
          rcases p4 with p4 | p4 | p4
          · exact (pend_start _ _ _).2 p4.2
          · simp_all
          · simp_all
        case dict0 hpc _ =>
          refine ⟨p2, by simp, by simp, .inr (.inr ⟨.inr (.inl rfl), ?_⟩)⟩
          rcases p4 with p4 | p4 | p4
          · simp_all
          · simp_all
          · exact p4.2
        case dict1 hm _ _ => exact absurd p1.1 hm
        case stop hpc hf =>
          exfalso
          rcases hf with hf | hf
          · exact hinv.full hf p1.1
          · rcases p4 with p4 | p4 | p4
            · simp_all
            · simp_all
            · rw [hf] at p4; simp [pend] at p4
        case look hpc hf u hu hq =>
          refine ⟨p2, fun _ => hq, by simp, .inr (.inr ⟨.inr (.inr rfl), ?_⟩)⟩
          rcases p4 with p4 | p4 | p4
          · simp_all
          · simp_all
          · exact p4.2
        case enc => exact ⟨p2, by simp, by simp, .inr (.inl rfl)⟩
        case check hpc =>
          have hcur := hinv.curI (.inl hpc)
          have hlt := hinv.idx_lt hcur
          have hpe : t ∈ pend s.bufs s.last s.i := by
            rcases p4 with p4 | p4 | p4
            · simp_all
            · simp_all
            · exact p4.2
          have hne : t ≠ s.cur := by
            rintro rfl; exact p2 (p3 hpc)
          rw [pend_head hcur] at hpe
          have htl : t ∈ (pend s.bufs s.last s.i).tail := by
            rcases List.mem_cons.1 hpe with h1 | h1
            · exact absurd h1 hne
            · exact h1
          have hadv : s.advance (s.i + 1) = .ok s.adv := by
            rw [Rt.advance, if_neg (by omega)]; rfl
          have := (advance_pend hadv hlt.1 hlt.2).2 t htl
          exact ⟨p2, by simp [this.1], by simp [this.1], .inr (.inr ⟨.inr (.inl this.1), this.2⟩)⟩
        case fail hx _ _ => exact absurd p1 hx
        all_goals (rcases p4 with p4 | p4 | p4 <;> simp_all)
      refine .inr ⟨⟨hcl, key.1, key.2.1, key.2.2.2⟩, ?_⟩
      rcases hdist with hdist | hdist | hdist
      · exact absurd hdist key.2.2.1
      · exact absurd hdist hdd
      · exact hdist) k1 ⟨(hst k1 hk1).1, (hst k1 hk1).2.2, by simp [h1], .inl ⟨h1, (hst k1 hk1).2.1⟩⟩
  exact hnd k2 (by omega) hx

/-! ## Waking the waiting threads -/

/-- The threads below `B` that wait. -/
def Rt.waiting (B : Nat) (s : Rt) : Nat := (List.range B).countP fun u => decide (s.waits u)

theorem waiting_le {B : Nat} {s s' : Rt} (h : ∀ u, s'.waits u → s.waits u) : s'.waiting B ≤ s.waiting B :=
  List.countP_mono_left fun u _ hu => by simpa using h u (by simpa using hu)

theorem waiting_lt {B : Nat} {s s' : Rt} (h : ∀ u, s'.waits u → s.waits u) {w : Nat} (hw : s.waits w)
    (hw' : ¬ s'.waits w) (hB : w < B) : s'.waiting B < s.waiting B := by
  unfold Rt.waiting
  induction B with
  | zero => omega
  | succ B ih =>
    rw [List.range_succ, List.countP_append, List.countP_append]
    by_cases hwB : w = B
    · subst hwB
      have : s'.waiting w ≤ s.waiting w := waiting_le h
      unfold Rt.waiting at this
      simp only [List.countP_singleton, hw, hw', decide_true, decide_false]
      simp
      omega
    · have := ih (by omega)
      have h2 : ([B].countP fun u => decide (s'.waits u)) ≤ ([B].countP fun u => decide (s.waits u)) :=
        List.countP_mono_left fun u _ hu => by simpa using h u (by simpa using hu)
      omega

theorem notify_waits {s s' : Rt} {w : Option Nat} (h : s.notify w = .ok s') :
    (∀ u, s'.waits u → s.waits u) ∧ ∀ v, w = some v → s.waits v ∧ ¬ s'.waits v := by
  unfold Rt.notify at h
  split at h
  · cases h; exact ⟨fun _ h => h, by simp⟩
  · rename_i w
    split at h <;> cases h
    rename_i sw hpc
    constructor
    · rintro u ⟨sw', hu⟩
      simp only [Rt.setThr] at hu
      by_cases ht : u = w
      · subst ht; exact ⟨sw, hpc⟩
      · rw [upd_other _ _ ht] at hu; exact ⟨sw', hu⟩
    · rintro v hv
      cases hv
      refine ⟨⟨sw, hpc⟩, ?_⟩
      rintro ⟨sw', hu⟩
      simp only [Rt.setThr, upd_same] at hu
      cases hu

theorem next_waits {l : Lbl} {s s' : Rt} (h : Next l s s') : ∀ u, s'.waits u → s.waits u := by
  cases h
  case done hn => exact (notify_waits hn).1
  case wake hn => exact (notify_waits hn).1
  all_goals exact fun u h => h

theorem Steady.waits_back (h : Steady σ lbl) {k j : Nat} (hj : k ≤ j) (u : Nat) (hu : (σ j).waits u) :
    (σ k).waits u := by
  induction j, hj using Nat.le_induction with
  | base => exact hu
  | succ j hj ih =>
    rcases h.step j with h1 | ⟨l, -, h1⟩
    · exact ih (h1.waits u hu)
    · exact ih (next_waits h1 u hu)

/-- Every waiting thread is woken. -/
theorem Steady.woken (h : Steady σ lbl) {B : Nat} (hB : ∀ u, (σ 0).waits u → u < B) {t : Nat} (k : Nat) :
    ∃ j ≥ k, (σ j).pc = .dead ∨ ¬ (σ j).waits t := by
  obtain ⟨k0, hk0, h0 | h0⟩ := h.reach_calm k
  · exact ⟨k0, hk0, .inl h0⟩
  have : ∀ n, ∀ k ≥ k0, (σ k).waiting B = n → ∃ j ≥ k, (σ j).pc = .dead ∨ ¬ (σ j).waits t := by
    intro n
    induction n using Nat.strongRecOn with
    | ind n ih =>
      rintro k hk rfl
      rcases h.at_scanned k with ⟨j, hj, hd⟩ | ⟨j, hj, hpc, l, hl, hn⟩
      · exact ⟨j, hj, .inl hd⟩
      by_cases hw : (σ j).waits t
      swap
      · exact ⟨j, hj, .inr hw⟩
      have hcalm := h.calm_stable h0 j (by omega)
      have hlt : (σ (j + 1)).waiting B < (σ j).waiting B := by
        have hid : (σ j).idleStatus = .completed := by simp [Rt.idleStatus, hcalm.2]
        have hnot := h.notify j
        have hBj := fun u hu => hB u (h.waits_back (Nat.zero_le j) u hu)
        generalize σ (j + 1) = s' at *
        generalize σ j = s at *
        cases hn
        case done hs hi w hl' hn =>
          cases w with
          | none =>
            exact absurd hw (hnot (by rw [hl, hl']) hcalm.1.1 (by rw [hcalm.2]; simp) hid t)
          | some v =>
            obtain ⟨n1, n2⟩ := notify_waits hn
            have n3 := n2 v rfl
            have e : ∀ u, Rt.waits { s with status := .completed, pc := .aio } u ↔ s.waits u := fun _ => Iff.rfl
            exact waiting_lt (fun u hu => (e u).1 (n1 u hu)) ((e v).1 n3.1) n3.2 (hBj v ((e v).1 n3.1))
        case again hs => rw [hcalm.2] at hs; cases hs
        case idle => simp_all
        case data hm => exact absurd hcalm.1.1 hm
        all_goals simp_all
      have hle : (σ j).waiting B ≤ (σ k).waiting B := waiting_le fun u => h.waits_back hj u
      obtain ⟨j', hj', hx⟩ := ih _ (by omega) (j + 1) (by omega) rfl
      exact ⟨j', by omega, hx⟩
  obtain ⟨j, hj, hx⟩ := this _ k0 (Nat.le_refl _) rfl
  exact ⟨j, by omega, hx⟩

end

end NanoLog
