import Verif.RuntimeRun
import Verif.RuntimeScan
import Verif.RuntimeDecode

/-!
# The background thread while threads go on logging
-/

namespace NanoLog

/-- Steps of other threads and of the system: messages may be added to the staging buffers. -/
structure Aside (s s' : Rt) : Prop where
  pc : s'.pc = s.pc
  last : s'.last = s.last
  i : s'.i = s.i
  full : s'.full = s.full
  cur : s'.cur = s.cur
  rem : s'.rem = s.rem
  mem : s'.mem = s.mem
  encPtr : s'.encPtr = s.encPtr
  bufs : s'.bufs = s.bufs
  pos : s'.pos = s.pos
  q : ∀ t, (s.thr t).q <+: (s'.thr t).q
  ioDone : s.ioDone → s'.ioDone
  encoded : s'.encoded = s.encoded

theorem Aside.refl (s : Rt) : Aside s s :=
  ⟨rfl, rfl, rfl, rfl, rfl, rfl, rfl, rfl, rfl, rfl, fun _ => List.prefix_refl _, id, rfl⟩

/-- Labels that may occur: no new staging buffers, the background thread is not started again. -/
def Lbl.busy : Lbl → Bool
  | .push _ | .join .. => false
  | _ => true

theorem upd_prefix {f : Nat → Thr} {t : Nat} {th : Thr} (hq : (f t).q <+: th.q) (u : Nat) :
    (f u).q <+: (upd f t th u).q := by
  by_cases hu : u = t
  · subst hu; rw [upd_same]; exact hq
  · rw [upd_other _ _ hu]; exact List.prefix_refl _

theorem busy_aside {cfg : Config} {prog : List Site} {s s' : Rt} {l : Lbl}
    (hl : l.ofBg = false) (hq : l.busy = true) (ha : s.act cfg prog l = .ok s') : Aside s s' := by
  cases l <;> simp only [Lbl.ofBg, Lbl.busy, Bool.true_eq_false, Bool.false_eq_true] at hl hq <;>
    simp only [Rt.act, Rt.actLog, Rt.actBuf, Rt.actCtl, Rt.actIo] at ha
  case disk n =>
    split at ha
    · cases ha
    rename_i a hs
    split at ha <;> try cases ha
    rename_i hn
    split at ha <;> cases ha
    refine { Aside.refl s with ioDone := ?_, q := fun _ => List.prefix_refl _, encoded := rfl }
    intro h b hb
    simp only [Option.some.injEq] at hb
    subst hb
    have := h a hs
    simp only
    omega
  all_goals
    repeat' split at ha
    all_goals first
      | (cases ha; done)
      | (cases ha; exact Aside.refl s)
      | (cases ha
         exact ⟨rfl, rfl, rfl, rfl, rfl, rfl, rfl, rfl, rfl, rfl, upd_prefix (List.prefix_refl _), id, rfl⟩)
      | (cases ha
         exact ⟨rfl, rfl, rfl, rfl, rfl, rfl, rfl, rfl, rfl, rfl, upd_prefix (List.prefix_append _ _), id, rfl⟩)
      | (cases ha
         exact ⟨rfl, rfl, rfl, rfl, rfl, rfl, rfl, rfl, rfl, rfl, fun _ => List.prefix_refl _, id, rfl⟩)

/-- A step of the background thread that takes messages, or one of those of `Next`. -/
def Works (cfg : Config) (l : Lbl) (s s' : Rt) : Prop :=
  Took s s' ∨ (Next l s s' ∧ (s.pc = .encode → ¬ (s.pos = s.sites.length ∧
    (s.mem s.encPtr).length + 25 + 2 * queueSize s.sites ((s.thr s.cur).q.take s.rem) ≤ cfg.output)))

/-- An infinite execution with constant lists of statements and of buffers. -/
structure Busy (cfg : Config) (σ : Nat → Rt) (lbl : Nat → Option Lbl) : Prop where
  inv : ∀ k, RtInv (σ k)
  sites : ∀ k, (σ (k + 1)).sites = (σ k).sites
  alive : ∀ k, (σ k).pc ≠ .dead
  step : ∀ k, Aside (σ k) (σ (k + 1)) ∨ ∃ l, lbl k = some l ∧ Works cfg l (σ k) (σ (k + 1))
  bg : ∀ k, ∃ j ≥ k, (∃ l, lbl j = some l ∧ Works cfg l (σ j) (σ (j + 1))) ∨
    ((σ j).pc = .aio ∧ (σ j).full = true ∧ ¬ (σ j).ioDone)
  disk : ∀ k, ∃ j ≥ k, (σ j).ioDone
  hist : ∀ k, (σ k).persisted <+: (σ (k + 1)).persisted ∧
    (σ k).persisted ++ (σ k).gO <+: (σ (k + 1)).persisted ++ (σ (k + 1)).gO ∧
    (σ k).encoded <+: (σ (k + 1)).encoded

section
variable {cfg : Config} {σ : Nat → Rt} {lbl : Nat → Option Lbl}

/-- The background thread moves at `j`. -/
def WorksAt (cfg : Config) (σ : Nat → Rt) (lbl : Nat → Option Lbl) (j : Nat) : Prop :=
  ∃ l, lbl j = some l ∧ Works cfg l (σ j) (σ (j + 1))

theorem Busy.next_step (h : Busy cfg σ lbl) (k : Nat) :
    ∃ j ≥ k, WorksAt cfg σ lbl j ∧ ∀ i, k ≤ i → i < j → Aside (σ i) (σ (i + 1)) := by
  by_cases hx : ∃ n, WorksAt cfg σ lbl (k + n)
  · classical
    have h1 := Nat.find_spec hx
    have h2 := fun m => Nat.find_min hx (m := m)
    refine ⟨k + Nat.find hx, by omega, h1, fun i hi hi' => ?_⟩
    rcases h.step i with h3 | h3
    · exact h3
    · refine absurd ?_ (h2 (i - k) (by omega))
      rwa [Nat.add_sub_cancel' hi]
  · exfalso
    have hnm : ∀ j ≥ k, Aside (σ j) (σ (j + 1)) := by
      intro j hj
      rcases h.step j with h1 | h1
      · exact h1
      · exact absurd ⟨j - k, by rw [Nat.add_sub_cancel' hj]; exact h1⟩ hx
    obtain ⟨j, hj, hd⟩ := h.disk k
    have hd' : ∀ i ≥ j, (σ i).ioDone := by
      intro i hi
      induction i, hi using Nat.le_induction with
      | base => exact hd
      | succ i hi ih => exact (hnm i (by omega)).ioDone ih
    obtain ⟨j', hj', hb | hb⟩ := h.bg j
    · exact hx ⟨j' - k, by rw [Nat.add_sub_cancel' (by omega)]; exact hb⟩
    · exact hb.2.2 (hd' j' hj')

/-- Progress by a rank, from time `k0` on. -/
theorem Busy.leads (h : Busy cfg σ lbl) {α : Type} {r : α → α → Prop} (wf : WellFounded r) (k0 : Nat)
    (P : Nat → Prop) (Q : Nat → Prop) (m : Nat → α)
    (hs : ∀ k ≥ k0, Aside (σ k) (σ (k + 1)) → P k → P (k + 1) ∧ m (k + 1) = m k)
    (hn : ∀ k ≥ k0, ∀ l, lbl k = some l → P k → Works cfg l (σ k) (σ (k + 1)) →
      Q (k + 1) ∨ P (k + 1) ∧ r (m (k + 1)) (m k))
    (k : Nat) (hk0 : k0 ≤ k) (hk : P k) : ∃ j > k, Q j := by
  induction hm : m k using wf.induction generalizing k with
  | _ x ih =>
    subst hm
    obtain ⟨j, hj, ⟨l, hl, hw⟩, ha⟩ := h.next_step k
    have hp : ∀ i, k ≤ i → i ≤ j → P i ∧ m i = m k := by
      intro i hi
      induction i, hi using Nat.le_induction with
      | base => exact fun _ => ⟨hk, rfl⟩
      | succ i hi ih' =>
        intro hij
        obtain ⟨h1, h2⟩ := ih' (by omega)
        obtain ⟨h3, h4⟩ := hs i (by omega) (ha i hi (by omega)) h1
        exact ⟨h3, h4.trans h2⟩
    obtain ⟨h1, h2⟩ := hp j hj (Nat.le_refl _)
    rcases hn j (by omega) l hl h1 hw with h3 | ⟨h3, h4⟩
    · exact ⟨j + 1, by omega, h3⟩
    · rw [h2] at h4
      obtain ⟨j', hj', h5⟩ := ih _ h4 (j + 1) (by omega) h3 rfl
      exact ⟨j', by omega, h5⟩

/-- Lexicographic order. -/
abbrev lex2 : Nat × Nat → Nat × Nat → Prop := Prod.Lex (· < ·) (· < ·)

theorem lex2_wf : WellFounded lex2 := (Prod.lex Nat.lt_wfRel Nat.lt_wfRel).wf

/-- Messages left in the chunk. -/
def Rt.chunk (s : Rt) : Nat := if s.pc = .encode then s.rem else 0

theorem Aside.dist {s s' : Rt} (h : Aside s s') : s'.dist = s.dist ∧ s'.chunk = s.chunk := by
  simp only [Rt.dist, Rt.left, Rt.chunk, h.pc, h.full, h.bufs, h.i, h.last, h.rem, and_self]

/-- Every step leads to the top of the loop or closer to it. -/
theorem works_dist {l : Lbl} {s s' : Rt} (hc : RtInv s) (h : Works cfg l s s') :
    s'.pc = .top ∨ s'.pc = .dead ∨ lex2 (s'.dist, s'.chunk) (s.dist, s.chunk) := by
  rcases h with ⟨hpc, k, m, s1, hk, hkr, -, -, rfl, ⟨h0, rfl⟩ | ⟨h0, rfl⟩⟩ | ⟨h, -⟩
  · right; right
    have hcur := hc.idx_lt (hc.curI (.inr hpc))
    have := adv_dist (s := { s with
      mem := upd s.mem s.encPtr m, wrap := false, rem := s.rem - k
      thr := upd s.thr s.cur { s.thr s.cur with q := (s.thr s.cur).q.drop k }
      gB := s.gB ++ (((s.thr s.cur).q.take s.rem).take k).map fun c => (s.cur, c) }) hcur.1 hcur.2
    refine Prod.Lex.left _ _ (Nat.lt_of_lt_of_le this ?_)
    simp only [Rt.dist, hpc]
    exact Nat.le_refl _
  · right; right
    have e : s.dist = Rt.dist { s with
        mem := upd s.mem s.encPtr m, wrap := false, rem := s.rem - k
        thr := upd s.thr s.cur { s.thr s.cur with q := (s.thr s.cur).q.drop k }
        gB := s.gB ++ (((s.thr s.cur).q.take s.rem).take k).map fun c => (s.cur, c) } := by
      simp only [Rt.dist, hpc]; rfl
    rw [e]
    refine Prod.Lex.right _ ?_
    simp only [Rt.chunk, hpc, if_true]
    omega
  · rcases next_dist hc h with h | h | h
    · exact .inl h
    · exact .inr (.inl h)
    · exact .inr (.inr (Prod.Lex.left _ _ h))

/-- What a step of the background thread leaves alone. -/
theorem works_keeps {l : Lbl} {s s' : Rt} (h : Works cfg l s s') :
    s'.bufs = s.bufs ∧ s'.pos = s.pos ∧ s'.sites = s.sites := by
  rcases h with ⟨hpc, k, m, s1, hk, hkr, -, -, rfl, ⟨h0, rfl⟩ | ⟨h0, rfl⟩⟩ | ⟨h, -⟩
  · exact ⟨rfl, rfl, rfl⟩
  · exact ⟨rfl, rfl, rfl⟩
  · cases h
    case done hn => have := notify_keeps hn; exact ⟨this.2.1, this.2.2.2.2.2.2.2.2.1, this.2.2.2.2.2.2.2.1⟩
    case wake hn => have := notify_keeps hn; exact ⟨this.2.1, this.2.2.2.2.2.2.2.2.1, this.2.2.2.2.2.2.2.1⟩
    all_goals exact ⟨rfl, rfl, rfl⟩

theorem Busy.const (h : Busy cfg σ lbl) (k : Nat) :
    (σ k).bufs = (σ 0).bufs ∧ (σ k).pos = (σ 0).pos ∧ (σ k).sites = (σ 0).sites := by
  induction k with
  | zero => exact ⟨rfl, rfl, rfl⟩
  | succ k ih =>
    rcases h.step k with h1 | ⟨l, -, h1⟩
    · rw [h1.bufs, h1.pos, h.sites k]; exact ih
    · obtain ⟨k1, k2, k3⟩ := works_keeps h1
      rw [k1, k2, k3]; exact ih

/-- The encoder's buffer gets empty again and again. -/
theorem Busy.reach_empty (h : Busy cfg σ lbl) (k : Nat) :
    ∃ j ≥ k, (σ j).pc = .top ∧ (σ j).mem (σ j).encPtr = [] := by
  obtain ⟨k1, hk1, h1⟩ := h.disk k
  obtain ⟨k2, hk2, h2⟩ := h.leads lex2_wf k1 (fun j => (σ j).ioDone)
    (fun j => (σ j).pc = .top ∧ (σ j).mem (σ j).encPtr = []) (fun j => ((σ j).dist, (σ j).chunk))
    (fun j _ ha hp => ⟨ha.ioDone hp, by rw [ha.dist.1, ha.dist.2]⟩)
    (fun k _ l hl hp hn => by
      have hd := works_dist (h.inv k) hn
      have hdd := h.alive (k + 1)
      generalize σ (k + 1) = s' at *
      generalize σ k = s at *
      by_cases htt : s'.pc = .top
      · left
        rcases hn with ⟨hpc, k, m, s1, hk, hkr, -, -, rfl, ⟨h0, rfl⟩ | ⟨h0, rfl⟩⟩ | ⟨hn, -⟩
        · simp only [Rt.adv] at htt; split at htt <;> cases htt
        · simp only [hpc] at htt; cases htt
        · cases hn
          case busy hx a ha hy hz => exact absurd (hp a ha) hy
          case top => cases htt
          case check => simp only [Rt.adv] at htt; split at htt <;> cases htt
          case fail => simp only [Rt.adv] at htt; split at htt <;> cases htt
          case done hn => rw [(notify_keeps hn).1] at htt; cases htt
          case wake hn => rw [(notify_keeps hn).1] at htt; cases htt
          case again hm hs => exact ⟨rfl, hm⟩
          case nothing hm => exact ⟨rfl, hm⟩
          case write hm => exact ⟨rfl, by simp⟩
          all_goals cases htt
      · refine .inr ⟨?_, ?_⟩
        · rcases hn with ⟨hpc, k, m, s1, hk, hkr, -, -, rfl, ⟨h0, rfl⟩ | ⟨h0, rfl⟩⟩ | ⟨hn, -⟩
          · exact hp
          · exact hp
          · cases hn
            case done hn => intro a ha; rw [(notify_keeps hn).2.2.1] at ha; exact hp a ha
            case wake hn => intro a ha; rw [(notify_keeps hn).2.2.1] at ha; exact hp a ha
            case ioDone => intro a ha; cases ha
            case write => exact absurd rfl htt
            all_goals exact fun a ha => hp a ha
        · rcases hd with hd | hd | hd
          · exact absurd hd htt
          · exact absurd hd hdd
          · exact hd) k1 (Nat.le_refl _) h1
  exact ⟨k2, by omega, h2⟩

theorem carry (P : Rt → Prop) (hP : ∀ s s', Aside s s' → P s → P s') {k j : Nat}
    (hk : P (σ k)) (hj : k ≤ j) (ha : ∀ i, k ≤ i → i < j → Aside (σ i) (σ (i + 1))) : P (σ j) := by
  induction j, hj using Nat.le_induction with
  | base => exact hk
  | succ j hj ih => exact hP _ _ (ha j hj (by omega)) (ih fun i h1 h2 => ha i h1 (by omega))

/-- All statements are written. -/
theorem Busy.posAll (h : Busy cfg σ lbl) (k : Nat) : (σ k).pos = (σ k).sites.length := by
  obtain ⟨k1, -, h1, h2⟩ := h.reach_empty 0
  obtain ⟨k2, hk2, ⟨l, hl, hw⟩, ha⟩ := h.next_step k1
  have hP : ∀ p, ∀ s s', Aside s s' → (s.pc = p ∧ s.mem s.encPtr = []) → s'.pc = p ∧ s'.mem s'.encPtr = [] :=
    fun p s s' ha hp => by rw [ha.pc, ha.mem, ha.encPtr]; exact hp
  have h3 := carry _ (hP .top) ⟨h1, h2⟩ hk2 ha
  have h4 : (σ (k2 + 1)).pc = .dict ∧ (σ (k2 + 1)).mem (σ (k2 + 1)).encPtr = [] := by
    have hdd := h.alive (k2 + 1)
    generalize σ (k2 + 1) = s' at *
    generalize σ k2 = s at *
    rcases hw with ⟨hpc, -⟩ | ⟨hn, -⟩
    · rw [h3.1] at hpc; cases hpc
    · cases hn <;> simp_all
  obtain ⟨k3, hk3, ⟨l3, hl3, hw3⟩, ha3⟩ := h.next_step (k2 + 1)
  have h5 := carry _ (hP .dict) h4 hk3 ha3
  have h6 : (σ k3).pos = (σ k3).sites.length := by
    generalize σ (k3 + 1) = s' at *
    generalize σ k3 = s at *
    rcases hw3 with ⟨hpc, -⟩ | ⟨hn, -⟩
    · rw [h5.1] at hpc; cases hpc
    · cases hn <;> simp_all
  rw [(h.const k).2.1, (h.const k).2.2, ← (h.const k3).2.1, ← (h.const k3).2.2]
  exact h6

/-! ## Every buffer is served -/

/-- Steps of the scan from buffer `x` to buffer `j` of `n`. -/
def cyc (j n x : Nat) : Nat := if x ≤ j then j - x else j + n - x

theorem cyc_inj {j n x y : Nat} (hx : x < n) (hy : y < n) (h : cyc j n x = cyc j n y) : x = y := by
  unfold cyc at h; split at h <;> split at h <;> omega

theorem cyc_next {j n x : Nat} (hj : j < n) (hx : x < n) (h : x ≠ j) :
    cyc j n ((x + 1) % n) + 1 = cyc j n x := by
  rcases Nat.lt_or_ge (x + 1) n with h1 | h1
  · rw [Nat.mod_eq_of_lt h1]
    unfold cyc; split <;> split <;> omega
  · have : x + 1 = n := by omega
    rw [this, Nat.mod_self]
    unfold cyc; split <;> split <;> omega

theorem queueSize_split (sites : List Site) (cs : List LogCall) (k : Nat) :
    queueSize sites (cs.take k) + queueSize sites (cs.drop k) = queueSize sites cs := by
  unfold queueSize
  rw [← List.sum_append, ← List.map_append, List.take_append_drop]

/-- The background thread is on its way to buffer `j`, which is that of thread `t`: the next output buffer
with which the scan begins has not been filled on the way. -/
def Heads (stg j t : Nat) (s : Rt) : Prop :=
  (s.full = false ∧
    (s.pc = .top ∧ s.mem s.encPtr = [] ∨
     s.pc = .dict ∧ s.mem s.encPtr = [] ∧ s.i = s.last ∨
     s.pc = .scan ∧ cyc j s.bufs.length s.i ≤ cyc j s.bufs.length s.last ∧
      (s.i = s.last → s.mem s.encPtr = []) ∨
     s.pc = .check ∧ cyc j s.bufs.length s.i ≤ cyc j s.bufs.length s.last ∧ s.cur ≠ t ∨
     s.pc = .encode ∧ cyc j s.bufs.length s.i ≤ cyc j s.bufs.length s.last ∧
      (s.i = s.last → (s.mem s.encPtr).length + 3 * queueSize s.sites ((s.thr s.cur).q.take s.rem) ≤ 3 * stg))) ∨
  (s.full = true ∧ (s.pc = .scan ∨ s.pc = .scanned ∨ s.pc = .aio ∨ s.pc = .aioDone ∨ s.pc = .write))

/-- How far it is. -/
def Rt.far (j : Nat) (s : Rt) : Nat × Nat × Nat :=
  (2 * cyc j s.bufs.length s.last + (if s.full then 1 else 0),
   match s.pc with
   | .dead => 0
   | .write => 1
   | .aioDone => 2
   | .aio => 3
   | .scanned => 4
   | .scan => if s.full then 5 else 3 * cyc j s.bufs.length s.i + 3
   | .check | .encode => 3 * cyc j s.bufs.length s.i + 2
   | .dict => 3 * cyc j s.bufs.length s.last + 4
   | .top => 3 * cyc j s.bufs.length s.last + 5,
   s.chunk)

/-- Lexicographic order. -/
abbrev lex3 : Nat × Nat × Nat → Nat × Nat × Nat → Prop := Prod.Lex (· < ·) lex2

theorem lex3_wf : WellFounded lex3 :=
  (Prod.lex Nat.lt_wfRel (Prod.lex Nat.lt_wfRel Nat.lt_wfRel)).wf

theorem lex3_1 {a b c a' b' c' : Nat} (h : a' < a) : lex3 (a', b', c') (a, b, c) := Prod.Lex.left _ _ h

theorem lex3_2 {a b c a' b' c' : Nat} (h : a' = a) (h2 : b' < b) : lex3 (a', b', c') (a, b, c) := by
  subst h; exact Prod.Lex.right _ (Prod.Lex.left _ _ h2)

theorem lex3_3 {a b c a' b' c' : Nat} (h : a' = a) (h2 : b' = b) (h3 : c' < c) :
    lex3 (a', b', c') (a, b, c) := by
  subst h h2; exact Prod.Lex.right _ (Prod.Lex.right _ h3)

theorem Aside.far {s s' : Rt} (h : Aside s s') (j : Nat) : s'.far j = s.far j := by
  simp only [Rt.far, h.pc, h.last, h.bufs, h.full, h.i, h.dist.2]

theorem prefix_take {α : Type} {a b : List α} (h : a <+: b) {n : Nat} (hn : n ≤ a.length) :
    b.take n = a.take n := by
  obtain ⟨c, rfl⟩ := h
  rw [List.take_append_of_le_length hn]

theorem Aside.heads {s s' : Rt} (h : Aside s s') (hc : RtInv s) (hs : s'.sites = s.sites) {stg j t : Nat}
    (hh : Heads stg j t s) : Heads stg j t s' := by
  have hq : s.pc = .encode → (s'.thr s.cur).q.take s.rem = (s.thr s.cur).q.take s.rem :=
    fun hpc => prefix_take (h.q _) (hc.rem hpc).2
  simp only [Heads, h.pc, h.last, h.bufs, h.full, h.i, h.mem, h.encPtr, h.cur, h.rem, hs] at hh ⊢
  rcases hh with ⟨h1, h2⟩ | h2
  · refine .inl ⟨h1, ?_⟩
    rcases h2 with h2 | h2 | h2 | h2 | ⟨h2, h3, h4⟩
    · exact .inl h2
    · exact .inr (.inl h2)
    · exact .inr (.inr (.inl h2))
    · exact .inr (.inr (.inr (.inl h2)))
    · exact .inr (.inr (.inr (.inr ⟨h2, h3, by rw [hq h2]; exact h4⟩)))
  · exact .inr h2

/-- After a buffer other than `j` the scan goes on. -/
theorem adv_heads {s : Rt} {stg j t : Nat} (hf : s.full = false) (hj : j < s.bufs.length)
    (hi : s.i < s.bufs.length) (hne : s.i ≠ j)
    (hle : cyc j s.bufs.length s.i ≤ cyc j s.bufs.length s.last) :
    Heads stg j t s.adv ∧ (s.adv.far j).1 = (s.far j).1 ∧
      (s.adv.far j).2.1 < 3 * cyc j s.bufs.length s.i + 2 := by
  have h1 := cyc_next hj hi hne
  have h2 : (s.i + 1) % s.bufs.length ≠ s.last := by
    intro h; rw [h] at h1; omega
  refine ⟨.inl ⟨hf, .inr (.inr (.inl ⟨by simp [Rt.adv, h2], ?_, fun h => absurd h h2⟩))⟩, rfl, ?_⟩
  · simp only [Rt.adv]; omega
  · simp only [Rt.adv, Rt.far, if_neg h2, hf]
    simp only [Bool.false_eq_true, if_false]
    omega

/-- Each step leads closer. -/
theorem works_far {l : Lbl} {s s' : Rt} {stg j t : Nat} (hroom : 3 * stg + 25 ≤ cfg.output) (hc : RtInv s)
    (hal : s'.pc ≠ .dead) (hpos : s.pos = s.sites.length)
    (hfit : ∀ t, queueSize s.sites (s.thr t).q ≤ stg) (hj : s.bufs[j]? = some t)
    (hq : (s.thr t).q = [] → ¬ (s.pc = .scan ∧ s'.pc = .check ∧ s'.cur = t))
    (hno : Took s s' → s.cur ≠ t) (h : Works cfg l s s') (hh : Heads stg j t s) :
    Heads stg j t s' ∧ lex3 (s'.far j) (s.far j) := by
  have hjl : j < s.bufs.length := by
    by_contra hn; rw [List.getElem?_eq_none (by omega)] at hj; cases hj
  have hlast : s.last < s.bufs.length := by
    rcases hc.idx with h | h
    · exact h
    · rw [h.1] at hjl; simp at hjl
  have hbe : s.bufs ≠ [] := by intro h; rw [h] at hjl; simp at hjl
  have hcur : s.pc = .check ∨ s.pc = .encode → s.cur ≠ t → s.i ≠ j := by
    intro hp hne h
    have := hc.curI hp
    rw [h, hj] at this
    exact hne (Option.some.inj this).symm
  rcases h with ht | ⟨hn, hrm⟩
  · have hct := hno ht
    obtain ⟨hpc, k, m, s1, hk, hkr, hm0, hm, hs1, hs'⟩ := ht
    have hi := hc.idx_lt (hc.curI (.inr hpc))
    rcases hh with ⟨hf, hh⟩ | ⟨-, hh⟩
    swap
    · simp [hpc] at hh
    simp only [hpc, reduceCtorEq, false_and, true_and, false_or] at hh
    rcases hs' with ⟨h0, rfl⟩ | ⟨h0, rfl⟩
    · have := adv_heads (s := s1) (stg := stg) (j := j) (t := t) (by rw [hs1]; exact hf) (by rw [hs1]; exact hjl)
        (by rw [hs1]; exact hi.1) (by rw [hs1]; exact hcur (.inr hpc) hct) (by rw [hs1]; exact hh.1)
      refine ⟨this.1, lex3_2 ?_ ?_⟩
      · rw [show (s1.far j).1 = (s.far j).1 by rw [hs1]; rfl] at this
        exact this.2.1
      · have h3 := this.2.2
        simp only [hpc]
        rw [hs1] at h3 ⊢
        exact h3
    · subst hs1
      refine ⟨.inl ⟨hf, .inr (.inr (.inr (.inr ⟨hpc, hh.1, fun hil => ?_⟩)))⟩, ?_⟩
      · have h1 := hh.2 hil
        have h2 := queueSize_split s.sites ((s.thr s.cur).q.take s.rem) k
        simp only [upd_same]
        rw [List.take_drop, show k + (s.rem - k) = s.rem by omega]
        omega
      · refine lex3_3 rfl ?_ ?_
        · simp only [hpc]
        · simp only [Rt.chunk, hpc, if_true]; omega
  · rcases hh with ⟨hf, hh⟩ | ⟨hf, hh⟩
    · rcases hh with ⟨hpc, hm⟩ | ⟨hpc, hm, hil⟩ | ⟨hpc, hle, hm⟩ | ⟨hpc, hle, hct⟩ | ⟨hpc, hle, hsz⟩
      · cases hn
        case dead => exact absurd rfl hal
        case top =>
          refine ⟨.inl ⟨hf, .inr (.inl ⟨rfl, hm, rfl⟩)⟩, lex3_2 rfl ?_⟩
          simp only [hpc]; omega
        all_goals simp_all
      · cases hn
        case dict0 =>
          refine ⟨.inl ⟨hf, .inr (.inr (.inl ⟨rfl, by rw [hil], fun _ => hm⟩))⟩, lex3_2 rfl ?_⟩
          simp only [hpc, hf, hil]
          simp
        all_goals simp_all
      · cases hn
        case look u hu hqu =>
          have hut : u ≠ t := by rintro rfl; exact hq hqu ⟨hpc, rfl, rfl⟩
          refine ⟨.inl ⟨hf, .inr (.inr (.inr (.inl ⟨rfl, hle, hut⟩)))⟩, lex3_2 rfl ?_⟩
          simp only [hpc, hf]; simp
        case enc u n hu =>
          refine ⟨.inl ⟨hf, .inr (.inr (.inr (.inr ⟨rfl, hle, fun hil => ?_⟩)))⟩, lex3_2 rfl ?_⟩
          · have h1 := queueSize_take_le s.sites (s.thr u).q n
            have h2 := hfit u
            have h3 := hm hil
            simp only
            rw [h3]
            simp only [List.length_nil]
            omega
          · simp only [hpc, hf]; simp
        all_goals simp_all
      · have hi := hc.idx_lt (hc.curI (.inl hpc))
        cases hn
        case check =>
          have := adv_heads (s := s) (stg := stg) (j := j) (t := t) hf hjl hi.1 (hcur (.inl hpc) hct) hle
          refine ⟨this.1, lex3_2 this.2.1 ?_⟩
          have h3 := this.2.2
          simp only [hpc]
          exact h3
        all_goals simp_all
      · have hi := hc.idx_lt (hc.curI (.inr hpc))
        cases hn
        case fail m hm0 =>
          have hil : s.i ≠ s.last := by
            intro hil
            have := hsz hil
            exact hrm hpc ⟨hpos, by omega⟩
          have hlt : cyc j s.bufs.length s.i < cyc j s.bufs.length s.last :=
            Nat.lt_of_le_of_ne hle fun h => hil (cyc_inj hi.1 hlast h)
          refine ⟨.inr ⟨rfl, ?_⟩, lex3_1 ?_⟩
          · simp only [Rt.adv]; split <;> simp
          · simp only [Rt.adv, hf]
            simp
            omega
        all_goals simp_all
    · have hm := hc.full hf
      rcases hh with hpc | hpc | hpc | hpc | hpc
      · cases hn
        case stop => exact ⟨.inr ⟨hf, by simp⟩, lex3_2 rfl (by simp [hpc, hf])⟩
        all_goals simp_all
      · cases hn
        case data => exact ⟨.inr ⟨hf, by simp⟩, lex3_2 rfl (by simp [hpc])⟩
        all_goals simp_all
      · cases hn
        case noaio => exact ⟨.inr ⟨hf, by simp⟩, lex3_2 rfl (by simp [hpc])⟩
        case ioDone => exact ⟨.inr ⟨hf, by simp⟩, lex3_2 rfl (by simp [hpc])⟩
        all_goals simp_all
      · cases hn
        case wake hn =>
          obtain ⟨n1, n2, n3, n4, n5, n6, n7, n8, n9, n10, n11, n12, -⟩ := notify_keeps hn
          refine ⟨.inr ⟨by rw [n10]; exact hf, by rw [n1]; simp⟩, ?_⟩
          simp only [Rt.far, n1, n2, n10, n11, hpc]
          exact lex3_2 rfl (by decide)
        case nowake => exact ⟨.inr ⟨hf, by simp⟩, lex3_2 rfl (by simp [hpc])⟩
        all_goals simp_all
      · cases hn
        case write =>
          refine ⟨.inl ⟨rfl, .inl ⟨rfl, by simp⟩⟩, lex3_1 ?_⟩
          simp [hf]
        all_goals simp_all

/-- What a step other than taking leaves in the queues. -/
theorem works_q {l : Lbl} {s s' : Rt} {t : Nat} (h : Works cfg l s s') (hno : Took s s' → s.cur ≠ t) :
    (s'.thr t).q = (s.thr t).q := by
  rcases h with h | ⟨h, -⟩
  · have := hno h
    obtain ⟨hpc, k, m, s1, hk, hkr, -, -, rfl, ⟨h0, rfl⟩ | ⟨h0, rfl⟩⟩ := h
    · simp only [Rt.adv]; rw [upd_other _ _ (Ne.symm this)]
    · simp only; rw [upd_other _ _ (Ne.symm this)]
  · cases h
    case done hn => rw [(notify_keeps hn).2.2.2.2.2.2.2.2.2.2.2.2]
    case wake hn => rw [(notify_keeps hn).2.2.2.2.2.2.2.2.2.2.2.2]
    all_goals rfl

/-- The background thread finds the buffer of `t` empty. -/
def Empty (t : Nat) (s s' : Rt) : Prop := (s.thr t).q = [] ∧ s.pc = .scan ∧ s'.pc = .check ∧ s'.cur = t

/-- The background thread comes to every buffer. -/
theorem Busy.visited (h : Busy cfg σ lbl) {stg : Nat} (hroom : 3 * stg + 25 ≤ cfg.output)
    (hfit : ∀ k t, queueSize (σ k).sites ((σ k).thr t).q ≤ stg) {k t : Nat} (htb : t ∈ (σ k).bufs) :
    ∃ i ≥ k, Took (σ i) (σ (i + 1)) ∧ (σ i).cur = t ∨ Empty t (σ i) (σ (i + 1)) := by
  by_contra hx
  have hno : ∀ i ≥ k, Took (σ i) (σ (i + 1)) → (σ i).cur ≠ t := fun i hi h1 h2 => hx ⟨i, hi, .inl ⟨h1, h2⟩⟩
  have hem : ∀ i ≥ k, ((σ i).thr t).q = [] → ¬ ((σ i).pc = .scan ∧ (σ (i + 1)).pc = .check ∧ (σ (i + 1)).cur = t) :=
    fun i hi h1 h2 => hx ⟨i, hi, .inr ⟨h1, h2⟩⟩
  obtain ⟨j, hj⟩ := List.getElem?_of_mem htb
  have hj' : ∀ i, (σ i).bufs[j]? = some t := by
    intro i; rw [(h.const i).1, ← (h.const k).1]; exact hj
  obtain ⟨k1, hk1, h1, h2⟩ := h.reach_empty k
  obtain ⟨-, -, hf⟩ := h.leads lex3_wf k (fun i => Heads stg j t (σ i)) (fun _ => False) (fun i => (σ i).far j)
    (fun i hi ha hp => ⟨ha.heads (h.inv i) (h.sites i) hp, ha.far j⟩)
    (fun i hi l hl hp hw => .inr (works_far hroom (h.inv i) (h.alive _) (h.posAll i) (hfit i) (hj' i) (hem i hi)
      (hno i hi) hw hp))
    k1 hk1 (.inl ⟨by
      cases hfu : (σ k1).full
      · rfl
      · exact absurd h2 ((h.inv k1).full hfu), .inl ⟨h1, h2⟩⟩)
  exact hf

/-- A buffer with messages is served. -/
theorem Busy.taken (h : Busy cfg σ lbl) {stg : Nat} (hroom : 3 * stg + 25 ≤ cfg.output)
    (hfit : ∀ k t, queueSize (σ k).sites ((σ k).thr t).q ≤ stg) {k t : Nat} (hq : ((σ k).thr t).q ≠ []) :
    ∃ i ≥ k, Took (σ i) (σ (i + 1)) ∧ (σ i).cur = t := by
  by_contra hx
  have hno : ∀ i ≥ k, Took (σ i) (σ (i + 1)) → (σ i).cur ≠ t := fun i hi h1 h2 => hx ⟨i, hi, h1, h2⟩
  have hqs : ∀ i ≥ k, ((σ i).thr t).q ≠ [] := by
    intro i hi
    induction i, hi using Nat.le_induction with
    | base => exact hq
    | succ i hi ih =>
      rcases h.step i with h1 | ⟨l, -, h1⟩
      · intro hn
        have := h1.q t
        rw [hn] at this
        exact ih (List.prefix_nil.1 this)
      · rw [works_q h1 (hno i hi)]; exact ih
  obtain ⟨i, hi, h1 | h1⟩ := h.visited hroom hfit (k := k) (t := t) (by
    by_contra hn
    exact hq (((h.inv k).thr t).out hn))
  · exact hno i hi h1.1 h1.2
  · exact hqs i hi h1.1

/-! ## Every message gets to the file -/

theorem grows {f : Nat → List (Nat × LogCall)} (h : ∀ k, f k <+: f (k + 1)) {k j : Nat} (hj : k ≤ j) :
    f k <+: f j := by
  induction j, hj using Nat.le_induction with
  | base => exact List.prefix_refl _
  | succ j hj ih => exact ih.trans (h j)

theorem byThr_prefix {a b : List (Nat × LogCall)} (h : a <+: b) (t : Nat) :
    (byThr t a).length ≤ (byThr t b).length := by
  obtain ⟨z, rfl⟩ := h
  rw [byThr_append, List.length_append]; omega

/-- Messages of `t` are encoded. -/
theorem took_encoded {s s' : Rt} (hc : RtInv s) (h : Took s s') :
    (byThr s.cur s.encoded).length < (byThr s.cur s'.encoded).length := by
  obtain ⟨hpc, k, m, s1, hk, hkr, -, -, rfl, hs'⟩ := h
  have hr := hc.rem hpc
  have : s'.encoded = s.encoded ++ (((s.thr s.cur).q.take s.rem).take k).map fun c => (s.cur, c) := by
    rcases hs' with ⟨-, rfl⟩ | ⟨-, rfl⟩ <;> simp only [Rt.adv, Rt.encoded, List.append_assoc]
  rw [this, byThr_append, byThr_same, List.length_append, List.length_take, List.length_take]
  omega

/-- What has been logged is encoded at some time. -/
theorem Busy.encoded (h : Busy cfg σ lbl) {stg : Nat} (hroom : 3 * stg + 25 ≤ cfg.output)
    (hfit : ∀ k t, queueSize (σ k).sites ((σ k).thr t).q ≤ stg)
    (hlog : ∀ k t, ((σ k).thr t).log.length ≤ ((σ (k + 1)).thr t).log.length) (t k n : Nat)
    (hn : n ≤ ((σ k).thr t).log.length) : ∃ j ≥ k, n ≤ (byThr t (σ j).encoded).length := by
  have hlog' : ∀ {k j}, k ≤ j → ((σ k).thr t).log.length ≤ ((σ j).thr t).log.length := by
    intro k j hj
    induction j, hj using Nat.le_induction with
    | base => exact Nat.le_refl _
    | succ j hj ih => exact Nat.le_trans ih (hlog j t)
  induction hd : n - (byThr t (σ k).encoded).length using Nat.strongRecOn generalizing k with
  | ind d ih =>
    by_cases hle : n ≤ (byThr t (σ k).encoded).length
    · exact ⟨k, Nat.le_refl _, hle⟩
    have hq : ((σ k).thr t).q ≠ [] := by
      intro hq
      have := ((h.inv k).thr t).log
      rw [hq, List.append_nil] at this
      rw [this] at hn
      exact hle hn
    obtain ⟨i, hi, ht, hc⟩ := h.taken hroom hfit hq
    have h1 := took_encoded (h.inv i) ht
    rw [hc] at h1
    have h2 := byThr_prefix (grows (f := fun k => (σ k).encoded) (fun k => (h.hist k).2.2) hi) t
    obtain ⟨j, hj, h3⟩ := ih (n - (byThr t (σ (i + 1)).encoded).length) (by omega) (i + 1)
      (Nat.le_trans hn (hlog' (by omega))) rfl
    exact ⟨j, by omega, h3⟩

/-- At least `L u` messages of each thread are in the file. -/
def OnDisk (L : Nat → Nat) (s : Rt) : Prop :=
  (∀ u, L u ≤ (byThr u s.persisted).length) ∨
  (s.ioDone ∧ ∀ u, L u ≤ (byThr u (s.persisted ++ s.gO)).length)

/-- They stay there. -/
theorem Busy.onDisk (h : Busy cfg σ lbl) {L : Nat → Nat} {k : Nat} (hk : OnDisk L (σ k)) (j : Nat) (hj : k ≤ j) :
    OnDisk L (σ j) := by
  induction j, hj using Nat.le_induction with
  | base => exact hk
  | succ j hj ih =>
    obtain ⟨p1, p2, -⟩ := h.hist j
    rcases ih with ih | ⟨hd, ih⟩
    · exact .inl fun u => Nat.le_trans (ih u) (byThr_prefix p1 u)
    have h2 : ∀ u, L u ≤ (byThr u ((σ (j + 1)).persisted ++ (σ (j + 1)).gO)).length :=
      fun u => Nat.le_trans (ih u) (byThr_prefix p2 u)
    have hc := h.inv j
    have hs := h.step j
    generalize σ (j + 1) = s' at *
    generalize σ j = s at *
    have left : s.gO = [] → OnDisk L s' := by
      intro hg
      rw [hg, List.append_nil] at ih
      exact .inl fun u => Nat.le_trans (ih u) (byThr_prefix p1 u)
    rcases hs with ha | ⟨l, -, hw⟩
    · exact .inr ⟨ha.ioDone hd, h2⟩
    · rcases hw with ⟨hpc, k, m, s1, hk, hkr, -, -, rfl, ⟨h0, rfl⟩ | ⟨h0, rfl⟩⟩ | ⟨hn, -⟩
      · exact .inr ⟨hd, h2⟩
      · exact .inr ⟨hd, h2⟩
      · cases hn
        case done hn => exact .inr ⟨fun a ha => by rw [(notify_keeps hn).2.2.1] at ha; exact hd a ha, h2⟩
        case wake hn => exact .inr ⟨fun a ha => by rw [(notify_keeps hn).2.2.1] at ha; exact hd a ha, h2⟩
        case ioDone => exact .inr ⟨fun a ha => (by cases ha), h2⟩
        case write hpc hm => exact left (hc.aioNone (hc.pcAio (.inr (.inl hpc))))
        all_goals exact .inr ⟨fun a ha => hd a ha, h2⟩

/-- All that has been logged by time `k` gets to the file and stays there. -/
theorem Busy.persisted (h : Busy cfg σ lbl) {stg : Nat} (hroom : 3 * stg + 25 ≤ cfg.output)
    (hfit : ∀ k t, queueSize (σ k).sites ((σ k).thr t).q ≤ stg)
    (hlog : ∀ k t, ((σ k).thr t).log.length ≤ ((σ (k + 1)).thr t).log.length) (k : Nat)
    {B : Nat} (hB : ∀ u ≥ B, ((σ k).thr u).log = []) :
    ∃ J ≥ k, ∀ j ≥ J, OnDisk (fun u => ((σ k).thr u).log.length) (σ j) := by
  have h1 : ∀ B', ∃ j ≥ k, ∀ u < B', ((σ k).thr u).log.length ≤ (byThr u (σ j).encoded).length := by
    intro B'
    induction B' with
    | zero => exact ⟨k, Nat.le_refl _, fun u hu => by omega⟩
    | succ B' ih =>
      obtain ⟨j1, hj1, h1⟩ := ih
      obtain ⟨j2, hj2, h2⟩ := h.encoded hroom hfit hlog B' k _ (Nat.le_refl _)
      have hm : ∀ {i j : Nat}, i ≤ j → ∀ u, (byThr u (σ i).encoded).length ≤ (byThr u (σ j).encoded).length :=
        fun hij u => byThr_prefix (grows (f := fun k => (σ k).encoded) (fun k => (h.hist k).2.2) hij) u
      refine ⟨max j1 j2, by omega, fun u hu => ?_⟩
      by_cases hu' : u = B'
      · subst hu'; exact Nat.le_trans h2 (hm (by omega) _)
      · exact Nat.le_trans (h1 u (by omega)) (hm (by omega) _)
  obtain ⟨j1, hj1, h1⟩ := h1 B
  obtain ⟨j2, hj2, -, h2⟩ := h.reach_empty j1
  obtain ⟨j3, hj3, h3⟩ := h.disk j2
  refine ⟨j3, by omega, fun j hj => h.onDisk (k := j3) (.inr ⟨h3, fun u => ?_⟩) j hj⟩
  by_cases hu : u < B
  · refine Nat.le_trans (h1 u hu) (Nat.le_trans (byThr_prefix
      (grows (f := fun k => (σ k).encoded) (fun k => (h.hist k).2.2) hj2) u) ?_)
    have hg := (h.inv j2).gB h2
    have : (σ j2).encoded = (σ j2).persisted ++ (σ j2).gO := by
      simp only [Rt.encoded, Rt.persisted, hg, List.append_nil]
    simp only [this]
    exact byThr_prefix (grows (f := fun k => (σ k).persisted ++ (σ k).gO) (fun k => (h.hist k).2.1) hj3) u
  · simp only [hB u (by omega)]; exact Nat.zero_le _

end

/-! ## Executions -/

theorem act_sites_pre {cfg : Config} {prog : List Site} {s s' : Rt} {l : Lbl}
    (ha : s.act cfg prog l = .ok s') : s.sites <+: s'.sites := by
  by_cases hl : ∃ t, l = .register t
  · obtain ⟨t, rfl⟩ := hl
    simp only [Rt.act, Rt.actLog] at ha
    repeat' split at ha
    all_goals first
      | (cases ha; exact List.prefix_refl _)
      | (cases ha; exact List.prefix_append _ _)
      | cases ha
  · rw [act_sites_eq ha fun t h => hl ⟨t, h⟩]; exact List.prefix_refl _

/-- From `K` on no thread starts using NanoLog and no call of `setLogFile` returns; threads may log, register
statements, call `sync` and end. -/
def RtRun.BusyFrom {cfg : Config} {prog : List Site} (r : RtRun cfg prog) (K : Nat) : Prop :=
  ∀ j ≥ K, ∀ l, r.lbl j = some l → l.busy = true

theorem RtRun.busy {cfg : Config} {prog : List Site} (hP : ProgOK cfg prog) (hL : LiveOK cfg prog)
    (r : RtRun cfg prog) (hF : r.Fair) {K : Nat} (hb : r.BusyFrom K) (hnd : ∀ k ≥ K, (r.σ k).pc ≠ .dead) :
    ∃ K' ≥ K, Busy cfg (fun k => r.σ (K' + k)) (fun k => r.lbl (K' + k)) := by
  have hact : ∀ k l, r.lbl k = some l → (r.σ k).act cfg prog l = .ok (r.σ (k + 1)) := by
    intro k l hl
    have := r.step k
    rw [hl] at this
    exact this
  have hnone : ∀ k, r.lbl k = none → r.σ (k + 1) = r.σ k := by
    intro k hl
    have := r.step k
    rw [hl] at this
    exact this
  -- statements
  have hpre : ∀ k, (r.σ k).sites <+: (r.σ (k + 1)).sites := by
    intro k
    cases hl : r.lbl k with
    | none => rw [hnone k hl]; exact List.prefix_refl _
    | some l => exact act_sites_pre (hact k l hl)
  have hcnt : ∀ k, (r.σ k).sites.length ≤ prog.length := fun k => ((r.exec k).inv hP).2.ids.count.1
  obtain ⟨K1, hK1, hs1⟩ := eventually_const (f := fun k => prog.length - (r.σ k).sites.length) (K := K) fun k _ => by
    have := (hpre k).length_le
    omega
  have hs : ∀ k ≥ K1, (r.σ (k + 1)).sites = (r.σ k).sites := by
    intro k hk
    have h1 := hs1 k hk
    have h2 := hcnt k
    have h3 := hcnt (k + 1)
    exact ((hpre k).eq_of_length (by omega)).symm
  obtain ⟨K2, hK2, hfresh⟩ := hF.fresh K1 fun j hj => by
    induction j, hj using Nat.le_induction with
    | base => rfl
    | succ j hj ih => rw [hs j hj, ih]
  -- steps
  have hstep : ∀ k ≥ K2, Aside (r.σ k) (r.σ (k + 1)) ∨ ∃ l, r.lbl k = some l ∧ l.ofBg = true ∧
      (Works cfg l (r.σ k) (r.σ (k + 1)) ∨
        (r.σ (k + 1)).bufs.length + ((r.σ (k + 1)).sites.length - (r.σ (k + 1)).pos) <
          (r.σ k).bufs.length + ((r.σ k).sites.length - (r.σ k).pos)) := by
    intro k hk
    obtain ⟨hC, hI⟩ := (r.exec k).inv hP
    cases hl : r.lbl k with
    | none => rw [hnone k hl]; exact .inl (Aside.refl _)
    | some l =>
      have ha := hact k l hl
      have hbl := hb k (by omega) l hl
      cases ho : l.ofBg with
      | false => exact .inl (busy_aside ho hbl ha)
      | true =>
        refine .inr ⟨l, rfl, ho, ?_⟩
        have hsk := hs k (by omega)
        rcases bg_did hP hL hC hI (ofBg_isBg ho).1 (by rintro t jk c rfl; cases hbl)
          (by rintro rfl; exact hfresh k hk hl) ha with ⟨-, ⟨h1, h2, h3⟩ | h1 | ⟨h1, h2⟩⟩ | ⟨-, h1, h2⟩
        · right; rw [h1, hsk]; omega
        · exact .inl (.inl h1)
        · right; rw [h1, hsk]; omega
        · exact .inl (.inr ⟨h1, h2⟩)
  obtain ⟨K3, hK3, hconst⟩ := eventually_const
    (f := fun k => (r.σ k).bufs.length + ((r.σ k).sites.length - (r.σ k).pos)) (K := K2) fun k hk => by
    have hsk := hs k (by omega)
    rcases hstep k hk with h | ⟨l, -, -, h | h⟩
    · rw [h.bufs, h.pos, hsk]
    · rw [(works_keeps h).1, (works_keeps h).2.1, hsk]
    · exact Nat.le_of_lt h
  have hwork : ∀ k ≥ K3, ∀ l, r.lbl k = some l → l.ofBg = true → Works cfg l (r.σ k) (r.σ (k + 1)) := by
    intro k hk l hl ho
    obtain ⟨hC, hI⟩ := (r.exec k).inv hP
    have hbl := hb k (by omega) l hl
    have hsk := hs k (by omega)
    have hck := hconst k hk
    rcases bg_did hP hL hC hI (ofBg_isBg ho).1 (by rintro t jk c rfl; cases hbl)
      (by rintro rfl; exact hfresh k (by omega) hl) (hact k l hl) with ⟨-, ⟨h1, h2, h3⟩ | h1 | ⟨h1, h2⟩⟩ | ⟨-, h1, h2⟩
    · rw [h1, hsk] at hck; omega
    · exact .inl h1
    · rw [h1, hsk] at hck; omega
    · exact .inr ⟨h1, h2⟩
  refine ⟨K3, by omega, ?_⟩
  constructor
  · exact fun k => ((r.exec _).inv hP).1
  · exact fun k => hs (K3 + k) (by omega)
  · exact fun k => hnd (K3 + k) (by omega)
  · intro k
    rcases hstep (K3 + k) (by omega) with h | ⟨l, hl, ho, -⟩
    · exact .inl h
    · exact .inr ⟨l, hl, hwork (K3 + k) (by omega) l hl ho⟩
  · intro k
    obtain ⟨j, hj, h⟩ := hF.bg (K3 + k)
    refine ⟨j - K3, by omega, ?_⟩
    simp only [show K3 + (j - K3) = j by omega, show K3 + (j - K3 + 1) = j + 1 by omega]
    rcases h with ⟨l, h1, h2⟩ | h | ⟨h1, h2, a, h3, h4⟩
    · exact .inl ⟨l, h1, hwork j (by omega) l h1 h2⟩
    · exact absurd h (hnd j (by omega))
    · exact .inr ⟨h1, h2, fun hd => h4 (hd a h3)⟩
  · intro k
    obtain ⟨j, hj, h⟩ := hF.disk (K3 + k)
    refine ⟨j - K3, by omega, ?_⟩
    simp only [show K3 + (j - K3) = j by omega]
    exact h
  · intro k
    cases hl : r.lbl (K3 + k) with
    | none =>
      have := hnone _ hl
      simp only [← Nat.add_assoc, this]
      exact ⟨List.prefix_refl _, List.prefix_refl _, List.prefix_refl _⟩
    | some l => exact act_hist ((r.exec _).inv hP).1 (hact _ l hl)

/-! ## Decoding -/

/-- If the outstanding write is complete, it is decoded as well. -/
theorem cur_decode_done {cfg : Config} {s : Rt} (h : CurFile cfg s) (hc : RtInv s) (hd : s.ioDone) :
    ∃ out, decodeFile (cfg.staging + 9) s.disk = some out ∧
      List.Forall₂ (From s.sites s.bids) (s.gD ++ s.gO) out := by
  obtain ⟨c, jk, rsD, rsO, rsB, rs', k1, k2, e1, e2, -, ⟨e4, -⟩, -, e6⟩ := h
  obtain ⟨msD, d1, d2, d3⟩ := e1
  obtain ⟨msO, o1, o2, o3⟩ := e2
  have hdisk : s.disk = recBytes (rsD ++ rsO) := by
    cases ha : s.aio with
    | none =>
      rw [ha] at e6
      obtain ⟨rfl, hd⟩ := e6
      rw [hd, List.append_nil]
    | some a =>
      rw [ha] at e6
      obtain ⟨hb, hk⟩ := e6
      have h1 := hc.aioOK a ha
      rw [hk, recBytes_append, hb, List.take_of_length_le (by rw [hd a ha, h1.2.1])]
  have hh : Holds (cfg.staging + 9) c [] (rsD ++ rsO) (msD ++ msO) :=
    d1.append (by rw [d2]; exact o1)
  have hf : List.Forall₂ (From s.sites s.bids) (s.gD ++ s.gO) (msD ++ msO) :=
    Forall₂.app (d3.imp fun _ _ h => ⟨c, h⟩) (o3.imp fun _ _ h => ⟨c, h⟩)
  refine ⟨msD ++ msO, ?_, hf⟩
  rw [hdisk]
  cases hr : rsD ++ rsO with
  | nil =>
    rw [hr] at hh
    cases hm : msD ++ msO with
    | nil => simpa [recBytes] using decodeFile_nil _
    | cons m ms => rw [hm] at hh; cases hh
  | cons r rs1 =>
    rw [hr] at e4 hh
    have : r = .ckpt jk c := by
      simp only [List.cons_append, List.cons.injEq] at e4; exact e4.1
    subst this
    exact decodeFile_complete hh

theorem files_decode_done {cfg : Config} {prog : List Site} {s : Rt} (h : FInv cfg prog s) (hc : RtInv s)
    (hd : s.ioDone) :
    ∃ outs : List (List OutMsg), s.files.map (decodeFile (cfg.staging + 9)) = outs.map some ∧
      List.Forall₂ (From s.sites s.bids) (s.closed.flatMap (·.2) ++ s.gD ++ s.gO) outs.flatten := by
  obtain ⟨out, h1, h2⟩ := cur_decode_done h.cur hc hd
  have hc : ∀ l : List (List Byte × List (Nat × LogCall)),
      (∀ p ∈ l, ClosedFile cfg s.sites s.bids p.1 p.2) →
      ∃ outs : List (List OutMsg), l.map (fun p => decodeFile (cfg.staging + 9) p.1) = outs.map some ∧
        List.Forall₂ (From s.sites s.bids) (l.flatMap (·.2)) outs.flatten := by
    intro l hl
    induction l with
    | nil => exact ⟨[], rfl, .nil⟩
    | cons p l ih =>
      obtain ⟨os, i1, i2⟩ := ih fun p hp => hl p (by simp [hp])
      obtain ⟨o, j1, j2⟩ := closed_decode (hl p (by simp))
      exact ⟨o :: os, by simp [j1, i1], by simpa using Forall₂.app j2 i2⟩
  obtain ⟨os, i1, i2⟩ := hc s.closed h.closed
  refine ⟨os ++ [out], ?_, ?_⟩
  · rw [Rt.files, List.map_append, List.map_map, List.map_append]
    congr 1
    simp [h1]
  · rw [List.flatten_append, List.append_assoc]
    exact Forall₂.app i2 (by simpa using h2)

/-- Messages on disk are decoded. -/
theorem onDisk_decode {cfg : Config} {prog : List Site} {s : Rt} (h : FInv cfg prog s) (hc : RtInv s)
    {L : Nat → Nat} (hd : OnDisk L s) :
    ∃ outs : List (List OutMsg), s.files.map (decodeFile (cfg.staging + 9)) = outs.map some ∧
      ∃ g, List.Forall₂ (From s.sites s.bids) g outs.flatten ∧ ∀ u, L u ≤ (byThr u g).length := by
  rcases hd with hd | ⟨hd, hL⟩
  · obtain ⟨outs, j, h1, h2⟩ := files_decode h
    exact ⟨outs, h1, _, h2, fun u => Nat.le_trans (hd u) (byThr_prefix (List.prefix_append _ _) u)⟩
  · obtain ⟨outs, h1, h2⟩ := files_decode_done h hc hd
    exact ⟨outs, h1, _, h2, hL⟩

end NanoLog
