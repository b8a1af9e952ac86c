import Verif.StagingSpec

/-! Invariant of the staging buffer.

The published bytes are split into `base` (laps of the ring given up), `old` (the previous
lap of the producer) and `cur` (its present lap).  Three flags say who has arrived in the
present lap: `m` the position in memory `memP`, `c` the consumer, `h` the position in memory
`memC`. -/

namespace NanoLog

theorem wsub_eq {a b : Nat} (h : b ≤ a) (ha : a < 2 ^ 64) : wsub a b = a - b := by
  unfold wsub
  rw [show a + 2 ^ 64 - b = (a - b) + 2 ^ 64 by omega, Nat.add_mod_right, Nat.mod_eq_of_lt (by omega)]

/-! ## Pending stores -/

def applyAll (buf : List Store) (s : SB) : SB := buf.foldl SB.apply s

theorem settle_eq (s : SB) : s.settle = applyAll s.buf s := rfl

theorem applyAll_append (a b : List Store) (s : SB) :
    applyAll (a ++ b) s = applyAll b (applyAll a s) := by simp [applyAll]

theorem apply_comm {v w : Store} (h : v.sameVar w = false) (s : SB) :
    (s.apply v).apply w = (s.apply w).apply v := by
  cases v <;> cases w <;> simp_all [Store.sameVar, SB.apply]
  funext j
  split <;> split <;> simp_all

theorem applyAll_comm {a : List Store} {w : Store} (h : ∀ v ∈ a, v.sameVar w = false) (s : SB) :
    (applyAll a s).apply w = applyAll a (s.apply w) := by
  induction a generalizing s with
  | nil => rfl
  | cons v a ih =>
    have h1 : applyAll (v :: a) s = applyAll a (s.apply v) := rfl
    have h2 : applyAll (v :: a) (s.apply w) = applyAll a ((s.apply w).apply v) := rfl
    rw [h1, h2, ih (fun x hx => h x (by simp [hx])), apply_comm (h v (by simp))]

/-- The two memories agree. -/
structure SameMem (s t : SB) : Prop where
  mem : s.mem = t.mem
  memP : s.memP = t.memP
  memE : s.memE = t.memE
  memD : s.memD = t.memD
  vis : s.vis = t.vis

theorem SameMem.refl (s : SB) : SameMem s s := ⟨rfl, rfl, rfl, rfl, rfl⟩

theorem SameMem.apply {s t : SB} (h : SameMem s t) (w : Store) : SameMem (s.apply w) (t.apply w) := by
  obtain ⟨h1, h2, h3, h4, h5⟩ := h
  cases w <;> exact ⟨by simp [SB.apply, h1], by simp [SB.apply, h2], by simp [SB.apply, h3],
    by simp [SB.apply, h4], by simp [SB.apply, h5]⟩

theorem SameMem.applyAll {s t : SB} (h : SameMem s t) (b : List Store) :
    SameMem (applyAll b s) (applyAll b t) := by
  induction b generalizing s t with
  | nil => exact h
  | cons w b ih => exact ih (h.apply w)

theorem applyAll_memE_none {b : List Store} (s : SB) (h : ∀ e, Store.setE e ∉ b) :
    (applyAll b s).memE = s.memE := by
  induction b generalizing s with
  | nil => rfl
  | cons w b ih =>
    have h1 : (applyAll (w :: b) s).memE = (applyAll b (s.apply w)).memE := rfl
    rw [h1, ih _ (fun e he => h e (by simp [he]))]
    cases w <;> simp_all [SB.apply]

theorem applyAll_mem_none {b : List Store} (s : SB) (i : Nat) (h : ∀ x, Store.data i x ∉ b) :
    (applyAll b s).mem i = s.mem i := by
  induction b generalizing s with
  | nil => rfl
  | cons w b ih =>
    have h1 : (applyAll (w :: b) s).mem i = (applyAll b (s.apply w)).mem i := rfl
    rw [h1, ih _ (fun e he => h e (by simp [he]))]
    cases w with
    | data j x =>
      have : i ≠ j := by rintro rfl; exact h x (by simp)
      simp [SB.apply, this]
    | _ => rfl

/-! ## Shape of the pending stores -/

/-- Offset `i` holds no byte that is visible (position `p`, in the present lap iff `m`) and
not consumed. -/
def Outside (c : Bool) (cp oldLen : Nat) (m : Bool) (p i : Nat) : Prop :=
  (c = true → ¬ (cp ≤ i ∧ i < p)) ∧
  (c = false → m = true → ¬ (cp ≤ i ∧ i < oldLen) ∧ ¬ i < p) ∧
  (c = false → m = false → ¬ (cp ≤ i ∧ i < p))

/-- The pending stores lead from position `(m, p)` to `(m', p')`. -/
def Path (c : Bool) (cp base oldLen : Nat) : Bool → Nat → List Store → Bool → Nat → Prop
  | m, p, [], m', p' => m = m' ∧ p = p'
  | m, p, .data i _ :: r, m', p' => Outside c cp oldLen m p i ∧ Path c cp base oldLen m p r m' p'
  | m, p, .setP v len :: r, m', p' =>
    (p ≤ v ∧ (m = false → v ≤ oldLen) ∧ len = base + (if m then oldLen + v else v) ∧
      Path c cp base oldLen m v r m' p') ∨
    (m = false ∧ v = 0 ∧ p = oldLen ∧ len = base + oldLen ∧ Path c cp base oldLen true 0 r m' p')
  | m, p, .setE _ :: r, m', p' => (c = false → m = false) ∧ Path c cp base oldLen m p r m' p'
  | m, p, .fence :: r, m', p' => Path c cp base oldLen m p r m' p'
  | m, p, .setD :: r, m', p' => Path c cp base oldLen m p r m' p'

theorem Path.append {c cp base oldLen m p a m1 p1 b m2 p2}
    (h1 : Path c cp base oldLen m p a m1 p1) (h2 : Path c cp base oldLen m1 p1 b m2 p2) :
    Path c cp base oldLen m p (a ++ b) m2 p2 := by
  induction a generalizing m p with
  | nil => obtain ⟨rfl, rfl⟩ := h1; exact h2
  | cons w a ih =>
    cases w with
    | data i x => exact ⟨h1.1, ih h1.2⟩
    | setP v len =>
      rcases h1 with ⟨x1, x2, x3, x4⟩ | ⟨x1, x2, x3, x4, x5⟩
      · exact Or.inl ⟨x1, x2, x3, ih x4⟩
      · exact Or.inr ⟨x1, x2, x3, x4, ih x5⟩
    | setE v => exact ⟨h1.1, ih h1.2⟩
    | fence => exact ih h1
    | setD => exact ih h1

theorem Path.le {c cp base oldLen p a m' p'} (h : Path c cp base oldLen true p a m' p') :
    m' = true ∧ p ≤ p' := by
  induction a generalizing p with
  | nil => obtain ⟨rfl, rfl⟩ := h; exact ⟨rfl, Nat.le_refl _⟩
  | cons w a ih =>
    cases w with
    | data i x => exact ih h.2
    | setP v len =>
      rcases h with ⟨x1, x2, x3, x4⟩ | ⟨x1, x2, x3, x4⟩
      · have := ih x4; exact ⟨this.1, by omega⟩
      · simp at x1
    | setE v => exact ih h.2
    | fence => exact ih h
    | setD => exact ih h

theorem Path.le_old {c cp base oldLen p a p'} (h : Path c cp base oldLen false p a true p') :
    p ≤ oldLen := by
  induction a generalizing p with
  | nil => simp [Path] at h
  | cons w a ih =>
    cases w with
    | data i x => exact ih h.2
    | setP v len =>
      rcases h with ⟨x1, x2, x3, x4⟩ | ⟨x1, x2, x3, x4⟩
      · have := x2 rfl; omega
      · omega
    | setE v => exact ih h.2
    | fence => exact ih h
    | setD => exact ih h

/-- A visible position further on exposes more. -/
theorem Outside.mono {c cp oldLen m p i} (h : Outside c cp oldLen m p i) {p0 : Nat} (hp : p0 ≤ p) :
    Outside c cp oldLen m p0 i := by
  obtain ⟨h1, h2, h3⟩ := h
  refine ⟨fun a b => h1 a ⟨b.1, by omega⟩, fun a b => ⟨(h2 a b).1, fun h => (h2 a b).2 (by omega)⟩,
    fun a b h => h3 a b ⟨h.1, by omega⟩⟩

theorem Outside.wrap {cp oldLen p i} (h : Outside false cp oldLen true p i) {p0 : Nat}
    (hp : p0 ≤ oldLen) : Outside false cp oldLen false p0 i := by
  obtain ⟨h1, h2, h3⟩ := h
  exact ⟨by simp, by simp, fun _ _ h => (h2 rfl rfl).1 ⟨h.1, by omega⟩⟩

/-- The consumer advances. -/
theorem Outside.advance {c cp oldLen m p i} (h : Outside c cp oldLen m p i) {cp' : Nat}
    (hp : cp ≤ cp') : Outside c cp' oldLen m p i := by
  obtain ⟨h1, h2, h3⟩ := h
  refine ⟨fun a b => h1 a ⟨by omega, b.2⟩,
    fun a b => ⟨fun h => (h2 a b).1 ⟨by omega, h.2⟩, (h2 a b).2⟩,
    fun a b h => h3 a b ⟨by omega, h.2⟩⟩

/-- Every pending byte lies outside of what is visible now. -/
theorem Path.outside {c cp base oldLen m p a m' p'} (hcm : c = true → m = true)
    (h : Path c cp base oldLen m p a m' p') {i : Nat} {x : Byte} (hi : Store.data i x ∈ a) :
    Outside c cp oldLen m p i := by
  induction a generalizing m p with
  | nil => simp at hi
  | cons w a ih =>
    cases w with
    | data j y =>
      rcases List.mem_cons.1 hi with h1 | h1
      · simp only [Store.data.injEq] at h1; obtain ⟨rfl, rfl⟩ := h1; exact h.1
      · exact ih hcm h.2 h1
    | setP v len =>
      have h1 : Store.data i x ∈ a := by simpa using hi
      rcases h with ⟨x1, x2, x3, x4⟩ | ⟨x1, x2, x3, x4, x5⟩
      · exact (ih hcm x4 h1).mono x1
      · subst x1
        have hc : c = false := by cases c <;> simp_all
        subst hc
        exact (ih (by simp) x5 h1).wrap (by omega)
    | setE v => exact ih hcm h.2 (by simpa using hi)
    | fence => exact ih hcm h (by simpa using hi)
    | setD => exact ih hcm h (by simpa using hi)

theorem Path.advance {c cp base oldLen m p a m' p'} (h : Path c cp base oldLen m p a m' p')
    {cp' : Nat} (hp : cp ≤ cp') : Path c cp' base oldLen m p a m' p' := by
  induction a generalizing m p with
  | nil => exact h
  | cons w a ih =>
    cases w with
    | data i x => exact ⟨h.1.advance hp, ih h.2⟩
    | setP v len =>
      rcases h with ⟨x1, x2, x3, x4⟩ | ⟨x1, x2, x3, x4, x5⟩
      · exact Or.inl ⟨x1, x2, x3, ih x4⟩
      · exact Or.inr ⟨x1, x2, x3, x4, ih x5⟩
    | setE v => exact ⟨h.1, ih h.2⟩
    | fence => exact ih h
    | setD => exact ih h

/-- The consumer rolls over. -/
theorem Path.roll {cp base oldLen p a m' p'} (h : Path false cp base oldLen true p a m' p') :
    Path true 0 base oldLen true p a m' p' := by
  induction a generalizing p with
  | nil => exact h
  | cons w a ih =>
    cases w with
    | data i x =>
      refine ⟨⟨fun _ hh => (h.1.2.1 rfl rfl).2 hh.2, by simp, by simp⟩, ih h.2⟩
    | setP v len =>
      rcases h with ⟨x1, x2, x3, x4⟩ | ⟨x1, x2, x3, x4, x5⟩
      · exact Or.inl ⟨x1, by simp, x3, ih x4⟩
      · simp at x1
    | setE v => exact ⟨by simp, ih h.2⟩
    | fence => exact ih h
    | setD => exact ih h

/-- The producer wraps around: its present lap becomes the old one. -/
theorem Path.wrapAround {cp base oldLen p a p'} {n : Nat} (hn : p' ≤ n)
    (h : Path true cp base oldLen true p a true p') :
    Path false cp (base + oldLen) n false p a false p' := by
  induction a generalizing p with
  | nil => exact ⟨rfl, h.2⟩
  | cons w a ih =>
    cases w with
    | data i x =>
      refine ⟨⟨by simp, by simp, fun _ _ hh => h.1.1 rfl hh⟩, ih h.2⟩
    | setP v len =>
      rcases h with ⟨x1, x2, x3, x4⟩ | ⟨x1, x2, x3, x4, x5⟩
      · refine Or.inl ⟨x1, fun _ => ?_, ?_, ih x4⟩
        · have := (Path.le x4).2; omega
        · simp only [if_true] at x3; simp [x3]; omega
      · simp at x1
    | setE v => exact ⟨fun _ => rfl, ih h.2⟩
    | fence => exact ih h
    | setD => exact ih h

theorem Path.no_setE {cp base oldLen p a m' p'} (h : Path false cp base oldLen true p a m' p') :
    ∀ e, Store.setE e ∉ a := by
  induction a generalizing p with
  | nil => simp
  | cons w a ih =>
    intro e he
    cases w with
    | data i x => exact ih h.2 e (by simpa using he)
    | setP v len =>
      rcases h with ⟨x1, x2, x3, x4⟩ | ⟨x1, x2, x3, x4, x5⟩
      · exact ih x4 e (by simpa using he)
      · simp at x1
    | setE v => simpa using h.1 rfl
    | fence => exact ih h e (by simpa using he)
    | setD => exact ih h e (by simpa using he)

/-- Remove a store that is not to `producerPos`. -/
theorem Path.erase {c cp base oldLen m p a w b m' p'} (hw : ∀ v l, w ≠ .setP v l)
    (h : Path c cp base oldLen m p (a ++ w :: b) m' p') :
    Path c cp base oldLen m p (a ++ b) m' p' := by
  induction a generalizing m p with
  | nil =>
    cases w with
    | setP v l => exact absurd rfl (hw v l)
    | data i x => exact h.2
    | setE v => exact h.2
    | fence => exact h
    | setD => exact h
  | cons v a ih =>
    cases v with
    | data i x => exact ⟨h.1, ih h.2⟩
    | setP v len =>
      rcases h with ⟨x1, x2, x3, x4⟩ | ⟨x1, x2, x3, x4, x5⟩
      · exact Or.inl ⟨x1, x2, x3, ih x4⟩
      · exact Or.inr ⟨x1, x2, x3, x4, ih x5⟩
    | setE v => exact ⟨h.1, ih h.2⟩
    | fence => exact ih h
    | setD => exact ih h

/-- A store to `producerPos` directly follows a fence (which may be gone). -/
def Fenced (buf : List Store) : Prop :=
  ∀ a v l b, buf = a ++ .setP v l :: b → a = [] ∨ ∃ a', a = a' ++ [.fence]

theorem Fenced.append_other {buf : List Store} (h : Fenced buf) {w : Store}
    (hw : ∀ v l, w ≠ .setP v l) : Fenced (buf ++ [w]) := by
  intro a v l b hb
  rcases List.eq_nil_or_concat b with rfl | ⟨b', x, rfl⟩
  · have := (List.append_inj' hb rfl).2
    simp only [List.cons.injEq, and_true] at this
    exact absurd this (hw v l)
  · rw [List.concat_eq_append, ← List.cons_append, ← List.append_assoc] at hb
    exact h _ _ _ _ (List.append_inj' hb rfl).1

theorem Fenced.append_setP {buf : List Store} (h : Fenced buf) (v l : Nat) :
    Fenced (buf ++ [.fence, .setP v l]) := by
  intro a v' l' b hb
  have h1 : Fenced (buf ++ [.fence]) := h.append_other (by simp)
  rcases List.eq_nil_or_concat b with rfl | ⟨b', x, rfl⟩
  · rw [show buf ++ [Store.fence, .setP v l] = (buf ++ [.fence]) ++ [.setP v l] by simp] at hb
    exact Or.inr ⟨buf, (List.append_inj' hb rfl).1.symm⟩
  · rw [show buf ++ [Store.fence, .setP v l] = (buf ++ [.fence]) ++ [.setP v l] by simp,
      List.concat_eq_append, ← List.cons_append, ← List.append_assoc] at hb
    exact h1 _ _ _ _ (List.append_inj' hb rfl).1

theorem Fenced.head {w : Store} {buf : List Store} (h : Fenced (w :: buf)) : Fenced buf := by
  intro a v l b hb
  rcases h (w :: a) v l b (by rw [hb]; rfl) with h1 | ⟨a', ha⟩
  · simp at h1
  · cases a' with
    | nil =>
      simp only [List.nil_append, List.cons.injEq] at ha
      exact Or.inl ha.2
    | cons x a' =>
      rw [List.cons_append, List.cons.injEq] at ha
      exact Or.inr ⟨a', ha.2⟩

theorem Fenced.erase {x : List Store} {w : Store} {y : List Store} (h : Fenced (x ++ w :: y))
    (hw : w ≠ .fence) : Fenced (x ++ y) := by
  intro a v l b hb
  rcases List.append_eq_append_iff.1 hb with ⟨z, rfl, hz⟩ | ⟨z, rfl, hz⟩
  · -- a = x ++ z, y = z ++ setP :: b
    subst hz
    rcases h (x ++ w :: z) v l b (by simp) with h1 | ⟨a', ha⟩
    · simp at h1
    · rcases List.eq_nil_or_concat z with rfl | ⟨z', q, rfl⟩
      · have := (List.append_inj' ha rfl).2
        simp only [List.cons.injEq, and_true] at this
        exact absurd this hw
      · rw [List.concat_eq_append] at ha ⊢
        rw [← List.cons_append, ← List.append_assoc] at ha
        have := (List.append_inj' ha rfl).2
        rw [this]
        exact Or.inr ⟨x ++ z', by simp⟩
  · -- x = a ++ z, setP :: b = z ++ y
    cases z with
    | nil =>
      simp only [List.append_nil, List.nil_append] at hz h
      rw [← hz] at h
      rcases h (a ++ [w]) v l b (by simp) with h1 | ⟨a', ha⟩
      · simp at h1
      · have := (List.append_inj' ha rfl).2
        simp only [List.cons.injEq, and_true] at this
        exact absurd this hw
    | cons q z =>
      rw [List.cons_append, List.cons.injEq] at hz
      obtain ⟨rfl, hz⟩ := hz
      exact h a v l (z ++ w :: y) (by simp)

/-- What a commit does to the list of pending stores. -/
theorem commit_split {mm : MemModel} {buf : List Store} {k : Nat} (hf : Fenced buf)
    (hc : canCommit mm buf k = true) {w : Store} (hw : buf[k]? = some w) :
    ∃ a b, buf = a ++ w :: b ∧ buf.eraseIdx k = a ++ b ∧ (∀ v ∈ a, v.sameVar w = false) ∧
      (mm = .tso → a = []) ∧ (w = .fence → a = []) ∧ (∀ v l, w = .setP v l → a = []) := by
  have hk : k < buf.length := by
    rw [List.getElem?_eq_some_iff] at hw; exact hw.1
  have hb : buf = buf.take k ++ w :: buf.drop (k + 1) := by
    rw [List.getElem?_eq_some_iff] at hw
    obtain ⟨h, rfl⟩ := hw
    rw [← List.drop_eq_getElem_cons h, List.take_append_drop]
  refine ⟨buf.take k, buf.drop (k + 1), hb, List.eraseIdx_eq_take_drop_succ _ _, ?_⟩
  cases mm with
  | tso =>
    simp only [canCommit, decide_eq_true_eq] at hc
    subst hc
    simp
  | pso =>
    simp only [canCommit, hw] at hc
    have key : (w = .fence → k = 0) ∧ (w ≠ .fence → ∀ v ∈ buf.take k, v ≠ .fence ∧ v.sameVar w = false) := by
      cases w with
      | fence => exact ⟨fun _ => by simpa using hc, by simp⟩
      | _ => exact ⟨by simp, fun _ v hv => by simpa using List.all_eq_true.1 hc v hv⟩
    refine ⟨?_, by simp, fun h => by simp [key.1 h], ?_⟩
    · intro v hv
      by_cases hwf : w = .fence
      · simp [key.1 hwf] at hv
      · exact (key.2 hwf v hv).2
    · rintro v l rfl
      rcases hf _ _ _ _ hb with h | ⟨a', ha⟩
      · exact h
      · exfalso
        have := (key.2 (by simp) .fence (by rw [ha]; simp)).1
        exact this rfl

/-! ## The invariant -/

/-- History not recorded in the state. -/
structure Ghost where
  base : List Byte
  old : List Byte
  cur : List Byte
  h : Bool
  c : Bool
  m : Bool
  A : List Nat
  B : List Nat

/-- The lap the consumer is in. -/
def Ghost.lap (g : Ghost) : List Byte := if g.c then g.cur else g.old

/-- End of what is visible to the consumer in its lap. -/
def SB.vlim (s : SB) (g : Ghost) : Nat :=
  if g.c then s.memP else if g.m then g.old.length else s.memP

structure Core (N : Nat) (s : SB) (g : Ghost) : Prop where
  posN : 0 < N
  maxN : N < 2 ^ 64
  hc : g.h = true → g.c = true
  cm : g.c = true → g.m = true
  pub : s.pub = g.base ++ g.old ++ g.cur
  pp : g.cur.length = s.pp
  ppN : s.pp < N
  oldN : g.old.length < N
  got : s.got = g.base ++ (if g.c then g.old ++ g.cur.take s.cp else g.old.take s.cp)
  cpv : s.cp ≤ s.vlim g
  ahead : g.c = false → s.pp < s.cp
  vis : s.vis = g.base.length + (if g.m then g.old.length + s.memP else s.memP)
  endE : g.c = false → (applyAll s.buf s).memE = g.old.length
  limT : g.h = true → s.pp + s.minFree ≤ N
  limF : g.h = false → s.pp + s.minFree ≤ s.memC ∧ s.pp < s.memC
  hist : s.memC :: s.cbuf = g.A ++ g.B
  sA : g.A.Pairwise (· ≤ ·)
  sB : g.B.Pairwise (· ≤ ·)
  hA : g.h = true → g.A = []
  hA' : g.h = false → g.A ≠ []
  cB : g.c = false → g.B = []
  cB' : g.c = true → g.B ≠ []
  last : (g.A ++ g.B).getLast? = some s.cp
  leA : ∀ a ∈ g.A, a ≤ g.old.length
  fenced : Fenced s.buf
  path : Path g.c s.cp g.base.length g.old.length g.m s.memP s.buf true s.pp
  dataOld : g.c = false → ∀ i, s.cp ≤ i → i < g.old.length →
    g.old[i]? = some ((applyAll s.buf s).mem i)
  dataCur : ∀ i, (g.c = true → s.cp ≤ i) → i < s.pp →
    g.cur[i]? = some ((applyAll s.buf s).mem i)

def PInv (N : Nat) (s : SB) (g : Ghost) : Prop :=
  match s.pc with
  | .idle => True
  | .loop _ => True
  | .loaded _ c => (c ≤ s.pp → g.h = true ∧ c ≤ s.memC) ∧
      (s.pp < c → c ≤ N ∧ (g.h = false → c ≤ s.memC))
  | .wrapping _ c => g.h = true ∧ c ≤ s.memC ∧ s.minFree = N - s.pp ∧
      (applyAll s.buf s).memE = s.pp
  | .reserved n img => n < s.minFree ∧
      ∀ i b, img i = some b → i < n ∧ (applyAll s.buf s).mem (s.pp + i) = b
  | .exited => True

def CInv (s : SB) (g : Ghost) : Prop :=
  match s.cc with
  | .idle => True
  | .loaded p v => (p < s.cp → g.c = false ∧ g.m = true ∧ p ≤ s.memP ∧
        v = g.base.length + g.old.length + p) ∧
      (s.cp ≤ p → p ≤ s.vlim g ∧ v = g.base.length + (if g.c then g.old.length + p else p))
  | .rolled p v => g.c = true ∧ s.cp = 0 ∧ p ≤ s.memP ∧ v = g.base.length + g.old.length + p
  | .holding avail view => s.cp + avail ≤ s.vlim g ∧
      ∀ i b, view i = some b → i < avail ∧ g.lap[s.cp + i]? = some b
  | .dead => s.memD = true
  | .freed => True

/-- Facts about the exit of the thread and the release of the buffer. -/
def DInv (mm : MemModel) (s : SB) : Prop :=
  (match s.pc with
   | .exited => mm = .tso → (s.memD = true ∧ s.buf = []) ∨
       (s.memD = false ∧ ∃ a, s.buf = a ++ [.setD] ∧ .setD ∉ a)
   | _ => s.memD = false ∧ .setD ∉ s.buf) ∧
  (match s.cc with
   | .freed => s.memD = true ∧ (mm = .tso → s.got = s.pub)
   | _ => True)

structure SInv (mm : MemModel) (N : Nat) (s : SB) (g : Ghost) : Prop where
  core : Core N s g
  p : PInv N s g
  c : CInv s g
  d : DInv mm s

theorem SInv.init (mm : MemModel) {N : Nat} (h0 : 0 < N) (hN : N < 2 ^ 64) :
    SInv mm N (SB.init N) ⟨[], [], [], true, true, true, [], [0]⟩ := by
  refine ⟨⟨h0, hN, ?_, ?_, ?_, ?_, ?_, ?_, ?_, ?_, ?_, ?_, ?_, ?_, ?_, ?_, ?_, ?_, ?_, ?_, ?_, ?_,
    ?_, ?_, ?_, ?_, ?_, ?_⟩, ?_, ?_, ?_⟩ <;>
    simp [SB.init, SB.vlim, PInv, CInv, DInv, Fenced, Path, h0]

/-! ## Consequences -/

theorem Core.memC_le {N s g} (h : Core N s g) (hh : g.h = g.c) : s.memC ≤ s.cp := by
  have hl := h.last
  have key : ∀ l : List Nat, l.Pairwise (· ≤ ·) → s.memC :: s.cbuf = l → l.getLast? = some s.cp →
      s.memC ≤ s.cp := by
    intro l hs hl hlast
    subst hl
    rcases List.eq_nil_or_concat s.cbuf with h1 | ⟨l', x, h1⟩
    · rw [h1] at hlast; simp at hlast; omega
    · rw [h1, List.concat_eq_append, ← List.cons_append, List.getLast?_append] at hlast
      simp at hlast
      rw [h1] at hs
      have := (List.pairwise_cons.1 hs).1 x (by simp)
      omega
  cases hc : g.c with
  | true =>
    rw [hc] at hh
    rw [h.hA hh, List.nil_append] at hl
    exact key g.B h.sB (by rw [h.hist, h.hA hh, List.nil_append]) hl
  | false =>
    rw [h.cB hc, List.append_nil] at hl
    exact key g.A h.sA (by rw [h.hist, h.cB hc, List.append_nil]) hl

theorem Core.cp_pp {N s g} (h : Core N s g) (hc : g.c = true) : s.cp ≤ s.memP ∧ s.memP ≤ s.pp := by
  have h1 := h.cpv
  simp only [SB.vlim, hc, if_true] at h1
  have h2 := h.path
  rw [h.cm hc] at h2
  exact ⟨h1, h2.le.2⟩

theorem Core.cp_old {N s g} (h : Core N s g) (hc : g.c = false) : s.cp ≤ g.old.length := by
  have h1 := h.cpv
  simp only [SB.vlim, hc] at h1
  cases hm : g.m with
  | true => simpa [hm] using h1
  | false =>
    have := h.path
    rw [hm] at this
    have := this.le_old
    simp [hm] at h1
    omega

theorem Core.memC_pos {N s g} (h : Core N s g) (hh : g.h = false) (hc : g.c = false) :
    s.memC ≤ s.cp := h.memC_le (by rw [hh, hc])

/-- Space that may be reserved contains no unread byte. -/
theorem Core.room {N s g} (h : Core N s g) {n : Nat} (hn : n < s.minFree) :
    s.pp + n < N ∧ (g.c = false → s.pp + n < s.cp) := by
  cases hh : g.h with
  | true =>
    have := h.limT hh
    exact ⟨by omega, fun hc => by rw [h.hc hh] at hc; simp at hc⟩
  | false =>
    have h1 := (h.limF hh).1
    have h2 : s.memC ≤ g.old.length := by
      apply h.leA
      have := h.hA' hh
      have h3 := h.hist
      cases hA : g.A with
      | nil => exact absurd hA this
      | cons a l => rw [hA] at h3; simp at h3; simp [h3.1]
    have := h.oldN
    refine ⟨by omega, fun hc => ?_⟩
    have := h.memC_pos hh hc
    omega

end NanoLog
