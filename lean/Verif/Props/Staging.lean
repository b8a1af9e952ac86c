import Verif.StagingSteps

/-!
# C07–C11: the staging buffer

`N` is the size of the ring.  All theorems hold for every interleaving of the single loads
and stores of the two threads, under both memory models unless stated otherwise.
-/

namespace NanoLog

theorem slice_eq {f : Nat → Byte} {l : List Byte} {a b : Nat} (hb : b = l.length)
    (h : ∀ i, a ≤ i → i < b → l[i]? = some (f i)) : slice f a b = l.drop a := by
  apply List.ext_getElem?
  intro i
  unfold slice
  rw [List.getElem?_map, List.getElem?_drop]
  rcases Nat.lt_or_ge (a + i) b with hi | hi
  · rw [List.getElem?_range' (by omega), h _ (by omega) hi]; simp
  · rw [List.getElem?_eq_none (by simp; omega), List.getElem?_eq_none (by omega)]; rfl

theorem Core.fifo {N s g} (h : Core N s g) : s.got ++ s.unread = s.pub := by
  have hg := h.got
  unfold SB.unread
  rw [settle_eq]
  cases hc : g.c with
  | true =>
    have := h.cp_pp hc
    rw [if_pos (by omega), slice_eq h.pp.symm fun i h1 h2 => h.dataCur i (fun _ => h1) h2]
    simp only [hc, if_true] at hg
    rw [hg, h.pub]; simp
  | false =>
    have := h.ahead hc
    rw [if_neg (by omega), slice_eq (h.endE hc) fun i h1 h2 => h.dataOld hc i h1 (by
        rw [h.endE hc] at h2; exact h2),
      slice_eq h.pp.symm fun i h1 h2 => h.dataCur i (fun h' => by rw [hc] at h'; simp at h') h2]
    simp only [hc] at hg
    rw [hg, h.pub]
    simp only [Bool.false_eq_true, if_false, List.drop_zero]
    rw [← List.append_assoc, List.append_assoc g.base, List.take_append_drop]

/-- **C07**: in every reachable state the bytes consumed, followed by what lies in the ring
between the two positions, are the bytes published: nothing lost, duplicated, reordered or
corrupted. -/
theorem C07_fifo {mm : MemModel} {N : Nat} {s : SB} (h0 : 0 < N) (hN : N < 2 ^ 64)
    (h : SB.Reachable mm N s) : s.got ++ s.unread = s.pub := by
  obtain ⟨g, hg⟩ := Reachable.inv h0 hN h
  exact hg.core.fifo

/-- **C07**: the bytes consumed are a prefix of those published. -/
theorem C07_prefix {mm : MemModel} {N : Nat} {s : SB} (h0 : 0 < N) (hN : N < 2 ^ 64)
    (h : SB.Reachable mm N s) : s.got <+: s.pub :=
  ⟨s.unread, C07_fifo h0 hN h⟩

/-- **C07**: every byte the background thread has looked at (whether consumed or not) is the
byte published at that place of the stream. -/
theorem C07_view {mm : MemModel} {N : Nat} {s : SB} (h0 : 0 < N) (hN : N < 2 ^ 64)
    (h : SB.Reachable mm N s) {avail : Nat} {view : Nat → Option Byte}
    (hc : s.cc = .holding avail view) {i : Nat} {b : Byte} (hv : view i = some b) :
    s.pub[s.got.length + i]? = some b := by
  obtain ⟨g, hg⟩ := Reachable.inv h0 hN h
  have hcc := hg.c
  simp only [CInv, hc] at hcc
  obtain ⟨h1, h2⟩ := hcc
  obtain ⟨h3, h4⟩ := h2 i b hv
  have hgot := hg.core.got
  have hlen : s.cp + i < g.lap.length := (List.getElem?_eq_some_iff.1 h4).1
  cases hct : g.c with
  | true =>
    simp only [Ghost.lap, hct, if_true] at h4 hgot hlen
    have hl : s.got.length = g.base.length + g.old.length + s.cp := by
      rw [hgot]; simp; omega
    rw [hg.core.pub, List.getElem?_append_right (by simp; omega), ← h4]
    congr 1
    simp; omega
  | false =>
    simp only [Ghost.lap, hct, Bool.false_eq_true, if_false] at h4 hgot hlen
    have hl : s.got.length = g.base.length + s.cp := by
      rw [hgot]; simp; omega
    rw [hg.core.pub, List.append_assoc, List.getElem?_append_right (by omega),
      List.getElem?_append_left (by omega), ← h4]
    congr 1
    omega

/-- A run that wraps around: ring of 8 bytes, messages of 5 and 4 bytes. -/
def exWrap : List Act :=
  [.reserve 5, .put 0 1, .put 1 2, .put 2 3, .put 3 4, .put 4 5, .finish 5,
   .commit 0, .commit 0, .commit 0, .commit 0, .commit 0, .commit 0, .commit 0,
   .peek, .cstep, .look 0, .look 1, .look 2, .look 3, .look 4, .consume 5, .release, .commitC,
   .reserve 4, .pstep, .pstep, .pstep, .pstep,
   .put 3 9, .put 2 8, .put 1 7, .put 0 6, .finish 4,
   .commit 0, .commit 0, .commit 0, .commit 0, .commit 0, .commit 0, .commit 0, .commit 0,
   .commit 0,
   .peek, .cstep, .cstep, .look 0, .look 1, .consume 2]

def exWrapCheck (mm : MemModel) : Bool :=
  match SB.run mm 8 exWrap (SB.init 8) with
  | some s => decide (s.got = [1, 2, 3, 4, 5, 6, 7]) && decide (s.pub = [1, 2, 3, 4, 5, 6, 7, 8, 9]) &&
      decide (s.unread = [8, 9])
  | none => false

/-- The hypotheses of C07 are met by a run that wraps around. -/
example : exWrapCheck .tso = true ∧ exWrapCheck .pso = true := by decide +kernel

/-- **C08**: reserved space lies inside the buffer and holds no unread byte. -/
theorem C08_no_overlap {mm : MemModel} {N : Nat} {s : SB} (h0 : 0 < N) (hN : N < 2 ^ 64)
    (h : SB.Reachable mm N s) {n : Nat} {img : Nat → Option Byte} (hr : s.pc = .reserved n img) :
    s.pp + n < N ∧ ∀ i, i < n → ¬ s.Unread (s.pp + i) := by
  obtain ⟨g, hg⟩ := Reachable.inv h0 hN h
  have hp := hg.p
  simp only [PInv, hr] at hp
  obtain ⟨h1, h2⟩ := hg.core.room hp.1
  refine ⟨h1, fun i hi hu => ?_⟩
  unfold SB.Unread at hu
  cases hc : g.c with
  | true =>
    have := hg.core.cp_pp hc
    rw [if_pos (by omega)] at hu
    omega
  | false =>
    have := h2 hc
    rw [if_neg (by omega)] at hu
    omega

/-- **C08**: the assertions of `finishReservation` (RuntimeLogger.h:353-355) hold. -/
theorem C08_assertions {mm : MemModel} {N : Nat} {s : SB} (h0 : 0 < N) (hN : N < 2 ^ 64)
    (h : SB.Reachable mm N s) {n : Nat} {img : Nat → Option Byte} (hr : s.pc = .reserved n img)
    {m : Nat} (hm : m ≤ n) : m < s.minFree ∧ s.pp + m < N := by
  obtain ⟨g, hg⟩ := Reachable.inv h0 hN h
  have hp := hg.p
  simp only [PInv, hr] at hp
  have := (hg.core.room hp.1).1
  omega

/-- The hypotheses of C08 are met with unread bytes in front of the space. -/
def exTight : List Act :=
  exWrap ++ [.release, .commitC, .commitC, .reserve 2, .pstep, .pstep]

def exTightCheck : Bool :=
  match SB.run .tso 8 exTight (SB.init 8) with
  | some s => (match s.pc with | .reserved n _ => n == 2 | _ => false) && s.pp == 4 && s.cp == 2
  | none => false

example : exTightCheck = true := by decide +kernel

/-- **C09**: a reservation of the buffer size or more never succeeds. -/
theorem C09_too_large_never {mm : MemModel} {N : Nat} {s : SB} (h0 : 0 < N) (hN : N < 2 ^ 64)
    (h : SB.Reachable mm N s) {n : Nat} (hn : N ≤ n) (img : Nat → Option Byte) :
    s.pc ≠ .reserved n img := by
  intro hr
  have := (C08_no_overlap h0 hN h hr).1
  omega

/-- **C10**: when `peek` reports nothing, every byte visible at its load of `producerPos`
(`v`, recorded then) has been consumed. -/
theorem C10_empty {mm : MemModel} {N : Nat} {s s' : SB} (h0 : 0 < N) (hN : N < 2 ^ 64)
    (h : SB.Reachable mm N s) {p v : Nat} (hc : s.cc = .loaded p v ∨ s.cc = .rolled p v)
    (hs : s.act mm N .cstep = some s') {view : Nat → Option Byte} (he : s'.cc = .holding 0 view) :
    v = s.got.length := by
  obtain ⟨g, hg⟩ := Reachable.inv h0 hN h
  have hcore := hg.core
  have hgot := hcore.got
  have hmaxN := hcore.maxN
  have hvN := hcore.vlim_lt
  have hcpv := hcore.cpv
  have hcc := hg.c
  rcases hc with hc | hc
  · simp only [CInv, hc] at hcc
    simp only [SB.act, hc] at hs
    split at hs
    · rename_i hlt
      split at hs
      · rename_i hpos
        simp only [Option.some.injEq] at hs; subst hs
        simp only [CPc.holding.injEq] at he
        omega
      · simp only [Option.some.injEq] at hs; subst hs
        simp at he
    · rename_i hge
      obtain ⟨h1, h2⟩ := hcc.2 (by omega)
      rw [wsub_eq (by omega) (by omega)] at hs
      simp only [Option.some.injEq] at hs; subst hs
      simp only [CPc.holding.injEq] at he
      have hp : p = s.cp := by omega
      subst hp
      rw [h2, hgot]
      cases hct : g.c with
      | true =>
        have := hcore.cp_pp hct
        have := hcore.pp
        simp; omega
      | false =>
        have := hcore.cp_old hct
        simp; omega
  · simp only [CInv, hc] at hcc
    simp only [SB.act, hc] at hs
    obtain ⟨h1, h2, h3, h4⟩ := hcc
    have hcp := hcore.cp_pp h1
    have hpp := hcore.ppN
    rw [wsub_eq (by omega) (by omega)] at hs
    simp only [Option.some.injEq] at hs; subst hs
    simp only [CPc.holding.injEq] at he
    have := hcore.pp
    rw [h4, hgot]
    simp [h1]; omega

/-- **C10**: what the load recorded is everything published, unless stores were still
pending. -/
theorem C10_visible {mm : MemModel} {N : Nat} {s : SB} (h0 : 0 < N) (hN : N < 2 ^ 64)
    (h : SB.Reachable mm N s) (hb : s.buf = []) : s.vis = s.pub.length := by
  obtain ⟨g, hg⟩ := Reachable.inv h0 hN h
  have hpath := hg.core.path
  rw [hb] at hpath
  obtain ⟨hm, hpp⟩ : g.m = true ∧ s.memP = s.pp := hpath
  have := hg.core.vis
  simp only [hm, if_true] at this
  rw [this, hg.core.pub, hpp, ← hg.core.pp]; simp

/-- **C10**: one inspection returns fewer bytes than the capacity. -/
theorem C10_below_capacity {mm : MemModel} {N : Nat} {s : SB} (h0 : 0 < N) (hN : N < 2 ^ 64)
    (h : SB.Reachable mm N s) {avail : Nat} {view : Nat → Option Byte}
    (hc : s.cc = .holding avail view) : avail < N := by
  obtain ⟨g, hg⟩ := Reachable.inv h0 hN h
  have hcc := hg.c
  simp only [CInv, hc] at hcc
  have := hg.core.vlim_lt.1
  omega

/-- **C10**: the ring never holds as many bytes as its capacity, so equal positions mean
empty. -/
theorem C10_never_full {mm : MemModel} {N : Nat} {s : SB} (h0 : 0 < N) (hN : N < 2 ^ 64)
    (h : SB.Reachable mm N s) (hp : s.cp = s.pp) : s.got = s.pub := by
  have h1 := C07_fifo h0 hN h
  have : s.unread = [] := by
    unfold SB.unread slice
    rw [if_pos (by omega), hp]; simp
  rw [this, List.append_nil] at h1
  exact h1

/-- A run in which a peek finds nothing after a wrap around. -/
def exEmptyCheck : Bool :=
  match SB.run .pso 8 (exWrap ++ [.look 0, .look 1, .consume 2, .release, .peek]) (SB.init 8) with
  | some s =>
    match s.cc, SB.act .pso 8 s .cstep with
    | .loaded _ v, some s' => (match s'.cc with | .holding 0 _ => v == 9 && s.got.length == 9 | _ => false)
    | _, _ => false
  | none => false

example : exEmptyCheck = true := by decide +kernel

/-- **C11**: under total store order a buffer is freed only after its thread has exited, all
its stores have arrived and every published byte was consumed. -/
theorem C11_freed_after_drained {N : Nat} {s : SB} (h0 : 0 < N) (hN : N < 2 ^ 64)
    (h : SB.Reachable .tso N s) (hf : s.cc = .freed) :
    s.pc = .exited ∧ s.buf = [] ∧ s.got = s.pub := by
  obtain ⟨g, hg⟩ := Reachable.inv h0 hN h
  obtain ⟨h1, h2⟩ := hg.d
  rw [hf] at h2
  obtain ⟨hD, hgot⟩ := h2
  cases hpc : s.pc with
  | exited =>
    rw [hpc] at h1
    rcases h1 rfl with ⟨_, h⟩ | ⟨h, _⟩
    · exact ⟨rfl, h, hgot rfl⟩
    · rw [hD] at h; simp at h
  | _ => rw [hpc] at h1; have := h1.1; rw [hD] at this; simp at this

/-- **C11**: nothing happens to the buffer after it was freed. -/
theorem C11_no_use_after_free {N : Nat} {s : SB} (h0 : 0 < N) (hN : N < 2 ^ 64)
    (h : SB.Reachable .tso N s) (hf : s.cc = .freed) (a : Act) (ha : a ≠ .commitC) :
    s.act .tso N a = none := by
  obtain ⟨h1, h2, _⟩ := C11_freed_after_drained h0 hN h hf
  cases a <;> simp_all [SB.act]

/-- A thread logs, exits, and its buffer is freed. -/
def exFree : List Act :=
  [.reserve 1, .put 0 7, .finish 1, .exit, .commit 0, .commit 0, .peek, .commit 0, .commit 0,
   .cstep, .release, .peek, .cstep, .look 0, .consume 1, .release, .peek, .cstep, .canDelete,
   .canDelete]

def exFreeCheck : Bool :=
  match SB.run .tso 8 exFree (SB.init 8) with
  | some s => (match s.cc with | .freed => true | _ => false) && s.got == [7]
  | none => false

example : exFreeCheck = true := by decide +kernel

/-- If stores to different variables may be reordered, the flag `shouldDeallocate` can arrive
before the last `producerPos`: no fence separates them (RuntimeLogger.h:511-516). -/
def exReordered : List Act :=
  [.reserve 1, .put 0 7, .finish 1, .exit, .commit 0, .commit 0, .commit 1, .peek, .cstep,
   .canDelete, .canDelete]

def exReorderedCheck (o : Option SB) : Bool :=
  match o with
  | some s => (match s.cc with | .freed => true | _ => false) && s.got == [] && s.pub == [7]
  | none => false

/-- **C11**, beyond x86: false under partial store order. -/
theorem C11_reordered_false : ∃ s, SB.Reachable .pso 8 s ∧ s.cc = .freed ∧ s.got ≠ s.pub := by
  have h : exReorderedCheck (SB.run .pso 8 exReordered (SB.init 8)) = true := by decide +kernel
  cases hr : SB.run .pso 8 exReordered (SB.init 8) with
  | none => rw [hr] at h; simp [exReorderedCheck] at h
  | some s =>
    rw [hr] at h
    simp only [exReorderedCheck, Bool.and_eq_true, beq_iff_eq] at h
    refine ⟨s, ⟨_, hr⟩, ?_, ?_⟩
    · have := h.1.1
      split at this
      · assumption
      · simp at this
    · rw [h.1.2, h.2]; simp

end NanoLog
