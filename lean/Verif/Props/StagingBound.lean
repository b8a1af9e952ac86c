import Verif.Props.StagingLive

/-! C09: a bound on the steps. -/

namespace NanoLog

/-! ## A bound -/

/-- Steps of the waiting producer, of the background thread and of memory. -/
def Act.isDrain : Act → Bool
  | .pstep | .commit _ | .commitC | .peek | .cstep | .release => true
  | _ => false

theorem loop_done {mm : MemModel} {N n : Nat} {s : SB} (hpc : s.pc = .loop n)
    (hf : ¬ s.minFree ≤ n) :
    SB.act mm N s .pstep = some { s with pc := .reserved n fun _ => none } := by
  simp only [SB.act, hpc, if_neg hf]

theorem loop_load {mm : MemModel} {N n : Nat} {s : SB} (hpc : s.pc = .loop n)
    (hf : s.minFree ≤ n) :
    SB.act mm N s .pstep = some { s with pc := .loaded n s.memC } := by
  simp only [SB.act, hpc, if_pos hf]

theorem loaded_done {mm : MemModel} {N n c : Nat} {s : SB} (hN : N < 2 ^ 64)
    (hpc : s.pc = .loaded n c) (hc : c ≤ s.pp) (hp : s.pp < N) (hf : N - s.pp > n) :
    SB.act mm N s .pstep = some { s with minFree := N - s.pp, pc := .reserved n fun _ => none } := by
  have hw : wsub N s.pp = N - s.pp := wsub_eq (Nat.le_of_lt hp) hN
  simp only [SB.act, hpc, if_pos hc, hw, if_pos hf]

theorem loaded_wrap {mm : MemModel} {N n c : Nat} {s : SB} (hN : N < 2 ^ 64)
    (hpc : s.pc = .loaded n c) (hc : c ≤ s.pp) (hp : s.pp < N) (hf : ¬ N - s.pp > n) :
    SB.act mm N s .pstep = some { s with minFree := N - s.pp, buf := s.buf ++ [.setE s.pp]
                                         pc := .wrapping n c } := by
  have hw : wsub N s.pp = N - s.pp := wsub_eq (Nat.le_of_lt hp) hN
  simp only [SB.act, hpc, if_pos hc, hw, if_neg hf]

theorem wrap_done {mm : MemModel} {N n c : Nat} {s : SB} (hc : c < 2 ^ 64)
    (hpc : s.pc = .wrapping n c) (h0 : c ≠ 0) :
    SB.act mm N s .pstep = some { s with buf := s.buf ++ [.fence, .setP 0 s.pub.length], pp := 0
                                         minFree := c, pc := .loop n } := by
  have hw : wsub c 0 = c := by rw [wsub_eq (Nat.zero_le _) hc, Nat.sub_zero]
  simp only [SB.act, hpc, if_pos h0, hw]

theorem commit_head {mm : MemModel} {N : Nat} {s : SB} {w : Store} {b : List Store}
    (hb : s.buf = w :: b) : SB.act mm N s (.commit 0) = some { s.apply w with buf := b } := by
  have hcc : canCommit mm (w :: b) 0 = true := by
    cases mm with
    | tso => rfl
    | pso => cases w <;> simp [canCommit]
  simp only [SB.act, hb, hcc, if_true, List.getElem?_cons_zero, List.eraseIdx_zero, List.tail_cons]

theorem run_two {mm : MemModel} {N : Nat} {s s1 s2 : SB} {a b : Act}
    (h1 : s.act mm N a = some s1) (h2 : s1.act mm N b = some s2) :
    SB.run mm N [a, b] s = some s2 := by
  simp only [SB.run, h1, h2]

theorem run_one {mm : MemModel} {N : Nat} {s s1 : SB} {a : Act}
    (h1 : s.act mm N a = some s1) : SB.run mm N [a] s = some s1 := by
  simp only [SB.run, h1]

theorem run_cons {mm : MemModel} {N : Nat} {s s1 s2 : SB} {a : Act} {as : List Act}
    (h1 : s.act mm N a = some s1) (h2 : SB.run mm N as s1 = some s2) :
    SB.run mm N (a :: as) s = some s2 := by
  simp only [SB.run, h1, h2]

theorem bounded_end {mm : MemModel} {N n : Nat} {s : SB} (hN : N < 2 ^ 64) (hn : n < N)
    (hpc : s.pc = .loop n) (hpp : s.pp = 0) (hm : s.memC = 0) :
    ∃ as s', as.length ≤ 2 ∧ (∀ a ∈ as, a.isDrain = true) ∧ SB.run mm N as s = some s' ∧
      ∃ img, s'.pc = .reserved n img := by
  by_cases hf : s.minFree ≤ n
  · have h1 := loop_load (mm := mm) (N := N) hpc hf
    have h2 := loaded_done (mm := mm) (s := { s with pc := .loaded n s.memC }) hN rfl
      (by rw [hm]; exact Nat.zero_le _) (by show s.pp < N; omega) (by show N - s.pp > n; omega)
    exact ⟨_, _, by simp, by simp [Act.isDrain], run_two h1 h2, _, rfl⟩
  · exact ⟨_, _, by simp, by simp [Act.isDrain], run_one (loop_done hpc hf), _, rfl⟩

theorem bounded_lap {mm : MemModel} {N n : Nat} {s : SB} (hN : N < 2 ^ 64) (hn : n < N)
    (hpc : s.pc = .loop n) (hpp : s.pp = 0) (hP : s.memP = 0) (hE : s.memE = s.cp) (hcp : 0 < s.cp)
    (hb : s.cbuf = []) (hc : s.cc = .idle) :
    ∃ as s', as.length ≤ 7 ∧ (∀ a ∈ as, a.isDrain = true) ∧ SB.run mm N as s = some s' ∧
      ∃ img, s'.pc = .reserved n img := by
  let s1 : SB := { s with cbuf := [], memC := 0, cp := 0, cc := .idle }
  have h1 : SB.run mm N [.peek, .cstep, .cstep, .release, .commitC] s = some s1 := by
    simp [SB.run, SB.act, hc, hP, hcp, hE, wsub_self, hb, s1]
  obtain ⟨as, s', x1, x2, x3, x4⟩ := bounded_end (mm := mm) (s := s1) hN hn hpc hpp rfl
  refine ⟨[.peek, .cstep, .cstep, .release, .commitC] ++ as, s', by simp; omega, ?_, ?_, x4⟩
  · intro a ha
    rcases List.mem_append.1 ha with h | h
    · exact (by decide : ∀ a ∈ [Act.peek, .cstep, .cstep, .release, .commitC], a.isDrain = true) a h
    · exact x2 a h
  · rw [SB.run_append, h1]; exact x3

/-- **C09**: once the buffer is drained, at most 13 steps of the waiting producer, of the
background thread scanning the buffer and of memory make the reservation succeed. -/
theorem C09_bounded {mm : MemModel} {N n : Nat} {s : SB} (h0 : 0 < N) (hN : N < 2 ^ 64) (hn : n < N)
    (h : SB.Reachable mm N s) (hd : s.got = s.pub) (hb : s.buf = []) (hcb : s.cbuf = [])
    (hc : s.cc = .idle) (hpc : s.pc = .loop n) :
    ∃ as s', as.length ≤ 13 ∧ (∀ a ∈ as, a.isDrain = true) ∧ SB.run mm N as s = some s' ∧
      ∃ img, s'.pc = .reserved n img := by
  obtain ⟨g, hg⟩ := Reachable.inv h0 hN h
  have hpath := hg.core.path
  rw [hb] at hpath
  obtain ⟨hm, hP⟩ : g.m = true ∧ s.memP = s.pp := hpath
  have hmC : s.memC = s.cp := by
    have h1 := hg.core.hist
    have h2 := hg.core.last
    rw [hcb] at h1
    rw [← h1] at h2
    simpa using h2
  have hppN := hg.core.ppN
  rcases drained_pos hg hd with ⟨hct, hcp⟩ | ⟨hcf, hpp, hcp, hpos⟩
  · by_cases hf : s.minFree ≤ n
    · have t1 := loop_load (mm := mm) (N := N) hpc hf
      by_cases hfree : N - s.pp > n
      · have t2 := loaded_done (mm := mm) (s := { s with pc := .loaded n s.memC }) hN rfl
          (by show s.memC ≤ s.pp; omega) hppN hfree
        exact ⟨_, _, by simp, by simp [Act.isDrain], run_two t1 t2, _, rfl⟩
      · have hpp0 : s.memC ≠ 0 := by omega
        have t2 := loaded_wrap (mm := mm) (s := { s with pc := .loaded n s.memC }) hN rfl
          (by show s.memC ≤ s.pp; omega) hppN hfree
        have t3 := wrap_done (mm := mm) (N := N) (s := { s with
          minFree := N - s.pp, buf := s.buf ++ [.setE s.pp], pc := .wrapping n s.memC })
          (show s.memC < 2 ^ 64 by omega) rfl hpp0
        let s3 : SB := { s with
          buf := s.buf ++ [.setE s.pp] ++ [.fence, .setP 0 s.pub.length], pp := 0
          minFree := s.memC, pc := .loop n }
        have t4 := commit_head (mm := mm) (N := N) (s := s3) (w := .setE s.pp)
          (b := [.fence, .setP 0 s.pub.length]) (by simp [s3, hb])
        have t5 := commit_head (mm := mm) (N := N)
          (s := { s3.apply (.setE s.pp) with buf := [.fence, .setP 0 s.pub.length] }) rfl
        have t6 := commit_head (mm := mm) (N := N)
          (s := { s3.apply (.setE s.pp) with buf := [.setP 0 s.pub.length] }) rfl
        obtain ⟨as, s', x1, x2, x3, x4⟩ := bounded_lap (mm := mm)
          (s := { (SB.apply { s3.apply (.setE s.pp) with buf := [.setP 0 s.pub.length] }
            (.setP 0 s.pub.length)) with buf := [] }) hN hn rfl rfl rfl
          hcp.symm (show 0 < s.cp by omega) hcb hc
        refine ⟨[.pstep, .pstep, .pstep, .commit 0, .commit 0, .commit 0] ++ as, s',
          by simp; omega, ?_, ?_, x4⟩
        · intro a ha
          rcases List.mem_append.1 ha with h | h
          · exact (by decide : ∀ a ∈ [Act.pstep, .pstep, .pstep, .commit 0, .commit 0, .commit 0],
              a.isDrain = true) a h
          · exact x2 a h
        · exact run_cons t1 (run_cons t2 (run_cons t3 (run_cons t4 (run_cons t5 (run_cons t6 x3)))))
    · exact ⟨_, _, by simp, by simp [Act.isDrain], run_one (loop_done hpc hf), _, rfl⟩
  · have hE : s.memE = g.old.length := by
      have := hg.core.endE hcf
      rw [hb] at this; exact this
    obtain ⟨as, s', x1, x2, x3, x4⟩ := bounded_lap (mm := mm) hN hn hpc hpp (by rw [hP, hpp])
      (by rw [hE, hcp]) hpos hcb hc
    exact ⟨as, s', by omega, x2, x3, x4⟩

/-- The hypotheses of `C09_bounded` are met where the producer has to wrap around. -/
def exBoundedCheck : Bool :=
  match SB.run .pso 8 (exWrap.take 25) (SB.init 8) with
  | some s => decide (s.got = s.pub) && s.buf.isEmpty && s.cbuf.isEmpty && s.cc.isIdle &&
      (match s.pc with | .loop n => n == 4 | _ => false)
  | none => false

example : exBoundedCheck = true := by decide +kernel

end NanoLog
