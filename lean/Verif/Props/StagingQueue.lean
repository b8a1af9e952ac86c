import Verif.StagingQueue
import Verif.Props.Staging

/-!
# C63: the staging buffer is a queue of messages
-/

namespace NanoLog

/-- **C63**: whatever the two threads do (each message has at least one byte, and the background thread consumes
whole messages), every step of the staging buffer is a step of the queue.  `N` is any size of the ring, and the
stores of each thread reach memory in any delayed order allowed by x86. -/
theorem C63_step {N : Nat} (h0 : 0 < N) (hN : N < 2 ^ 64) {as : List Act} {es : List QEv} {ms : List (List Byte)}
    {s s' : SB} {x : MQ} (h : QRun .tso N as es ms s x) {a : Act} (ha : s.act .tso N a = some s') (hw : a.Whole x) :
    ∃ es' x', QShows s a s' x es' ∧ MQ.run es' x = some x' ∧
      QRun .tso N (as ++ [a]) (es ++ es') (ms ++ completes s a s') s' x' := by
  obtain ⟨g, done, later, hI, hq, -, -⟩ := h.rel h0 hN
  obtain ⟨es', x', _, _, h1, h2, -⟩ := hq.step hI ha (fun _ _ => .inl rfl) hw
  exact ⟨es', x', h1, h2, .step h ha hw h1 h2⟩

/-- **C63**, without x86: the same if stores to different variables may be reordered, except that the buffer of
an ended thread may be deleted too early (C11_reordered_false). -/
theorem C63_step_reordered {mm : MemModel} {N : Nat} (h0 : 0 < N) (hN : N < 2 ^ 64) {as : List Act} {es : List QEv}
    {ms : List (List Byte)} {s s' : SB} {x : MQ} (h : QRun mm N as es ms s x) {a : Act}
    (ha : s.act mm N a = some s') (hw : a.Whole x) (hf : s'.cc ≠ .freed) :
    ∃ es' x', QShows s a s' x es' ∧ MQ.run es' x = some x' ∧
      QRun mm N (as ++ [a]) (es ++ es') (ms ++ completes s a s') s' x' := by
  obtain ⟨g, done, later, hI, hq, -, -⟩ := h.rel h0 hN
  obtain ⟨es', x', _, _, h1, h2, -⟩ := hq.step hI ha (fun _ hc => absurd hc hf) hw
  exact ⟨es', x', h1, h2, .step h ha hw h1 h2⟩

/-- **C63**: messages arrive in the order in which they were completed; the bytes consumed are those of the first
messages, the queue contains the next ones, and the bytes in it never fill the ring. -/
theorem C63_content {mm : MemModel} {N : Nat} (h0 : 0 < N) (hN : N < 2 ^ 64) {as : List Act} {es : List QEv}
    {ms : List (List Byte)} {s : SB} {x : MQ} (h : QRun mm N as es ms s x) :
    arrived es <+: ms ∧ ms.flatten = s.pub ∧ (arrived es).flatten = s.pub.take s.vis ∧
      ∃ done, arrived es = done ++ x.q ∧ done.flatten = s.got ∧ x.q.flatten.length < N := by
  obtain ⟨g, done, later, hI, hq, h1, h2⟩ := h.rel h0 hN
  have hv : s.vis = msgLen (done ++ x.q) := hq.vis
  refine ⟨⟨later, by rw [h1, h2]⟩, by rw [h2, hq.pub], ?_, done, h1, hq.got.symm, ?_⟩
  · rw [h1, hq.pub, hv, take_flatten]
  · have hl := congrArg List.length hI.core.pub
    have hg := congrArg List.length hI.core.got
    have h3 := hI.core.pp
    have h4 := hI.core.ppN
    have h5 := hI.core.oldN
    have h6 := hI.core.ahead
    rw [hq.pub] at hl
    rw [hq.got] at hg
    simp only [List.flatten_append, List.length_append] at hl hg
    split at hg
    · simp only [List.length_append] at hg
      omega
    · rename_i hc
      have := h6 (by simpa using hc)
      simp only [List.length_take] at hg
      omega

/-- **C63**: the bytes the background thread is shown are those of whole messages, the first ones of the queue. -/
theorem C63_shown {mm : MemModel} {N : Nat} (h0 : 0 < N) (hN : N < 2 ^ 64) {as : List Act} {es : List QEv}
    {ms : List (List Byte)} {s : SB} {x : MQ} (h : QRun mm N as es ms s x) {avail : Nat} {view : Nat → Option Byte}
    (hc : s.cc = .holding avail view) : x.held ≤ x.q.length ∧ avail = (x.q.take x.held).flatten.length ∧
      ∀ i b, view i = some b → (x.q.take x.held).flatten[i]? = some b := by
  obtain ⟨g, done, later, hI, hq, h1, h2⟩ := h.rel h0 hN
  have hcc := hq.cc
  rw [hc] at hcc
  refine ⟨hcc.1, hcc.2, fun i b hv => ?_⟩
  have h3 := C07_view h0 hN ⟨as, h.reachable⟩ hc hv
  have hi : i < avail := by
    have := hI.c
    simp only [CInv, hc] at this
    exact (this.2 i b hv).1
  rw [hq.pub, hq.got] at h3
  have e : (done ++ x.q ++ later).flatten =
      done.flatten ++ ((x.q.take x.held).flatten ++ ((x.q.drop x.held).flatten ++ later.flatten)) := by
    have e : x.q = x.q.take x.held ++ x.q.drop x.held := (List.take_append_drop _ x.q).symm
    calc _ = done.flatten ++ (x.q.flatten ++ later.flatten) := by simp
      _ = _ := by rw [congrArg List.flatten e, List.flatten_append, List.append_assoc]
  rw [e, List.getElem?_append_right (by omega), Nat.add_sub_cancel_left] at h3
  rwa [List.getElem?_append_left (by rw [hcc.2] at hi; exact hi)] at h3

/-- **C63**: when the buffer of an ended thread is deleted, all its messages have arrived and have been
consumed. -/
theorem C63_deleted {N : Nat} (h0 : 0 < N) (hN : N < 2 ^ 64) {as : List Act} {es : List QEv}
    {ms : List (List Byte)} {s : SB} {x : MQ} (h : QRun .tso N as es ms s x) (hc : s.cc = .freed) :
    x.q = [] ∧ arrived es = ms := by
  obtain ⟨g, done, later, hI, hq, h1, h2⟩ := h.rel h0 hN
  have h3 := (C11_freed_after_drained h0 hN ⟨as, h.reachable⟩ hc).2.2
  have h4 : msgLen (x.q ++ later) = 0 := by
    have := congrArg List.length h3
    rw [hq.got, hq.pub] at this
    simp only [List.flatten_append, List.length_append] at this
    rw [msgLen_append]
    simp only [msgLen]
    omega
  have h5 := msgLen_zero (fun m hm => hq.ne m (by
    simp only [List.mem_append] at hm ⊢
    rcases hm with hm | hm
    · exact .inl (.inr hm)
    · exact .inr hm)) h4
  obtain ⟨h6, h7⟩ := List.append_eq_nil_iff.1 h5
  exact ⟨h6, by rw [h1, h2, h7, List.append_nil]⟩

/-! A run in which these things happen. -/

/-- Does the queue do these events in this step? -/
def showsB (s : SB) (a : Act) (s' : SB) (x : MQ) (es : List QEv) : Bool :=
  match a, es with
  | .commit _, [] => s'.vis == s.vis
  | .commit _, [.arrive m] => m != [] && s'.vis == s.vis + m.length && (s.pub.drop s.vis).take m.length == m
  | .commit _, _ => false
  | .peek, [.nothing] => s.vis == s.got.length
  | .peek, [] => s.vis != s.got.length
  | .peek, _ => false
  | .cstep, [] => match s'.cc with | .holding avail _ => avail == 0 | _ => true
  | .cstep, [.peek n] => match s'.cc with | .holding avail _ => avail == msgLen (x.q.take n) | _ => false
  | .cstep, _ => false
  | .consume b, [.take n] => b == msgLen (x.q.take n) && s'.got == s.got ++ (x.q.take n).flatten && decide (n ≤ x.held)
  | .consume _, _ => false
  | .canDelete, [.free] => match s'.cc with | .freed => true | _ => false
  | .canDelete, [] => match s'.cc with | .freed => false | _ => true
  | .finish m, [] => decide (0 < m)
  | _, [] => true
  | _, _ => false

theorem showsB_ok {s s' : SB} {a : Act} {x : MQ} {es : List QEv} (h : showsB s a s' x es = true) :
    QShows s a s' x es ∧ a.Whole x := by
  revert h
  fun_cases showsB s a s' x es <;> intro h <;> simp_all [QShows, Act.Whole]
  exact ⟨_, h.2, rfl⟩

def queueRun (mm : MemModel) (N : Nat) : List (Act × List QEv) → SB × MQ → Option (SB × MQ)
  | [], p => some p
  | (a, es) :: r, (s, x) =>
    match s.act mm N a with
    | none => none
    | some s' => if showsB s a s' x es then (match MQ.run es x with | none => none | some y => queueRun mm N r (s', y))
      else none

/-- Messages of 5, 2 and 4 bytes in a ring of 8 bytes: the third one is at the start of the ring.  The background
thread finds nothing, then two messages, takes them one by one, follows to the start of the ring, and deletes the
buffer of the ended thread. -/
def exQueue : List (Act × List QEv) :=
  [(.reserve 5, []), (.put 0 1, []), (.put 1 2, []), (.put 2 3, []), (.put 3 4, []), (.put 4 5, []), (.finish 5, []),
   (.peek, [.nothing]),
   (.commit 0, []), (.commit 0, []), (.commit 0, []), (.commit 0, []), (.commit 0, []), (.commit 0, []),
   (.commit 0, [.arrive [1, 2, 3, 4, 5]]), (.cstep, []), (.release, []),
   (.reserve 2, []), (.put 0 6, []), (.put 1 7, []), (.finish 2, []), (.commit 0, []), (.commit 0, []), (.commit 0, []),
   (.commit 0, [.arrive [6, 7]]),
   (.peek, []), (.cstep, [.peek 2]), (.look 0, []), (.look 1, []), (.look 2, []), (.look 3, []), (.look 4, []),
   (.consume 5, [.take 1]), (.commitC, []),
   (.reserve 4, []), (.pstep, []), (.pstep, []), (.pstep, []), (.pstep, []),
   (.put 0 8, []), (.put 1 9, []), (.put 2 10, []), (.put 3 11, []), (.finish 4, []), (.exit, []),
   (.commit 0, []), (.commit 0, []), (.commit 0, []), (.commit 0, []), (.commit 0, []), (.commit 0, []), (.commit 0, []),
   (.commit 0, []), (.commit 0, [.arrive [8, 9, 10, 11]]),
   (.look 0, []), (.look 1, []), (.consume 2, [.take 1]), (.release, []),
   (.peek, []), (.cstep, []), (.cstep, [.peek 1]), (.look 0, []), (.look 1, []), (.look 2, []), (.look 3, []),
   (.consume 4, [.take 1]), (.commit 0, []), (.release, []), (.peek, [.nothing]), (.cstep, []), (.canDelete, []),
   (.canDelete, [.free])]

theorem queueRun_ok {mm : MemModel} {N : Nat} {r : List (Act × List QEv)} {as : List Act} {es : List QEv}
    {ms : List (List Byte)} {p p' : SB × MQ} (h : QRun mm N as es ms p.1 p.2) (hr : queueRun mm N r p = some p') :
    ∃ as es ms, QRun mm N as es ms p'.1 p'.2 := by
  induction r generalizing as es ms p with
  | nil => cases hr; exact ⟨_, _, _, h⟩
  | cons q r ih =>
    obtain ⟨a, fs⟩ := q
    obtain ⟨s, x⟩ := p
    simp only [queueRun] at hr
    split at hr
    · cases hr
    · rename_i s' ha
      split at hr
      · rename_i hs
        obtain ⟨h1, h2⟩ := showsB_ok hs
        split at hr
        · cases hr
        · rename_i y hy
          exact ih (p := (s', y)) (.step h ha h2 h1 hy) hr
      · cases hr

/-- Every prefix of the run is possible, the whole run ends with the deletion, and after 44 steps (`k`) the queue
contains the second message, which the background thread holds. -/
def exQueueCheck (k : Nat) (p : SB × MQ → Bool) : Bool :=
  match queueRun .tso 8 (exQueue.take k) (SB.init 8, ⟨[], 0⟩) with
  | some r => p r
  | none => false

example : exQueueCheck exQueue.length (fun r => (match r.1.cc with | .freed => true | _ => false) &&
    decide (r.2.q = []) && decide (r.1.got = [1, 2, 3, 4, 5, 6, 7, 8, 9, 10, 11])) = true := by decide +kernel

example : exQueueCheck 44 (fun r => (match r.1.cc with | .holding avail _ => avail == 2 | _ => false) &&
    decide (r.2.q = [[6, 7]]) && r.2.held == 1 && r.1.pub.length == 11) = true := by decide +kernel

theorem exQueueCheck_ok {k : Nat} {f : SB × MQ → Bool} (h : exQueueCheck k f = true) :
    ∃ as es ms p, QRun .tso 8 as es ms p.1 p.2 ∧ f p = true := by
  unfold exQueueCheck at h
  split at h
  · rename_i r hr
    obtain ⟨as, es, ms, hq⟩ := queueRun_ok (p := (SB.init 8, ⟨[], 0⟩)) .init hr
    exact ⟨as, es, ms, r, hq, h⟩
  · cases h

/-- The deletion that comes too early (C11_reordered_false). -/
def exQueueEarly : List (Act × List QEv) :=
  exReordered.map fun a => (a, if a = .peek then [.nothing] else [])

/-- **C63**, beyond x86: if stores to different variables may be reordered, the queue can be deleted before a
completed message arrives. -/
theorem C63_reordered_false : ∃ as es ms s x, QRun .pso 8 as es ms s x ∧ s.cc = .freed ∧ arrived es ≠ ms := by
  have h : (match queueRun .pso 8 (exQueueEarly.dropLast ++ [(.canDelete, [.free])]) (SB.init 8, ⟨[], 0⟩) with
      | some r => (match r.1.cc with | .freed => true | _ => false) && r.1.pub == [7] && r.1.vis == 0
      | none => false) = true := by decide +kernel
  split at h
  · rename_i r hr
    obtain ⟨as, es, ms, hq⟩ := queueRun_ok (p := (SB.init 8, ⟨[], 0⟩)) .init hr
    simp only [Bool.and_eq_true, beq_iff_eq] at h
    refine ⟨as, es, ms, _, _, hq, ?_, fun he => ?_⟩
    · have := h.1.1
      split at this
      · assumption
      · cases this
    · obtain ⟨-, h1, h2, -⟩ := C63_content (by decide) (by decide) hq
      rw [he, h1, h.1.2, h.2] at h2
      cases h2
  · cases h

end NanoLog
