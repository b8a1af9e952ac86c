import Verif.StagingSteps

/-!
# The staging buffer as a queue of messages

The model of the runtime system (Runtime.lean) contains for each thread a queue of whole messages.  Here the
staging buffer of Staging.lean, with its single loads and stores, is related to such a queue.
-/

namespace NanoLog

/-! ## Specification: a queue of messages -/

/-- A queue of messages; the reader holds the first `held` of them. -/
structure MQ where
  q : List (List Byte)
  held : Nat

/-- What happens to it: a message arrives; the reader finds it empty; the reader is given the first `n`
messages; the reader removes `n` messages; the queue is deleted. -/
inductive QEv where
  | arrive (m : List Byte)
  | nothing
  | peek (n : Nat)
  | take (n : Nat)
  | free

/-- The queue (no code is modelled). -/
def MQ.step (x : MQ) : QEv → Option MQ
  | .arrive m => some { x with q := x.q ++ [m] }
  | .nothing => if x.q = [] then some { x with held := 0 } else none
  | .peek n => if 0 < n ∧ n ≤ x.q.length then some { x with held := n } else none
  | .take n => if n ≤ x.held then some ⟨x.q.drop n, x.held - n⟩ else none
  | .free => if x.q = [] then some x else none

def MQ.run : List QEv → MQ → Option MQ
  | [], x => some x
  | e :: es, x => match x.step e with
    | none => none
    | some y => MQ.run es y

/-- Bytes of a list of messages. -/
def msgLen (ms : List (List Byte)) : Nat := ms.flatten.length

/-- How the two threads use the staging buffer: messages are not empty (a message begins with an
`UncompressedEntry`, runtime/Log.h:181-196), and the background thread consumes a whole number of the messages it
was shown (runtime/RuntimeLogger.cc:436-469; C15). -/
def Act.Whole (x : MQ) : Act → Prop
  | .finish m => 0 < m
  | .consume b => ∃ n ≤ x.held, b = msgLen (x.q.take n)
  | _ => True

/-- The events a step of the staging buffer stands for.
* A message arrives when the store to `producerPos` that publishes it reaches memory.
* `peek` finds nothing: at its load of `producerPos`.
* `peek` finds something: when it returns, and then it returns the bytes of whole messages.
* `consume` removes them.
* `delete` (runtime/RuntimeLogger.cc:480) deletes the queue. -/
def QShows (s : SB) (a : Act) (s' : SB) (x : MQ) (es : List QEv) : Prop :=
  match a with
  | .commit _ => (es = [] ∧ s'.vis = s.vis) ∨
      ∃ m, es = [.arrive m] ∧ m ≠ [] ∧ s'.vis = s.vis + m.length ∧ (s.pub.drop s.vis).take m.length = m
  | .peek => es = if s.vis = s.got.length then [.nothing] else []
  | .cstep =>
    match s'.cc with
    | .holding avail _ => es = [] ∧ avail = 0 ∨ ∃ n, es = [.peek n] ∧ avail = msgLen (x.q.take n)
    | _ => es = []
  | .consume b => ∃ n, es = [.take n] ∧ b = msgLen (x.q.take n) ∧ s'.got = s.got ++ (x.q.take n).flatten
  | .canDelete => es = match s'.cc with | .freed => [.free] | _ => []
  | _ => es = []

/-- Messages completed by a step (`finishReservation`). -/
def completes (s : SB) (a : Act) (s' : SB) : List (List Byte) :=
  match a with
  | .finish _ => [s'.pub.drop s.pub.length]
  | _ => []

/-- An execution of the staging buffer beside one of the queue; `ms` are the messages completed by the
logging thread so far. -/
inductive QRun (mm : MemModel) (N : Nat) : List Act → List QEv → List (List Byte) → SB → MQ → Prop
  | init : QRun mm N [] [] [] (SB.init N) ⟨[], 0⟩
  | step {as es ms s x a s' es' x'} : QRun mm N as es ms s x → s.act mm N a = some s' → a.Whole x →
      QShows s a s' x es' → MQ.run es' x = some x' →
      QRun mm N (as ++ [a]) (es ++ es') (ms ++ completes s a s') s' x'

/-- Messages that have arrived. -/
def arrived (es : List QEv) : List (List Byte) :=
  es.filterMap fun e => match e with | .arrive m => some m | _ => none

/-! ## The relation -/

theorem msgLen_append (a b : List (List Byte)) : msgLen (a ++ b) = msgLen a + msgLen b := by
  simp [msgLen]

theorem msgLen_cons (a : List Byte) (b : List (List Byte)) : msgLen (a :: b) = a.length + msgLen b := by
  simp [msgLen]

theorem msgLen_nil : msgLen [] = 0 := rfl

theorem msgLen_zero {a : List (List Byte)} (h : ∀ m ∈ a, m ≠ []) (h0 : msgLen a = 0) : a = [] := by
  cases a with
  | nil => rfl
  | cons m a =>
    rw [msgLen_cons] at h0
    exact absurd (List.length_eq_zero_iff.1 (by omega)) (h m (by simp))

/-- A place between two messages. -/
def Edge (ms : List (List Byte)) (x : Nat) : Prop := ∃ a b, ms = a ++ b ∧ x = msgLen a

theorem Edge.grow {ms : List (List Byte)} {x : Nat} (h : Edge ms x) (l : List (List Byte)) : Edge (ms ++ l) x := by
  obtain ⟨a, b, rfl, rfl⟩ := h
  exact ⟨a, b ++ l, by simp, rfl⟩

/-- Such a place in the middle part. -/
theorem Edge.mid {a b c : List (List Byte)} (hne : ∀ m ∈ a ++ b ++ c, m ≠ []) {x : Nat} (h : Edge (a ++ b ++ c) x)
    (h1 : msgLen a ≤ x) (h2 : x ≤ msgLen (a ++ b)) : ∃ n ≤ b.length, x = msgLen a + msgLen (b.take n) := by
  obtain ⟨u, v, huv, rfl⟩ := h
  -- `u` ends in `b`
  have key : ∀ {p r s t : List (List Byte)}, p ++ r = s ++ t → (∀ m ∈ p ++ r, m ≠ []) → msgLen s ≤ msgLen p →
      ∃ w, p = s ++ w := by
    intro p r s t h hn hle
    rcases List.append_eq_append_iff.1 h with ⟨w, rfl, h3⟩ | ⟨w, rfl, -⟩
    · rw [msgLen_append] at hle
      have : w = [] := msgLen_zero (fun m hm => hn m (by rw [h]; simp [hm])) (by omega)
      exact ⟨[], by simp [this]⟩
    · exact ⟨w, rfl⟩
  obtain ⟨w, rfl⟩ := key (p := u) (r := v) (s := a) (t := b ++ c) (by rw [← huv, List.append_assoc])
    (by rw [← huv]; exact hne) h1
  obtain ⟨z, hz⟩ := key (p := a ++ b) (r := c) (s := a ++ w) (t := v) huv hne h2
  rw [List.append_assoc] at hz
  have hb := List.append_cancel_left hz
  refine ⟨w.length, by rw [hb]; simp, ?_⟩
  rw [hb, List.take_left' rfl, msgLen_append]

/-- The pending stores publish the messages `later`, one after the other, after `v` bytes. -/
def Pend : Nat → List (List Byte) → List Store → Prop
  | _, later, [] => later = []
  | v, later, .setP _ len :: r =>
    (len = v ∧ Pend v later r) ∨ ∃ m l, later = m :: l ∧ len = v + m.length ∧ Pend len l r
  | v, later, _ :: r => Pend v later r

theorem Pend.skip {v : Nat} {later : List (List Byte)} {w : Store} {r : List Store} (hw : ∀ p l, w ≠ .setP p l) :
    Pend v later (w :: r) ↔ Pend v later r := by
  cases w <;> first | exact Iff.rfl | exact absurd rfl (hw _ _)

theorem Pend.erase {v : Nat} {later : List (List Byte)} {a b : List Store} {w : Store} (hw : ∀ p l, w ≠ .setP p l)
    (h : Pend v later (a ++ w :: b)) : Pend v later (a ++ b) := by
  induction a generalizing v later with
  | nil => exact (Pend.skip hw).1 h
  | cons u a ih =>
    cases u with
    | setP p len =>
      rcases h with ⟨h1, h2⟩ | ⟨m, l, h1, h2, h3⟩
      · exact .inl ⟨h1, ih h2⟩
      · exact .inr ⟨m, l, h1, h2, ih h3⟩
    | _ => exact ih h

theorem Pend.append {v : Nat} {later : List (List Byte)} {a b : List Store} {l2 : List (List Byte)}
    (h : Pend v later a) (h2 : Pend (v + msgLen later) l2 b) : Pend v (later ++ l2) (a ++ b) := by
  induction a generalizing v later with
  | nil =>
    have : later = [] := h
    subst this
    simpa [msgLen_nil] using h2
  | cons u a ih =>
    cases u with
    | setP p len =>
      rcases h with ⟨h1, h3⟩ | ⟨m, l, rfl, h1, h3⟩
      · exact .inl ⟨h1, ih h3 h2⟩
      · refine .inr ⟨m, l ++ l2, by simp, h1, ih h3 ?_⟩
        rw [msgLen_cons] at h2
        rw [h1, Nat.add_assoc]; exact h2
    | _ => exact ih h h2

structure QRel (s : SB) (x : MQ) (done later : List (List Byte)) : Prop where
  got : s.got = done.flatten
  pub : s.pub = (done ++ x.q ++ later).flatten
  vis : s.vis = msgLen (done ++ x.q)
  ne : ∀ m ∈ done ++ x.q ++ later, m ≠ []
  pend : Pend s.vis later s.buf
  lap : Edge (done ++ x.q ++ later) (s.pub.length - s.pp)
  cc : match s.cc with
    | .loaded _ v | .rolled _ v => (∃ n ≤ x.q.length, v = s.got.length + msgLen (x.q.take n)) ∧
        (v = s.got.length → x.held = 0)
    | .holding avail _ => x.held ≤ x.q.length ∧ avail = msgLen (x.q.take x.held)
    | _ => True

theorem QRel.pubLen {s : SB} {x : MQ} {done later : List (List Byte)} (h : QRel s x done later) :
    s.pub.length = s.vis + msgLen later := by
  rw [h.pub, h.vis, ← msgLen_append]; rfl

/-- Steps that only change control states of the logging thread and what it has pending. -/
theorem QRel.same {s s' : SB} {x : MQ} {done later : List (List Byte)} (h : QRel s x done later) {b : List Store}
    (h1 : s'.got = s.got) (h2 : s'.pub = s.pub) (h3 : s'.vis = s.vis) (h4 : s'.buf = s.buf ++ b)
    (hb : ∀ p l, .setP p l ∈ b → l = s.pub.length) (h5 : s'.pp = s.pp ∨ s'.pp = 0) (h6 : s'.cc = s.cc) :
    QRel s' x done later := by
  refine ⟨by rw [h1, h.got], by rw [h2, h.pub], by rw [h3, h.vis], h.ne, ?_, ?_, by rw [h6, h1]; exact h.cc⟩
  · rw [h3, h4, ← List.append_nil later]
    refine h.pend.append ?_
    rw [← h.pubLen]
    have : ∀ b : List Store, (∀ p l, .setP p l ∈ b → l = s.pub.length) → Pend s.pub.length [] b := by
      intro b
      induction b with
      | nil => intro _; rfl
      | cons w b ih =>
        intro hb
        have := ih fun p l hm => hb p l (by simp [hm])
        cases w with
        | setP p l => exact .inl ⟨hb p l (by simp), this⟩
        | _ => exact this
    exact this b hb
  · rcases h5 with h5 | h5
    · rw [h2, h5]; exact h.lap
    · rw [h2, h5]; exact ⟨_, [], (List.append_nil _).symm, by rw [h.pub]; rfl⟩

theorem take_flatten (a b : List (List Byte)) : (a ++ b).flatten.take (msgLen a) = a.flatten := by
  rw [List.flatten_append, msgLen, List.take_left' rfl]

/-! ## Every step is matched -/

theorem arrived_append (a b : List QEv) : arrived (a ++ b) = arrived a ++ arrived b := by
  simp [arrived]

theorem nothing_arrived : arrived [] = [] := rfl

/-- A step of the staging buffer is matched by the queue. -/
theorem QRel.step {mm : MemModel} {N : Nat} {s s' : SB} {g : Ghost} (hI : SInv mm N s g) {x : MQ}
    {done later : List (List Byte)} (h : QRel s x done later) {a : Act} (ha : s.act mm N a = some s')
    (hm : a = .canDelete → s'.cc = .freed → mm = .tso ∨ x.q = [])
    (hw : a.Whole x) : ∃ es x' done' later', QShows s a s' x es ∧ MQ.run es x = some x' ∧ QRel s' x' done' later' ∧
      done' ++ x'.q = done ++ x.q ++ arrived es ∧
      done' ++ x'.q ++ later' = done ++ x.q ++ later ++ completes s a s' := by
  have hcore := hI.core
  have quiet : ∀ (h1 : QShows s a s' x []) (h2 : QRel s' x done later) (h3 : completes s a s' = []),
      ∃ es x' done' later', QShows s a s' x es ∧ MQ.run es x = some x' ∧ QRel s' x' done' later' ∧
      done' ++ x'.q = done ++ x.q ++ arrived es ∧
      done' ++ x'.q ++ later' = done ++ x.q ++ later ++ completes s a s' :=
    fun h1 h2 h3 => ⟨[], x, done, later, h1, rfl, h2, by simp [nothing_arrived], by simp [h3]⟩
  have hpl := h.pubLen
  have hgl : s.got.length = msgLen done := by rw [h.got]; rfl
  cases a with
  | reserve n =>
    refine quiet rfl ?_ rfl
    simp only [SB.act] at ha
    split at ha
    · split at ha <;> (cases ha; exact h.same (b := []) rfl rfl rfl (by simp) (by simp) (.inl rfl) rfl)
    · cases ha
  | pstep =>
    refine quiet rfl ?_ rfl
    simp only [SB.act] at ha
    split at ha
    · split at ha <;> (cases ha; exact h.same (b := []) rfl rfl rfl (by simp) (by simp) (.inl rfl) rfl)
    · split at ha
      · split at ha
        · cases ha; exact h.same (b := []) rfl rfl rfl (by simp) (by simp) (.inl rfl) rfl
        · cases ha; exact h.same rfl rfl rfl rfl (by simp) (.inl rfl) rfl
      · cases ha; exact h.same (b := []) rfl rfl rfl (by simp) (by simp) (.inl rfl) rfl
    · split at ha
      · cases ha
        refine h.same rfl rfl rfl rfl ?_ (.inr rfl) rfl
        intro p l hp; simp at hp; exact hp.2
      · cases ha; exact h.same (b := []) rfl rfl rfl (by simp) (by simp) (.inl rfl) rfl
    · cases ha
  | put i b =>
    refine quiet rfl ?_ rfl
    simp only [SB.act] at ha
    split at ha
    · split at ha <;> cases ha
      exact h.same rfl rfl rfl rfl (by simp) (.inl rfl) rfl
    · cases ha
  | finish m =>
    simp only [SB.act] at ha
    split at ha
    · split at ha
      · split at ha
        · cases ha
        · rename_i n img hpc hmn bs hbs
          cases ha
          have hlen : bs.length = m := (imageBytes_ok hbs).1
          have hm0 : 0 < m := hw
          have hcs : completes s (.finish m) { s with
              buf := s.buf ++ [.fence, .setP (s.pp + m) (s.pub.length + m)]
              minFree := wsub s.minFree m, pp := s.pp + m, pc := .idle
              pub := s.pub ++ bs } = [bs] := by simp [completes]
          refine ⟨[], x, done, later ++ [bs], rfl, rfl, ?_, by simp [nothing_arrived], by rw [hcs]; simp⟩
          refine ⟨h.got, ?_, h.vis, ?_, ?_, ?_, h.cc⟩
          · simp only [h.pub, List.flatten_append, List.append_assoc]; simp
          · intro w hw
            simp only [← List.append_assoc, List.mem_append, List.mem_singleton] at hw
            rcases hw with hw | rfl
            · exact h.ne w (by simp only [List.mem_append]; exact hw)
            · intro h0; rw [h0] at hlen; simp at hlen; omega
          · refine h.pend.append (l2 := [bs]) ?_
            rw [← hpl]
            exact .inr ⟨bs, [], rfl, by rw [hlen], rfl⟩
          · have := h.lap.grow [bs]
            rw [List.append_assoc, List.append_assoc, ← List.append_assoc x.q] at this
            simp only [List.length_append, hlen]
            rw [Nat.add_sub_add_right]
            simpa [List.append_assoc] using this
      · cases ha
    · cases ha
  | exit =>
    refine quiet rfl ?_ rfl
    simp only [SB.act] at ha
    split at ha
    · cases ha; exact h.same rfl rfl rfl rfl (by simp) (.inl rfl) rfl
    · cases ha
  | commit k =>
    simp only [SB.act] at ha
    split at ha
    · rename_i hcan
      split at ha
      · cases ha
      · rename_i w hwk
        cases ha
        obtain ⟨p, r, e1, e2, -, -, -, e6⟩ := commit_split hcore.fenced hcan hwk
        have hpend := h.pend
        rw [e1] at hpend
        by_cases hset : ∃ v l, w = .setP v l
        · obtain ⟨v, l, rfl⟩ := hset
          have hp : p = [] := e6 v l rfl
          subst hp
          rw [List.nil_append] at hpend
          rcases hpend with ⟨h1, h2⟩ | ⟨m, lt, rfl, h1, h2⟩
          · refine quiet (.inl ⟨rfl, h1⟩) ⟨h.got, h.pub, ?_, h.ne, ?_, h.lap, h.cc⟩ rfl
            · show l = _
              rw [h1, h.vis]
            · show Pend l later (s.buf.eraseIdx k)
              rw [e2, h1]; exact h2
          · have hm : m ≠ [] := h.ne m (by simp)
            have hassoc : done ++ (x.q ++ [m]) ++ lt = done ++ x.q ++ m :: lt := by simp
            refine ⟨[.arrive m], { x with q := x.q ++ [m] }, done, lt,
              .inr ⟨m, rfl, hm, h1, ?_⟩, rfl, ⟨h.got, ?_, ?_, ?_, ?_, ?_, ?_⟩, by simp [arrived], by simp [completes]⟩
            · rw [h.pub, h.vis, ← hassoc]
              simp only [msgLen, List.flatten_append, List.append_assoc, List.length_append]
              rw [← List.append_assoc, List.drop_left' (by simp)]
              simp
            · show s.pub = _
              rw [hassoc]; exact h.pub
            · show l = msgLen (done ++ (x.q ++ [m]))
              rw [h1, h.vis, ← List.append_assoc, msgLen_append (done ++ x.q) [m]]
              simp [msgLen]
            · show ∀ m' ∈ done ++ (x.q ++ [m]) ++ lt, m' ≠ []
              rw [hassoc]; exact h.ne
            · show Pend l lt (s.buf.eraseIdx k)
              rw [e2]; exact h2
            · show Edge (done ++ (x.q ++ [m]) ++ lt) (s.pub.length - s.pp)
              rw [hassoc]; exact h.lap
            · have hcc := h.cc
              show match s.cc with
                | .loaded _ v | .rolled _ v => (∃ n ≤ (x.q ++ [m]).length, v = s.got.length + msgLen ((x.q ++ [m]).take n)) ∧
                    (v = s.got.length → x.held = 0)
                | .holding avail _ => x.held ≤ (x.q ++ [m]).length ∧ avail = msgLen ((x.q ++ [m]).take x.held)
                | _ => True
              have htk : ∀ n ≤ x.q.length, (x.q ++ [m]).take n = x.q.take n :=
                fun n hn => List.take_append_of_le_length hn
              split at hcc
              · obtain ⟨⟨n, hn, hv⟩, hv2⟩ := hcc
                exact ⟨⟨n, by simp; omega, by rw [htk n hn]; exact hv⟩, hv2⟩
              · obtain ⟨⟨n, hn, hv⟩, hv2⟩ := hcc
                exact ⟨⟨n, by simp; omega, by rw [htk n hn]; exact hv⟩, hv2⟩
              · exact ⟨by simp; omega, by rw [htk _ hcc.1]; exact hcc.2⟩
              · trivial
        · have hne : ∀ v l, w ≠ .setP v l := fun v l hh => hset ⟨v, l, hh⟩
          have hk : (s.apply w).got = s.got ∧ (s.apply w).pub = s.pub ∧ (s.apply w).vis = s.vis ∧
              (s.apply w).pp = s.pp ∧ (s.apply w).cc = s.cc := by
            cases w <;> first | exact ⟨rfl, rfl, rfl, rfl, rfl⟩ | exact absurd rfl (hne _ _)
          obtain ⟨k1, k2, k3, k4, k5⟩ := hk
          refine quiet (.inl ⟨rfl, k3⟩) ⟨?_, ?_, ?_, h.ne, ?_, ?_, ?_⟩ rfl
          · exact k1.trans h.got
          · exact k2.trans h.pub
          · exact k3.trans h.vis
          · show Pend (s.apply w).vis later (s.buf.eraseIdx k)
            rw [k3, e2]; exact Pend.erase hne hpend
          · show Edge _ ((s.apply w).pub.length - (s.apply w).pp)
            rw [k2, k4]; exact h.lap
          · have hcc := h.cc
            rw [← k5, ← k1] at hcc
            exact hcc
    · cases ha
  | commitC =>
    refine quiet rfl ?_ rfl
    simp only [SB.act] at ha
    split at ha
    · cases ha
    · cases ha; exact h.same (b := []) rfl rfl rfl (by simp) (by simp) (.inl rfl) rfl
  | peek =>
    simp only [SB.act] at ha
    split at ha
    · cases ha
      have hv : s.vis = s.got.length + msgLen x.q := by rw [h.vis, msgLen_append, hgl]
      have hrel : ∀ y : Nat, (s.vis = s.got.length → y = 0) →
          QRel { s with cc := .loaded s.memP s.vis } { x with held := y } done later := by
        intro y hy
        refine ⟨h.got, h.pub, h.vis, h.ne, h.pend, h.lap, ⟨x.q.length, Nat.le_refl _, ?_⟩, hy⟩
        simpa using hv
      by_cases h0 : s.vis = s.got.length
      · have hq : x.q = [] := msgLen_zero (fun m hm => h.ne m (by simp [hm])) (by omega)
        refine ⟨[.nothing], { x with held := 0 }, done, later, by simp [QShows, h0], ?_, hrel 0 (fun _ => rfl), ?_, ?_⟩
        · simp [MQ.run, MQ.step, hq]
        · simp [arrived]
        · simp [completes]
      · exact quiet (by simp [QShows, h0]) (hrel x.held fun h => absurd h h0) rfl
    · cases ha
  | cstep =>
    have hc := hI.c
    have hmaxN := hcore.maxN
    have hvN := hcore.vlim_lt
    have hcpv := hcore.cpv
    have hgot : s.got.length = g.base.length + (if g.c then g.old.length + s.cp else s.cp) := by
      rw [hcore.got]
      cases hct : g.c with
      | true =>
        have := hcore.cp_pp hct
        have := hcore.pp
        simp; omega
      | false =>
        have := hcore.cp_old hct
        simp; omega
    have hpub : s.pub.length - s.pp = g.base.length + g.old.length := by
      rw [hcore.pub, ← hcore.pp]; simp only [List.length_append]; omega
    -- `peek` returns the first `n` messages
    have show_ : ∀ (cb : List Nat) (cp avail n : Nat), n ≤ x.q.length → avail = msgLen (x.q.take n) → (n = 0 → x.held = 0) →
        ∃ es x' done' later', QShows s .cstep { s with cbuf := cb, cp := cp, cc := .holding avail fun _ => none } x es ∧
        MQ.run es x = some x' ∧
        QRel { s with cbuf := cb, cp := cp, cc := .holding avail fun _ => none } x' done' later' ∧
        done' ++ x'.q = done ++ x.q ++ arrived es ∧ done' ++ x'.q ++ later' = done ++ x.q ++ later ++ [] := by
      intro cb cp avail n hn hav hz
      by_cases h0 : n = 0
      · subst h0
        have hav0 : avail = 0 := by rw [hav]; rfl
        refine ⟨[], x, done, later, .inl ⟨rfl, hav0⟩, rfl,
          ⟨h.got, h.pub, h.vis, h.ne, h.pend, h.lap, ?_, ?_⟩, by simp [arrived], by simp⟩
        · rw [hz rfl]; exact Nat.zero_le _
        · rw [hz rfl, hav0]; rfl
      · refine ⟨[.peek n], { x with held := n }, done, later, .inr ⟨n, rfl, hav⟩, ?_, ?_, by simp [arrived], by simp⟩
        · simp [MQ.run, MQ.step, hn, Nat.pos_of_ne_zero h0]
        · exact ⟨h.got, h.pub, h.vis, h.ne, h.pend, h.lap, hn, hav⟩
    simp only [SB.act] at ha
    split at ha
    · rename_i p v hcc
      simp only [CInv, hcc] at hc
      have hk := h.cc
      rw [hcc] at hk
      obtain ⟨⟨n, hn, hv⟩, hz⟩ := hk
      have hz' : n = 0 → x.held = 0 := by
        rintro rfl
        exact hz (by rw [hv]; simp [msgLen])
      split at ha
      · rename_i hlt
        obtain ⟨hcf, hmt, hpm, hv2⟩ := hc.1 hlt
        have hE : s.memE = g.old.length := by
          have := hcore.endE hcf
          have hpa := hcore.path
          rw [hcf, hmt] at hpa
          rwa [applyAll_memE_none _ hpa.no_setE] at this
        have hco := hcore.cp_old hcf
        have hoN := hcore.oldN
        rw [wsub_eq (hE ▸ hco) (by omega)] at ha
        simp only [hcf, Bool.false_eq_true, if_false] at hgot
        split at ha
        · rename_i hpos
          cases ha
          have hvis := hcore.vis
          simp only [hmt, if_true] at hvis
          obtain ⟨n', hn', hx⟩ := Edge.mid h.ne h.lap (by omega) (by rw [← h.vis]; omega)
          refine show_ s.cbuf s.cp _ n' hn' ?_ ?_
          · omega
          · rintro rfl
            simp only [List.take_zero, msgLen_nil] at hx
            omega
        · cases ha
          exact quiet rfl ⟨h.got, h.pub, h.vis, h.ne, h.pend, h.lap, ⟨n, hn, hv⟩, hz⟩ rfl
      · rename_i hge
        obtain ⟨h1, h2⟩ := hc.2 (by omega)
        rw [wsub_eq (by omega) (by omega)] at ha
        cases ha
        refine show_ s.cbuf s.cp _ n hn ?_ hz'
        cases hct : g.c <;> simp only [hct, Bool.false_eq_true, if_false, if_true] at h2 hgot <;> omega
    · rename_i p v hcc
      simp only [CInv, hcc] at hc
      have hk := h.cc
      rw [hcc] at hk
      obtain ⟨⟨n, hn, hv⟩, hz⟩ := hk
      have hz' : n = 0 → x.held = 0 := by
        rintro rfl
        exact hz (by rw [hv]; simp [msgLen])
      obtain ⟨h1, h2, h3, h4⟩ := hc
      have hcp := hcore.cp_pp h1
      have hpp := hcore.ppN
      rw [wsub_eq (by omega) (by omega)] at ha
      cases ha
      refine show_ s.cbuf s.cp _ n hn ?_ hz'
      simp only [h1, if_true] at hgot
      omega
    · cases ha
  | look i =>
    refine quiet rfl ?_ rfl
    simp only [SB.act] at ha
    split at ha
    · rename_i avail view hcc
      split at ha <;> cases ha
      have := h.cc
      rw [hcc] at this
      exact ⟨h.got, h.pub, h.vis, h.ne, h.pend, h.lap, this⟩
    · cases ha
  | consume b =>
    obtain ⟨n, hn, hb⟩ := hw
    have hpre : s'.got <+: s'.pub := by
      obtain ⟨g', hI'⟩ := consume_inv hI ha
      rw [hI'.core.got, hI'.core.pub, List.append_assoc, List.prefix_append_right_inj]
      split
      · rw [List.prefix_append_right_inj]; exact List.take_prefix _ _
      · exact (List.take_prefix _ _).trans (List.prefix_append _ _)
    simp only [SB.act] at ha
    split at ha
    · rename_i avail view hcc
      split at ha
      · split at ha
        · cases ha
        · rename_i hba bs hbs
          cases ha
          have hk := h.cc
          rw [hcc] at hk
          obtain ⟨hh, hav⟩ := hk
          have hbs' : bs = (x.q.take n).flatten := by
            have hlen := (imageBytes_ok hbs).1
            obtain ⟨r, hr⟩ := hpre
            have hr : s.got ++ bs ++ r = s.pub := hr
            have h1 : s.pub = done.flatten ++ ((x.q.take n).flatten ++ ((x.q.drop n).flatten ++ later.flatten)) := by
              rw [h.pub]
              have e : x.q = x.q.take n ++ x.q.drop n := (List.take_append_drop n x.q).symm
              calc _ = done.flatten ++ (x.q.flatten ++ later.flatten) := by simp
                _ = _ := by rw [congrArg List.flatten e, List.flatten_append, List.append_assoc]
            rw [h1, h.got, List.append_assoc] at hr
            have hr := List.append_cancel_left hr
            exact List.append_inj_left hr (by rw [hlen, hb]; rfl)
          have hsplit : done ++ x.q.take n ++ x.q.drop n = done ++ x.q := by
            rw [List.append_assoc, List.take_append_drop]
          have htd : x.q.take x.held = x.q.take n ++ (x.q.drop n).take (x.held - n) := by
            rw [← List.take_append_drop n (x.q.take x.held), List.take_take, Nat.min_eq_left hn, List.drop_take]
          refine ⟨[.take n], ⟨x.q.drop n, x.held - n⟩, done ++ x.q.take n, later, ⟨n, rfl, hb, by rw [← hbs']⟩, ?_,
            ⟨?_, ?_, ?_, ?_, h.pend, ?_, ?_⟩, ?_, ?_⟩
          · simp [MQ.run, MQ.step, hn]
          · show s.got ++ bs = _
            rw [h.got, hbs']; simp
          · show s.pub = _
            rw [hsplit]; exact h.pub
          · show s.vis = _
            rw [hsplit]; exact h.vis
          · show ∀ m ∈ done ++ x.q.take n ++ x.q.drop n ++ later, m ≠ []
            rw [hsplit]; exact h.ne
          · show Edge (done ++ x.q.take n ++ x.q.drop n ++ later) _
            rw [hsplit]; exact h.lap
          · refine ⟨by simp; omega, ?_⟩
            rw [htd, msgLen_append] at hav
            show avail - b = msgLen ((x.q.drop n).take (x.held - n))
            omega
          · simp only [hsplit]; simp [arrived]
          · simp only [hsplit]; simp [completes]
      · cases ha
    · cases ha
  | release =>
    refine quiet rfl ?_ rfl
    simp only [SB.act] at ha
    split at ha
    · cases ha; exact ⟨h.got, h.pub, h.vis, h.ne, h.pend, h.lap, trivial⟩
    · cases ha; exact ⟨h.got, h.pub, h.vis, h.ne, h.pend, h.lap, trivial⟩
    · cases ha
  | canDelete =>
    have hd := (canDelete_inv hI ha).d
    simp only [SB.act] at ha
    split at ha
    · split at ha <;> cases ha
      exact quiet rfl ⟨h.got, h.pub, h.vis, h.ne, h.pend, h.lap, trivial⟩ rfl
    · split at ha <;> cases ha
      have hq : x.q = [] := by
        refine (hm rfl rfl).elim (fun hm => ?_) id
        have hall := hd.2.2 hm
        have : s.got.length = s.pub.length := by rw [show s.got = s.pub from hall]
        refine msgLen_zero (fun m hm => h.ne m (by simp [hm])) ?_
        rw [hpl, h.vis, msgLen_append] at this
        omega
      refine ⟨[.free], x, done, later, rfl, by simp [MQ.run, MQ.step, hq],
        ⟨h.got, h.pub, h.vis, h.ne, h.pend, h.lap, trivial⟩, by simp [arrived], by simp [completes]⟩
    · cases ha

/-! ## Executions -/

/-- The number of messages is determined by their bytes. -/
theorem take_bytes_inj {q : List (List Byte)} (hne : ∀ m ∈ q, m ≠ []) {n k : Nat} (hn : n ≤ q.length) (hk : k ≤ q.length)
    (h : msgLen (q.take n) = msgLen (q.take k)) : n = k := by
  induction q generalizing n k with
  | nil => simp at hn hk; omega
  | cons m q ih =>
    have hm : 0 < m.length := List.length_pos_iff.2 (hne m (by simp))
    rcases n with _ | n <;> rcases k with _ | k
    · rfl
    · simp only [List.take_zero, List.take_succ_cons, msgLen_cons, msgLen_nil] at h; omega
    · simp only [List.take_zero, List.take_succ_cons, msgLen_cons, msgLen_nil] at h; omega
    · simp only [List.take_succ_cons, msgLen_cons] at h
      have := ih (fun m hm => hne m (by simp [hm])) (n := n) (k := k) (by simpa using hn) (by simpa using hk) (by omega)
      omega

/-- The events a step stands for are determined by it. -/
theorem QShows.unique {s s' : SB} {a : Act} {x y z : MQ} {es fs : List QEv} (hne : ∀ m ∈ x.q, m ≠ [])
    (hh : ∀ b, a = .consume b → x.held ≤ x.q.length)
    (h1 : QShows s a s' x es) (h2 : QShows s a s' x fs) (r1 : MQ.run es x = some y) (r2 : MQ.run fs x = some z) :
    es = fs := by
  have pk : ∀ {n y}, MQ.run [.peek n] x = some y → 0 < n ∧ n ≤ x.q.length := by
    intro n y h
    simp only [MQ.run, MQ.step] at h
    split at h
    · cases h
    · rename_i h2; split at h2
      · assumption
      · cases h2
  have tk : ∀ {n y}, MQ.run [.take n] x = some y → n ≤ x.held := by
    intro n y h
    simp only [MQ.run, MQ.step] at h
    split at h
    · cases h
    · rename_i h2; split at h2
      · assumption
      · cases h2
  have z0 : ∀ {n}, 0 < n → n ≤ x.q.length → msgLen (x.q.take n) ≠ 0 := by
    intro n h0 h1 h2
    have := take_bytes_inj hne h1 (Nat.zero_le _) (by rw [h2]; rfl)
    omega
  cases a with
  | commit i =>
    rcases h1 with ⟨rfl, e1⟩ | ⟨m, rfl, n1, e1, t1⟩ <;> rcases h2 with ⟨rfl, e2⟩ | ⟨k, rfl, n2, e2, t2⟩
    · rfl
    · have := List.length_pos_iff.2 n2; omega
    · have := List.length_pos_iff.2 n1; omega
    · have : m.length = k.length := by omega
      rw [← t1, ← t2, this]
  | cstep =>
    simp only [QShows] at h1 h2
    cases hcc : s'.cc <;> rw [hcc] at h1 h2
    case holding =>
      rcases h1 with ⟨rfl, e1⟩ | ⟨n, rfl, e1⟩ <;> rcases h2 with ⟨rfl, e2⟩ | ⟨k, rfl, e2⟩
      · rfl
      · obtain ⟨p1, p2⟩ := pk r2
        exact absurd (e2.symm.trans e1) (z0 p1 p2)
      · obtain ⟨p1, p2⟩ := pk r1
        exact absurd (e1.symm.trans e2) (z0 p1 p2)
      · rw [take_bytes_inj hne (pk r1).2 (pk r2).2 (e1.symm.trans e2)]
    all_goals exact h1.trans h2.symm
  | consume b =>
    obtain ⟨n, rfl, e1, -⟩ := h1
    obtain ⟨k, rfl, e2, -⟩ := h2
    have := hh b rfl
    rw [take_bytes_inj hne (Nat.le_trans (tk r1) this) (Nat.le_trans (tk r2) this) (e1.symm.trans e2)]
  | _ => exact Eq.trans h1 (Eq.symm h2)

theorem SB.run_snoc (mm : MemModel) (N : Nat) (as : List Act) (a : Act) (s : SB) :
    SB.run mm N (as ++ [a]) s = (SB.run mm N as s).bind fun t => t.act mm N a := by
  induction as generalizing s with
  | nil => simp only [List.nil_append, SB.run, Option.bind_some]; cases s.act mm N a <;> rfl
  | cons b as ih =>
    simp only [List.cons_append, SB.run]
    cases s.act mm N b with
    | none => rfl
    | some t => exact ih t

theorem QRun.reachable {mm : MemModel} {N : Nat} {as es ms s x} (h : QRun mm N as es ms s x) :
    SB.run mm N as (SB.init N) = some s := by
  induction h with
  | init => rfl
  | step h ha _ _ _ ih =>
    rw [SB.run_snoc, ih]
    exact ha

/-- The relation holds in every execution. -/
theorem QRun.rel {mm : MemModel} {N : Nat} (h0 : 0 < N) (hN : N < 2 ^ 64) {as es ms s x}
    (h : QRun mm N as es ms s x) : ∃ g done later, SInv mm N s g ∧ QRel s x done later ∧ arrived es = done ++ x.q ∧
      ms = done ++ x.q ++ later := by
  induction h with
  | init =>
    refine ⟨_, [], [], SInv.init mm h0 hN, ?_, rfl, rfl⟩
    exact ⟨rfl, rfl, rfl, by simp, rfl, ⟨[], [], rfl, rfl⟩, trivial⟩
  | @step as es ms s x a s' es' x' h ha hw hs hr ih =>
    obtain ⟨g, done, later, hI, hq, h1, h2⟩ := ih
    obtain ⟨g', hI'⟩ := act_inv hI ha
    obtain ⟨fs, y, done', later', hs2, hr2, hq', h3, h4⟩ := hq.step hI ha
      (by
        rintro rfl hf
        refine .inr ?_
        simp only [QShows, hf] at hs
        subst hs
        simp only [MQ.run, MQ.step] at hr
        split at hr
        · cases hr
        · rename_i h5; split at h5
          · assumption
          · cases h5) hw
    have hu : es' = fs := by
      refine QShows.unique (fun m hm => hq.ne m (by simp [hm])) ?_ hs hs2 hr hr2
      rintro b rfl
      have hc := hq.cc
      simp only [SB.act] at ha
      split at ha
      · rename_i hcc
        rw [hcc] at hc
        exact hc.1
      · cases ha
    subst hu
    rw [hr] at hr2
    cases hr2
    exact ⟨g', done', later', hI', hq', by rw [arrived_append, h1, h3], by rw [h2, h4]⟩

end NanoLog
