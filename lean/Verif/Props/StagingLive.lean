import Verif.Props.Staging

/-! Infinite executions of the staging buffer: what fair scheduling guarantees. -/

namespace NanoLog

/-- An infinite execution from the initial state.  `α k = none`: other parts of the program
run. -/
structure Exec (mm : MemModel) (N : Nat) where
  σ : Nat → SB
  α : Nat → Option Act
  init : σ 0 = SB.init N
  step : ∀ k, match α k with
    | none => σ (k + 1) = σ k
    | some a => (σ k).act mm N a = some (σ (k + 1))

/-- Is the producer inside `reserveSpaceInternal`, waiting for `n` bytes? -/
def PPc.waiting : PPc → Nat → Prop
  | .loop m, n => m = n
  | .loaded m _, n => m = n
  | .wrapping m _, n => m = n
  | _, _ => False

/-- Fair scheduling: pending stores arrive eventually, a waiting producer continues, the
background thread scans the buffer again and again (RuntimeLogger.cc:383-629) and goes on to
the next buffer only after having consumed all that `peek` returned (435-470; it does not
when the output buffer is full, but then scans it again). -/
structure Exec.Fair {mm N} (e : Exec mm N) : Prop where
  stores : ∀ k, (e.σ k).buf ≠ [] → ∃ j, k ≤ j ∧ e.α j = some (.commit 0)
  storesC : ∀ k, (e.σ k).cbuf ≠ [] → ∃ j, k ≤ j ∧ e.α j = some .commitC
  producer : ∀ k n, (e.σ k).pc.waiting n → ∃ j, k ≤ j ∧ e.α j = some .pstep
  scans : ∀ k, ∃ j, k ≤ j ∧ e.α j = some .peek
  keepsUp : ∀ k, e.α k = some .release →
    (∃ view, (e.σ k).cc = .holding 0 view) ∨ (e.σ k).cc = .dead

/-- The part of `Exec.Fair` that does not say how much the background thread consumes. -/
structure Exec.Live {mm N} (e : Exec mm N) : Prop where
  stores : ∀ k, (e.σ k).buf ≠ [] → ∃ j, k ≤ j ∧ e.α j = some (.commit 0)
  storesC : ∀ k, (e.σ k).cbuf ≠ [] → ∃ j, k ≤ j ∧ e.α j = some .commitC
  producer : ∀ k n, (e.σ k).pc.waiting n → ∃ j, k ≤ j ∧ e.α j = some .pstep
  scans : ∀ k, ∃ j, k ≤ j ∧ e.α j = some .peek

theorem Exec.Fair.live {mm N} {e : Exec mm N} (h : e.Fair) : e.Live := ⟨h.stores, h.storesC, h.producer, h.scans⟩

theorem SB.run_append {mm N} (a b : List Act) (s : SB) :
    SB.run mm N (a ++ b) s = (SB.run mm N a s).bind (SB.run mm N b) := by
  induction a generalizing s with
  | nil => rfl
  | cons x a ih =>
    simp only [List.cons_append, SB.run]
    split
    · rfl
    · exact ih _

theorem SB.Reachable.step {mm N s a s'} (h : SB.Reachable mm N s) (ha : s.act mm N a = some s') :
    SB.Reachable mm N s' := by
  obtain ⟨as, has⟩ := h
  refine ⟨as ++ [a], ?_⟩
  rw [SB.run_append, has]
  simp [SB.run, ha]

theorem Exec.reachable {mm N} (e : Exec mm N) (k : Nat) : SB.Reachable mm N (e.σ k) := by
  induction k with
  | zero => rw [e.init]; exact ⟨[], rfl⟩
  | succ k ih =>
    have := e.step k
    split at this
    · rw [this]; exact ih
    · exact ih.step this

/-- A property of states kept by every step from `k` on holds from `k` on. -/
theorem Exec.always {mm N} (e : Exec mm N) {P : SB → Prop} {k : Nat} (h0 : P (e.σ k))
    (hs : ∀ j a, k ≤ j → e.α j = some a → (e.σ j).act mm N a = some (e.σ (j + 1)) → P (e.σ j) →
      P (e.σ (j + 1))) : ∀ j, k ≤ j → P (e.σ j) := by
  intro j hj
  obtain ⟨d, rfl⟩ := Nat.exists_eq_add_of_le hj
  induction d with
  | zero => exact h0
  | succ d ih =>
    have h1 := ih (by omega)
    have h2 := e.step (k + d)
    split at h2
    · rw [show k + (d + 1) = k + d + 1 by omega, h2]; exact h1
    · rename_i a ha
      exact hs (k + d) a (by omega) ha h2 h1

/-- What a step does to the histories and the positions. -/
theorem act_frame {mm : MemModel} {N : Nat} {s s' : SB} {a : Act} (h : s.act mm N a = some s') :
    s.pub <+: s'.pub ∧ s.got <+: s'.got ∧
    ((∀ n, a ≠ .consume n) → s'.got = s.got) ∧
    ((∀ n, a ≠ .finish n) → s'.pub = s.pub) ∧
    ((a ≠ .pstep ∧ ∀ n, a ≠ .finish n) → s'.pp = s.pp) ∧
    ((a ≠ .cstep ∧ ∀ n, a ≠ .consume n) → s'.cp = s.cp) ∧
    ((a ≠ .cstep ∧ (∀ n, a ≠ .consume n) ∧ a ≠ .commitC) → s'.cbuf = s.cbuf ∧ s'.memC = s.memC) := by
  cases a with
  | commit k =>
    simp only [SB.act] at h
    split at h
    · split at h
      · simp at h
      · rename_i w _
        simp only [Option.some.injEq] at h; subst h
        cases w <;> simp [SB.apply]
    · simp at h
  | _ =>
    simp only [SB.act] at h
    repeat' split at h
    all_goals first
      | (simp at h; done)
      | (simp only [Option.some.injEq] at h; subst h; simp)

/-- Consumer-side control only changes by consumer steps, producer-side by producer steps. -/
theorem act_pc {mm : MemModel} {N : Nat} {s s' : SB} {a : Act} (h : s.act mm N a = some s') :
    ((∀ n, a ≠ .reserve n) ∧ a ≠ .pstep ∧ (∀ i b, a ≠ .put i b) ∧ (∀ n, a ≠ .finish n) ∧ a ≠ .exit →
      s'.pc = s.pc) ∧
    (a ≠ .peek ∧ a ≠ .cstep ∧ (∀ i, a ≠ .look i) ∧ (∀ n, a ≠ .consume n) ∧ a ≠ .release ∧
      a ≠ .canDelete → s'.cc = s.cc) := by
  cases a with
  | commit k =>
    simp only [SB.act] at h
    split at h
    · split at h
      · simp at h
      · rename_i w _
        simp only [Option.some.injEq] at h; subst h
        cases w <;> simp [SB.apply]
    · simp at h
  | _ =>
    simp only [SB.act] at h
    repeat' split at h
    all_goals first
      | (simp at h; done)
      | (simp only [Option.some.injEq] at h; subst h; simp)

/-- How the pending stores of the producer change. -/
theorem act_buf {mm : MemModel} {N : Nat} {s s' : SB} {a : Act} (h : s.act mm N a = some s') :
    (∃ new, s'.buf = s.buf ++ new ∧ (∀ k, a ≠ .commit k) ∧ s'.vis = s.vis ∧ s'.memP = s.memP ∧
      (∀ v l, Store.setP v l ∈ new → s.pub.length ≤ l) ∧
      (∀ v l, Store.setP v l ∈ new → (∃ m, a = .finish m) ∨
        a = .pstep ∧ ∃ n c, s.pc = .wrapping n c ∧ c ≠ 0)) ∨
    ∃ k w, a = .commit k ∧ canCommit mm s.buf k = true ∧ s.buf[k]? = some w ∧
      s' = { s.apply w with buf := s.buf.eraseIdx k } := by
  cases a with
  | commit k =>
    simp only [SB.act] at h
    split at h
    · rename_i hk
      split at h
      · simp at h
      · rename_i w hw
        simp only [Option.some.injEq] at h
        exact Or.inr ⟨k, w, rfl, hk, hw, h.symm⟩
    · simp at h
  | _ =>
    left
    simp only [SB.act] at h
    repeat' split at h
    all_goals first
      | (simp at h; done)
      | (simp only [Option.some.injEq] at h; subst h
         exact ⟨[], (List.append_nil _).symm, by simp, rfl, rfl, by simp, by simp⟩)
      | (simp only [Option.some.injEq] at h; subst h
         refine ⟨_, rfl, by simp, rfl, rfl, by simp, ?_⟩
         intro v l _
         first
           | exact Or.inr ⟨rfl, _, _, by assumption, by assumption⟩
           | simp_all)

theorem Core.settle_vis {N s g} (h : Core N s g) : (applyAll s.buf s).vis = s.pub.length := by
  have key : ∀ (b : List Store) (m : Bool) (p : Nat) (t : SB),
      Path g.c s.cp g.base.length g.old.length m p b true s.pp →
      t.vis = g.base.length + (if m then g.old.length + p else p) →
      (applyAll b t).vis = g.base.length + (g.old.length + s.pp) := by
    intro b
    induction b with
    | nil =>
      intro m p t hp ht
      obtain ⟨rfl, rfl⟩ := hp
      simp only [if_true] at ht
      exact ht
    | cons w b ih =>
      intro m p t hp ht
      have h1 : applyAll (w :: b) t = applyAll b (t.apply w) := rfl
      rw [h1]
      cases w with
      | data i x => exact ih m p _ hp.2 ht
      | setP v l =>
        rcases hp with ⟨x1, x2, x3, x4⟩ | ⟨x1, x2, x3, x4, x5⟩
        · exact ih m v _ x4 x3
        · exact ih true 0 _ x5 (by simp only [SB.apply, if_true]; omega)
      | setE v => exact ih m p _ hp.2 ht
      | fence => exact ih m p _ hp ht
      | setD => exact ih m p _ hp ht
  rw [key _ _ _ _ h.path h.vis, h.pub, ← h.pp]
  simp

theorem Path.no_setP {c cp base oldLen m p a m' p'} (h : Path c cp base oldLen m p a m' p')
    (hn : ∀ v l, Store.setP v l ∉ a) : m = m' ∧ p = p' := by
  induction a generalizing m p with
  | nil => exact h
  | cons w a ih =>
    have hn' : ∀ v l, Store.setP v l ∉ a := fun v l hx => hn v l (by simp [hx])
    cases w with
    | data i x => exact ih h.2 hn'
    | setP v l => exact absurd (List.mem_cons_self ..) (hn v l)
    | setE v => exact ih h.2 hn'
    | fence => exact ih h hn'
    | setD => exact ih h hn'

/-- The pending stores are `rem`, what is left of the stores pending at some time, and `new`,
those since then. -/
def Split (m L : Nat) (P : Store → Prop) (s : SB) : Prop :=
  ∃ rem new, s.buf = rem ++ new ∧ rem.length ≤ m ∧ L ≤ (applyAll rem s).vis ∧
    (∀ v l, Store.setP v l ∈ new → L ≤ l) ∧ (∀ w ∈ new, P w)

theorem applyAll_vis_upd {b : List Store} {s t : SB} (h : s.vis = t.vis) :
    (applyAll b s).vis = (applyAll b t).vis := by
  induction b generalizing s t with
  | nil => exact h
  | cons w b ih =>
    have h1 : applyAll (w :: b) s = applyAll b (s.apply w) := rfl
    have h2 : applyAll (w :: b) t = applyAll b (t.apply w) := rfl
    rw [h1, h2]
    apply ih
    cases w <;> simp [SB.apply, h]

/-- Every step keeps the split, and a commit of the first store shrinks it. -/
theorem Split.act {mm N s a s' m L} {P : Store → Prop} {g : Ghost} (hg : Core N s g)
    (h : Split m L P s) (ha : s.act mm N a = some s') (hL : L ≤ s.pub.length)
    (hP : ∀ new, s'.buf = s.buf ++ new → (∀ k, a ≠ .commit k) → ∀ w ∈ new, P w) :
    Split m L P s' ∧ (a = .commit 0 → Split (m - 1) L P s') := by
  obtain ⟨rem, new, hb, hm, hv, hl, hp⟩ := h
  rcases act_buf ha with ⟨x, hx, hk, e1, _, e3, _⟩ | ⟨k, w, rfl, hk, hw, rfl⟩
  · refine ⟨⟨rem, new ++ x, by rw [hx, hb, List.append_assoc], hm, ?_, ?_, ?_⟩, fun h => absurd h (hk 0)⟩
    · rw [applyAll_vis_upd e1]; exact hv
    · intro v l hvl
      rcases List.mem_append.1 hvl with h | h
      · exact hl v l h
      · exact Nat.le_trans hL (e3 v l h)
    · intro w hw
      rcases List.mem_append.1 hw with h | h
      · exact hp w h
      · exact hP x hx hk w h
  · obtain ⟨_, _, hb1, he1, hv1, ht1, hf1, hs1⟩ := commit_split hg.fenced hk hw
    rcases Nat.lt_or_ge k rem.length with hkr | hkr
    · -- a store of `rem`
      have hw2 : rem[k]? = some w := by
        rw [hb, List.getElem?_append_left hkr] at hw; exact hw
      have hsplit : rem = rem.take k ++ w :: rem.drop (k + 1) := by
        rw [List.getElem?_eq_some_iff] at hw2
        obtain ⟨h, rfl⟩ := hw2
        rw [← List.drop_eq_getElem_cons h, List.take_append_drop]
      have hlenk : (rem.take k).length = k := by simp; omega
      have he : s.buf.eraseIdx k = (rem.take k ++ rem.drop (k + 1)) ++ new := by
        rw [hb, List.eraseIdx_append_of_lt_length hkr, List.eraseIdx_eq_take_drop_succ]
      have hsv : ∀ v ∈ rem.take k, v.sameVar w = false := by
        have hk' : canCommit mm s.buf k = true := hk
        cases mm with
        | tso =>
          simp only [canCommit, decide_eq_true_eq] at hk'
          subst hk'; simp
        | pso =>
          simp only [canCommit, hw] at hk'
          have htk : s.buf.take k = rem.take k := by
            rw [hb, List.take_append_of_le_length (by omega)]
          cases w with
          | fence =>
            have : k = 0 := by simpa using hk'
            subst this; simp
          | _ =>
            intro v hv
            rw [htk] at hk'
            have := List.all_eq_true.1 hk' v hv
            simp only [ne_eq, decide_eq_true_eq] at this
            exact this.2
      have hvis : L ≤ (applyAll (rem.take k ++ rem.drop (k + 1))
          { s.apply w with buf := s.buf.eraseIdx k }).vis := by
        refine Nat.le_trans ?_ (Nat.le_of_eq (applyAll_vis_upd
          (s := { s.apply w with buf := s.buf.eraseIdx k }) (t := s.apply w) rfl).symm)
        rw [applyAll_append, ← applyAll_comm hsv]
        rw [hsplit, applyAll_append] at hv
        exact hv
      have hlen : (rem.take k ++ rem.drop (k + 1)).length = rem.length - 1 := by
        simp; omega
      exact ⟨⟨_, new, he, by rw [hlen]; omega, hvis, hl, hp⟩,
        fun _ => ⟨_, new, he, by rw [hlen]; omega, hvis, hl, hp⟩⟩
    · -- a store of `new`
      have hwn : w ∈ new := by
        rw [hb, List.getElem?_append_right hkr] at hw
        exact List.mem_of_getElem? hw
      have he : s.buf.eraseIdx k = rem ++ new.eraseIdx (k - rem.length) := by
        rw [hb, List.eraseIdx_append_of_length_le hkr]
      have hvis : L ≤ (applyAll rem { s.apply w with buf := s.buf.eraseIdx k }).vis := by
        refine Nat.le_trans ?_ (Nat.le_of_eq (applyAll_vis_upd
          (s := { s.apply w with buf := s.buf.eraseIdx k }) (t := s.apply w) rfl).symm)
        cases w with
        | setP v l =>
          have hr : rem = [] := by
            have := hs1 v l rfl
            subst this
            have hk0 : k = 0 := by
              rcases Nat.eq_zero_or_pos k with h | h
              · exact h
              · exfalso
                have h2 : s.buf.eraseIdx k = s.buf.drop 1 := by rw [he1, hb1]; rfl
                cases mm with
                | tso => simp only [canCommit, decide_eq_true_eq] at hk; omega
                | pso =>
                  simp only [canCommit, hw, List.all_eq_true] at hk
                  have h3 : s.buf[0]? = some (.setP v l) := by rw [hb1]; rfl
                  have := hk (.setP v l) (by
                    rw [List.mem_take_iff_getElem]
                    refine ⟨0, ?_, ?_⟩
                    · rw [hb1]; simp; omega
                    · rw [List.getElem?_eq_some_iff] at h3; exact h3.2)
                  simp [Store.sameVar] at this
            have : rem.length = 0 := by omega
            exact List.length_eq_zero_iff.1 this
          subst hr
          exact hl v l hwn
        | _ =>
          rw [show (applyAll rem (s.apply _)).vis = (applyAll rem s).vis from applyAll_vis_upd rfl]
          exact hv
      have hsub : ∀ x ∈ new.eraseIdx (k - rem.length), x ∈ new := fun x hx => List.mem_of_mem_eraseIdx hx
      refine ⟨⟨rem, _, he, hm, hvis, fun v l h => hl v l (hsub _ h), fun w h => hp w (hsub _ h)⟩,
        fun h => ⟨rem, _, he, ?_, hvis, fun v l h => hl v l (hsub _ h), fun w h => hp w (hsub _ h)⟩⟩
      simp only [Act.commit.injEq] at h
      omega

/-- Pending stores arrive: from some time on, all pending stores are newer than time `k`. -/
theorem Exec.flush {mm N} (e : Exec mm N) (hf : e.Live) (h0 : 0 < N) (hN : N < 2 ^ 64) (k : Nat)
    (P : Store → Prop)
    (hP : ∀ j a, k ≤ j → e.α j = some a → ∀ new, (e.σ (j + 1)).buf = (e.σ j).buf ++ new →
      (∀ k, a ≠ .commit k) → ∀ w ∈ new, P w) :
    ∃ j, k ≤ j ∧ ∀ i, j ≤ i → Split 0 (e.σ k).pub.length P (e.σ i) := by
  have hpub : ∀ j, k ≤ j → (e.σ k).pub.length ≤ (e.σ j).pub.length := by
    apply e.always (P := fun s => (e.σ k).pub.length ≤ s.pub.length) (Nat.le_refl _)
    intro j a _ _ hs h
    exact Nat.le_trans h (act_frame hs).1.length_le
  have hkeep : ∀ m j, k ≤ j → Split m (e.σ k).pub.length P (e.σ j) →
      ∀ i, j ≤ i → Split m (e.σ k).pub.length P (e.σ i) := by
    intro m j hkj hj
    apply e.always hj
    intro i a hi ha hs h
    obtain ⟨g, hg⟩ := Reachable.inv h0 hN (e.reachable i)
    exact (h.act hg.core hs (hpub i (by omega)) (hP i a (by omega) ha)).1
  have hmain : ∀ m, ∀ j, k ≤ j → Split m (e.σ k).pub.length P (e.σ j) →
      ∃ i, j ≤ i ∧ Split 0 (e.σ k).pub.length P (e.σ i) := by
    intro m
    induction m with
    | zero => intro j hkj h; exact ⟨j, Nat.le_refl _, h⟩
    | succ m ih =>
      intro j hkj h
      by_cases hb : (e.σ j).buf = []
      · refine ⟨j, Nat.le_refl _, ?_⟩
        obtain ⟨rem, new, x1, x2, x3, x4, x5⟩ := h
        rw [hb] at x1
        obtain ⟨rfl, rfl⟩ := List.append_eq_nil_iff.1 x1.symm
        exact ⟨[], [], hb, Nat.le_refl _, x3, x4, x5⟩
      · obtain ⟨i, hi, ha⟩ := hf.stores j hb
        have h1 := hkeep _ j hkj h i hi
        have hs := e.step i
        rw [ha] at hs
        obtain ⟨g, hg⟩ := Reachable.inv h0 hN (e.reachable i)
        have h2 := (h1.act hg.core hs (hpub i (by omega)) (hP i _ (by omega) ha)).2 rfl
        obtain ⟨i', hi', h3⟩ := ih (i + 1) (by omega) h2
        exact ⟨i', by omega, h3⟩
  obtain ⟨g, hg⟩ := Reachable.inv h0 hN (e.reachable k)
  have hstart : Split (e.σ k).buf.length (e.σ k).pub.length P (e.σ k) :=
    ⟨(e.σ k).buf, [], by simp, Nat.le_refl _, by rw [hg.core.settle_vis]; exact Nat.le_refl _,
      by simp, by simp⟩
  obtain ⟨j, hj, h⟩ := hmain _ k (Nat.le_refl _) hstart
  exact ⟨j, hj, hkeep 0 j hj h⟩

theorem Split.zero_vis {L P s} (h : Split 0 L P s) : L ≤ s.vis ∧ ∀ w ∈ s.buf, P w := by
  obtain ⟨rem, new, x1, x2, x3, x4, x5⟩ := h
  have : rem = [] := List.length_eq_zero_iff.1 (by omega)
  subst this
  exact ⟨x3, by rw [x1]; exact x5⟩


theorem Exec.got_mono {mm N} (e : Exec mm N) {k j : Nat} (h : k ≤ j) :
    (e.σ k).got <+: (e.σ j).got := by
  refine e.always (P := fun s => (e.σ k).got <+: s.got) (List.prefix_refl _) ?_ j h
  intro j a _ _ hs h
  exact h.trans (act_frame hs).2.1

theorem Exec.pub_mono {mm N} (e : Exec mm N) {k j : Nat} (h : k ≤ j) :
    (e.σ k).pub <+: (e.σ j).pub := by
  refine e.always (P := fun s => (e.σ k).pub <+: s.pub) (List.prefix_refl _) ?_ j h
  intro j a _ _ hs h
  exact h.trans (act_frame hs).1

/-- One round of the background thread: where it stands between two `peek`s. -/
def Round (L g0 : Nat) (s : SB) : Prop :=
  L ≤ s.got.length ∨ g0 < s.got.length ∨
  (∃ p v, (s.cc = .loaded p v ∨ s.cc = .rolled p v) ∧ L ≤ v) ∨
  (∃ a view, s.cc = .holding a view ∧ 0 < a)

theorem Round.act {mm : MemModel} {N : Nat} {s s' : SB} {a : Act} {L g0 : Nat} (h0 : 0 < N) (hN : N < 2 ^ 64)
    (hr : SB.Reachable mm N s) (h : Round L g0 s) (hg : g0 ≤ s.got.length)
    (hk : a = .release → (∃ view, s.cc = .holding 0 view) ∨ s.cc = .dead)
    (ha : s.act mm N a = some s') : Round L g0 s' := by
  have hfr := act_frame ha
  have hpc := act_pc ha
  rcases h with h | h | ⟨p, v, hc, hv⟩ | ⟨av, view, hc, hv⟩
  · exact Or.inl (Nat.le_trans h hfr.2.1.length_le)
  · exact Or.inr (Or.inl (Nat.lt_of_lt_of_le h hfr.2.1.length_le))
  · by_cases hcs : a = .cstep
    · subst hcs
      have hgot := hfr.2.2.1 (by simp)
      cases hc' : s'.cc with
      | holding a' view' =>
        rcases Nat.eq_zero_or_pos a' with h | h
        · subst h
          have := C10_empty h0 hN hr hc ha hc'
          left; rw [hgot]; omega
        · exact Or.inr (Or.inr (Or.inr ⟨a', view', hc', h⟩))
      | rolled p' v' =>
        rcases hc with hc | hc
        · simp only [SB.act, hc] at ha
          repeat' split at ha
          all_goals (simp only [Option.some.injEq] at ha; subst ha; simp at hc')
          exact Or.inr (Or.inr (Or.inl ⟨p, v, Or.inr rfl, hv⟩))
        · simp only [SB.act, hc] at ha
          simp only [Option.some.injEq] at ha; subst ha; simp at hc'
      | _ =>
        rcases hc with hc | hc
        · simp only [SB.act, hc] at ha
          repeat' split at ha
          all_goals (simp only [Option.some.injEq] at ha; subst ha; simp at hc')
        · simp only [SB.act, hc] at ha
          simp only [Option.some.injEq] at ha; subst ha; simp at hc'
    · have hcc : s'.cc = s.cc := by
        apply hpc.2
        refine ⟨fun h => ?_, hcs, fun i h => ?_, fun i h => ?_, fun h => ?_, fun h => ?_⟩ <;>
          subst h <;> rcases hc with hc | hc <;> simp [SB.act, hc] at ha
      rw [← hcc] at hc
      exact Or.inr (Or.inr (Or.inl ⟨p, v, hc, hv⟩))
  · by_cases hl : ∃ i, a = .look i
    · obtain ⟨i, rfl⟩ := hl
      simp only [SB.act, hc] at ha
      split at ha
      · simp only [Option.some.injEq] at ha; subst ha
        exact Or.inr (Or.inr (Or.inr ⟨av, _, rfl, hv⟩))
      · simp at ha
    · by_cases hn : ∃ n, a = .consume n
      · obtain ⟨n, rfl⟩ := hn
        simp only [SB.act, hc] at ha
        split at ha
        · split at ha
          · simp at ha
          · rename_i hle _ bs hbs
            obtain ⟨hlen, _⟩ := imageBytes_ok hbs
            simp only [Option.some.injEq] at ha; subst ha
            rcases Nat.eq_zero_or_pos n with h | h
            · subst h
              exact Or.inr (Or.inr (Or.inr ⟨av - 0, _, rfl, by omega⟩))
            · right; left
              simp; omega
        · simp at ha
      · by_cases hrel : a = .release
        · rcases hk hrel with ⟨vw, h⟩ | h
          · rw [hc] at h; simp at h; omega
          · rw [hc] at h; simp at h
        · have hcc : s'.cc = s.cc := by
            apply hpc.2
            refine ⟨?_, ?_, fun i h => hl ⟨i, h⟩, fun n h => hn ⟨n, h⟩, hrel, ?_⟩ <;> rintro rfl
            · simp [SB.act, hc] at ha
            · simp [SB.act, hc] at ha
            · cases av with
              | zero => omega
              | succ av => simp [SB.act, hc] at ha
          rw [← hcc] at hc
          exact Or.inr (Or.inr (Or.inr ⟨av, view, hc, hv⟩))

/-- **C07**, liveness: under fair scheduling every published byte is consumed eventually. -/
theorem C07_eventually {mm : MemModel} {N : Nat} (h0 : 0 < N) (hN : N < 2 ^ 64) (e : Exec mm N)
    (hf : e.Fair) (k : Nat) : ∃ j, k ≤ j ∧ (e.σ k).pub <+: (e.σ j).got := by
  obtain ⟨k1, hk1, hs⟩ := e.flush hf.live h0 hN k (fun _ => True) (fun _ _ _ _ _ _ _ _ _ => trivial)
  have hvis : ∀ i, k1 ≤ i → (e.σ k).pub.length ≤ (e.σ i).vis := fun i hi => (hs i hi).zero_vis.1
  -- one round makes progress
  have hround : ∀ i, k1 ≤ i → ∃ j, i ≤ j ∧ ((e.σ k).pub.length ≤ (e.σ j).got.length ∨
      (e.σ i).got.length < (e.σ j).got.length) := by
    intro i hi
    obtain ⟨j, hj, ha⟩ := hf.scans i
    obtain ⟨j', hj', ha'⟩ := hf.scans (j + 1)
    have hstep := e.step j
    rw [ha] at hstep
    have hR : Round (e.σ k).pub.length (e.σ i).got.length (e.σ (j + 1)) := by
      have hstep' := hstep
      simp only [SB.act] at hstep'
      split at hstep'
      · simp only [Option.some.injEq] at hstep'
        right; right; left
        exact ⟨_, _, Or.inl (by rw [← hstep']), hvis j (by omega)⟩
      · simp at hstep'
    have hR' := e.always (P := Round (e.σ k).pub.length (e.σ i).got.length) hR (by
      intro q a hq ha hs h
      exact h.act h0 hN (e.reachable q) (e.got_mono (by omega)).length_le
        (fun hrel => hf.keepsUp q (by rw [ha, hrel])) hs) j' (by omega)
    refine ⟨j', by omega, ?_⟩
    have hidle : (e.σ j').cc = .idle := by
      have hstep := e.step j'
      rw [ha'] at hstep
      simp only [SB.act] at hstep
      split at hstep
      · assumption
      · simp at hstep
    rcases hR' with h | h | ⟨p, v, hc, _⟩ | ⟨a, view, hc, _⟩
    · exact Or.inl h
    · exact Or.inr h
    · rw [hidle] at hc; simp at hc
    · rw [hidle] at hc; simp at hc
  have hmain : ∀ d i, k1 ≤ i → (e.σ k).pub.length ≤ (e.σ i).got.length + d →
      ∃ j, i ≤ j ∧ (e.σ k).pub.length ≤ (e.σ j).got.length := by
    intro d
    induction d with
    | zero => intro i hi h; exact ⟨i, Nat.le_refl _, h⟩
    | succ d ih =>
      intro i hi h
      obtain ⟨j, hj, h1 | h1⟩ := hround i hi
      · exact ⟨j, hj, h1⟩
      · obtain ⟨j', hj', h2⟩ := ih j (by omega) (by omega)
        exact ⟨j', by omega, h2⟩
  obtain ⟨j, hj, h⟩ := hmain (e.σ k).pub.length k1 (Nat.le_refl _) (by omega)
  refine ⟨j, by omega, ?_⟩
  exact List.prefix_of_prefix_length_le (e.pub_mono (by omega)) (C07_prefix h0 hN (e.reachable j)) h


/-- A waiting producer goes on: the next step it takes is from where it stands. -/
theorem Exec.next_pstep {mm N} (e : Exec mm N) (hf : e.Live) {k n : Nat}
    (hw : (e.σ k).pc.waiting n) :
    ∃ j, k ≤ j ∧ e.α j = some .pstep ∧ (e.σ j).pc = (e.σ k).pc := by
  obtain ⟨j, hj, ha⟩ := hf.producer k n hw
  obtain ⟨d, rfl⟩ := Nat.exists_eq_add_of_le hj
  clear hj
  induction d generalizing k with
  | zero => exact ⟨k, Nat.le_refl _, ha, rfl⟩
  | succ d ih =>
    by_cases h : e.α k = some .pstep
    · exact ⟨k, Nat.le_refl _, h, rfl⟩
    · have hpc : (e.σ (k + 1)).pc = (e.σ k).pc := by
        have hs := e.step k
        split at hs
        · rw [hs]
        · rename_i a hak
          have hne : a ≠ .pstep := fun h' => h (by rw [hak, h'])
          apply (act_pc hs).1
          refine ⟨fun i h => ?_, hne, fun i b h => ?_, fun i h => ?_, fun h => ?_⟩ <;> subst h <;>
            (cases hp : (e.σ k).pc <;> simp [PPc.waiting, hp] at hw <;> simp [SB.act, hp] at hs)
      obtain ⟨j, hj, h1, h2⟩ := ih (k := k + 1) (by rw [hpc]; exact hw)
        (by rw [show k + 1 + d = k + (d + 1) by omega]; exact ha)
      exact ⟨j, by omega, h1, by rw [h2, hpc]⟩

/-- While the producer waits, nothing is published. -/
theorem waiting_pub {mm : MemModel} {N n : Nat} {s s' : SB} {a : Act} (hw : s.pc.waiting n)
    (ha : s.act mm N a = some s') : s'.pub = s.pub := by
  apply (act_frame ha).2.2.2.1
  rintro i rfl
  cases hp : s.pc <;> simp [PPc.waiting, hp] at hw <;> simp [SB.act, hp] at ha

/-- A step of a waiting producer that does not succeed. -/
theorem waiting_pstep {mm : MemModel} {N n : Nat} {s s' : SB} {a : Act} (hw : s.pc.waiting n)
    (ha : s.act mm N a = some s') (hw' : s'.pc.waiting n) :
    s'.pp = s.pp ∨ (a = .pstep ∧ s'.pp = 0 ∧ s'.pc = .loop n) := by
  by_cases h : a = .pstep
  · subst h
    cases hp : s.pc <;> simp [PPc.waiting, hp] at hw <;> simp only [SB.act, hp] at ha
    all_goals
      subst hw
      repeat' split at ha
      all_goals (simp only [Option.some.injEq] at ha; subst ha; simp)
  · left
    apply (act_frame ha).2.2.2.2.1
    refine ⟨h, ?_⟩
    rintro i rfl
    cases hp : s.pc <;> simp [PPc.waiting, hp] at hw <;> simp [SB.act, hp] at ha

/-- Everything consumed: the consumer is at the producer's position, or still at the end of
the lap before. -/
theorem drained_pos {mm : MemModel} {N : Nat} {s : SB} {g : Ghost} (h : SInv mm N s g)
    (hd : s.got = s.pub) :
    (g.c = true ∧ s.cp = s.pp) ∨ (g.c = false ∧ s.pp = 0 ∧ s.cp = g.old.length ∧ 0 < s.cp) := by
  have hgot := h.core.got
  have hpp := h.core.pp
  rw [hd, h.core.pub] at hgot
  cases hc : g.c with
  | true =>
    left
    simp only [hc, if_true, List.append_assoc] at hgot
    have h1 := congrArg List.length hgot
    have := h.core.cp_pp hc
    simp at h1
    exact ⟨rfl, by omega⟩
  | false =>
    right
    simp only [hc, List.append_assoc, Bool.false_eq_true, if_false] at hgot
    have h1 := congrArg List.length hgot
    have := h.core.cp_old hc
    have := h.core.ahead hc
    simp at h1
    exact ⟨rfl, by omega, by omega, by omega⟩

/-- Until it obtains them it waits. -/
theorem Exec.waits {mm : MemModel} {N : Nat} (e : Exec mm N) {k n : Nat} (hw : (e.σ k).pc.waiting n)
    (hne : ¬ ∃ j img, k ≤ j ∧ (e.σ j).pc = .reserved n img) : ∀ j, k ≤ j → (e.σ j).pc.waiting n := by
  intro j hj
  obtain ⟨d, rfl⟩ := Nat.exists_eq_add_of_le hj
  clear hj
  induction d with
  | zero => exact hw
  | succ d ih =>
    have hs := e.step (k + d)
    rw [show k + (d + 1) = k + d + 1 by omega]
    split at hs
    · rw [hs]; exact ih
    · rename_i a ha
      by_cases hp : a = .pstep
      · subst hp
        have hnr : ∀ img, (e.σ (k + d + 1)).pc ≠ .reserved n img :=
          fun img h => hne ⟨k + d + 1, img, by omega, h⟩
        generalize e.σ (k + d + 1) = s' at *
        generalize e.σ (k + d) = s at *
        cases hp : s.pc <;> simp [PPc.waiting, hp] at ih <;> simp only [SB.act, hp] at hs
        all_goals
          subst ih
          repeat' split at hs
          all_goals (simp only [Option.some.injEq] at hs; subst hs)
          all_goals first
            | rfl
            | exact absurd rfl (hnr _)
      · have hpc : (e.σ (k + d + 1)).pc = (e.σ (k + d)).pc := by
          apply (act_pc hs).1
          refine ⟨fun i h => ?_, hp, fun i b h => ?_, fun i h => ?_, fun h => ?_⟩ <;> subst h <;>
            (cases hp : (e.σ (k + d)).pc <;> simp [PPc.waiting, hp] at ih <;>
              simp [SB.act, hp] at hs)
        rw [hpc]; exact ih

/-- A waiting producer obtains its `n < N` bytes if what it publishes is consumed at some time. -/
theorem Exec.obtains {mm : MemModel} {N : Nat} (h0 : 0 < N) (hN : N < 2 ^ 64) (e : Exec mm N)
    (hf : e.Live) (hcons : ∀ k, ∃ j, k ≤ j ∧ (e.σ k).pub <+: (e.σ j).got) {k n : Nat} (hn : n < N)
    (hw : (e.σ k).pc.waiting n) : ∃ j img, k ≤ j ∧ (e.σ j).pc = .reserved n img := by
  by_cases hne : ∃ j img, k ≤ j ∧ (e.σ j).pc = .reserved n img
  · exact hne
  exfalso
  -- the producer waits forever
  have hwait := e.waits hw hne
  -- a lap that begins at 0 must succeed
  have hzero : ∀ j, k ≤ j → (e.σ j).pp = 0 → (∀ c, (e.σ j).pc ≠ .wrapping n c) →
      ∀ i, j ≤ i → (e.σ i).pp = 0 ∧ ∀ c, (e.σ i).pc ≠ .wrapping n c := by
    intro j hj hpp hpc
    apply e.always (P := fun s => s.pp = 0 ∧ ∀ c, s.pc ≠ .wrapping n c) ⟨hpp, hpc⟩
    intro i a hi ha hs ⟨h1, h2⟩
    have hw1 := hwait i (by omega)
    have hw2 := hwait (i + 1) (by omega)
    refine ⟨?_, fun c hc => ?_⟩
    · rcases waiting_pstep hw1 hs hw2 with h | ⟨_, h, _⟩
      · rw [h, h1]
      · exact h
    · by_cases hp : a = .pstep
      · subst hp
        generalize e.σ (i + 1) = s' at *
        generalize e.σ i = s at *
        cases hp : s.pc <;> simp [PPc.waiting, hp] at hw1 <;> simp only [SB.act, hp] at hs
        · split at hs <;> (simp only [Option.some.injEq] at hs; subst hs; simp at hc)
        · subst hw1
          rw [h1, wsub_eq (by omega) hN] at hs
          split at hs
          · rw [if_pos (by omega)] at hs
            simp only [Option.some.injEq] at hs; subst hs; simp at hc
          · simp only [Option.some.injEq] at hs; subst hs; simp at hc
        · subst hw1
          exact h2 _ hp
      · have hpc : (e.σ (i + 1)).pc = (e.σ i).pc := by
          apply (act_pc hs).1
          refine ⟨fun q h => ?_, hp, fun q b h => ?_, fun q h => ?_, fun h => ?_⟩ <;> subst h <;>
            (cases hp : (e.σ i).pc <;> simp [PPc.waiting, hp] at hw1 <;> simp [SB.act, hp] at hs)
        exact h2 c (by rw [← hpc]; exact hc)
  -- from some time on, the producer's position stays as it is
  obtain ⟨k1, P, hk1, hP⟩ : ∃ k1 P, k ≤ k1 ∧ ∀ j, k1 ≤ j → (e.σ j).pp = P := by
    by_cases hj : ∃ j, k ≤ j ∧ (e.σ (j + 1)).pp = 0 ∧ (e.σ (j + 1)).pc = .loop n
    · obtain ⟨j, hkj, h1, h2⟩ := hj
      exact ⟨j + 1, 0, by omega, fun i hi => (hzero (j + 1) (by omega) h1 (by simp [h2]) i hi).1⟩
    · refine ⟨k, (e.σ k).pp, Nat.le_refl _, ?_⟩
      apply e.always (P := fun s => s.pp = (e.σ k).pp) rfl
      intro i a hi ha hs h
      rcases waiting_pstep (hwait i hi) hs (hwait (i + 1) (by omega)) with h1 | ⟨_, h1, h2⟩
      · rw [h1, h]
      · exact absurd ⟨i, hi, h1, h2⟩ hj
  have hpub : ∀ j, k ≤ j → (e.σ j).pub = (e.σ k).pub := by
    apply e.always (P := fun s => s.pub = (e.σ k).pub) rfl
    intro j a hj ha hs h
    rw [waiting_pub (hwait j hj) hs, h]
  -- no more wraps than one
  obtain ⟨k2, hk2, hnw⟩ : ∃ k2, k1 ≤ k2 ∧ ∀ j, k2 ≤ j → ∀ c, c ≠ 0 → (e.σ j).pc = .wrapping n c →
      e.α j ≠ some .pstep := by
    by_cases hj : ∃ j, k1 ≤ j ∧ ∃ c, c ≠ 0 ∧ (e.σ j).pc = .wrapping n c ∧ e.α j = some .pstep
    · obtain ⟨j, hkj, c, hc, hpc, ha⟩ := hj
      have hs := e.step j
      rw [ha] at hs
      simp only [SB.act, hpc] at hs
      rw [if_pos hc] at hs
      simp only [Option.some.injEq] at hs
      have h1 : (e.σ (j + 1)).pp = 0 := by rw [← hs]
      have h2 : (e.σ (j + 1)).pc = .loop n := by rw [← hs]
      refine ⟨j + 1, by omega, fun i hi c _ hci _ => ?_⟩
      exact (hzero (j + 1) (by omega) h1 (by simp [h2]) i hi).2 c hci
    · refine ⟨k1, Nat.le_refl _, fun j hj' c hc hpc ha => hj ⟨j, hj', c, hc, hpc, ha⟩⟩
  -- the stores to `producerPos` arrive
  obtain ⟨k3, hk3, hsp⟩ := e.flush hf h0 hN k2 (fun w => ∀ v l, w ≠ .setP v l) (by
    intro j a hj ha new hnew hk w hw v l he
    subst he
    have hs := e.step j
    rw [ha] at hs
    rcases act_buf hs with ⟨x, hx, _, _, _, _, h6⟩ | ⟨q, w, rfl, _⟩
    · have : x = new := by rw [hnew] at hx; exact (List.append_cancel_left hx).symm
      subst this
      rcases h6 v l hw with ⟨m, rfl⟩ | ⟨rfl, n', c, hpc, hc⟩
      · have hw1 := hwait j (by omega)
        cases hp : (e.σ j).pc <;> simp [PPc.waiting, hp] at hw1 <;> simp [SB.act, hp] at hs
      · have hw1 := hwait j (by omega)
        rw [hpc] at hw1
        simp only [PPc.waiting] at hw1
        subst hw1
        exact hnw j hj c hc hpc ha
    · exact hk q rfl)
  have hmemP : ∀ j, k3 ≤ j → (e.σ j).memP = P := by
    intro j hj
    obtain ⟨g, hg⟩ := Reachable.inv h0 hN (e.reachable j)
    have := hg.core.path.no_setP (fun v l hx => (hsp j hj).zero_vis.2 _ hx v l rfl)
    rw [this.2, hP j (by omega)]
  -- everything is consumed
  obtain ⟨k4, hk4, hd⟩ := hcons k3
  have hdr : ∀ j, k4 ≤ j → (e.σ j).got = (e.σ j).pub := by
    intro j hj
    have h1 : (e.σ k3).pub <+: (e.σ j).got := hd.trans (e.got_mono hj)
    have h2 := C07_prefix h0 hN (e.reachable j)
    have h3 : (e.σ j).pub = (e.σ k3).pub := by rw [hpub j (by omega), hpub k3 (by omega)]
    rw [h3] at h2 ⊢
    exact h2.eq_of_length_le h1.length_le
  -- the consumer reaches the producer's position
  have hcpkeep : ∀ j, k4 ≤ j → (e.σ j).cp = P → ∀ i, j ≤ i → (e.σ i).cp = P := by
    intro j hj h
    apply e.always (P := fun s => s.cp = P) h
    intro i a hi ha hs h
    obtain ⟨g, hg⟩ := Reachable.inv h0 hN (e.reachable (i + 1))
    have hpp := hP (i + 1) (by omega)
    rcases drained_pos hg (hdr (i + 1) (by omega)) with ⟨_, h1⟩ | ⟨_, h1, _, h2⟩
    · rw [h1, hpp]
    · exfalso
      have hcp0 : (e.σ i).cp = 0 := by rw [h, ← hpp, h1]
      by_cases hcs : a = .cstep
      · subst hcs
        simp only [SB.act] at hs
        repeat' split at hs
        all_goals first
          | (simp at hs; done)
          | (simp only [Option.some.injEq] at hs
             rw [← hs] at h2; simp at h2; omega)
          | (simp only [Option.some.injEq] at hs
             rw [← hs] at h2; simp at h2)
      · by_cases hcn : ∃ q, a = .consume q
        · obtain ⟨q, rfl⟩ := hcn
          have hg1 := hdr i (by omega)
          have hg2 := hdr (i + 1) (by omega)
          rw [waiting_pub (hwait i (by omega)) hs] at hg2
          simp only [SB.act] at hs
          split at hs
          · split at hs
            · split at hs
              · simp at hs
              · rename_i bs hbs
                obtain ⟨hl, _⟩ := imageBytes_ok hbs
                simp only [Option.some.injEq] at hs
                have h3 : (e.σ (i + 1)).got = (e.σ i).got ++ bs := by rw [← hs]
                have h4 : (e.σ (i + 1)).cp = (e.σ i).cp + q := by rw [← hs]
                rw [hg2, hg1] at h3
                have := congrArg List.length h3
                simp at this
                rw [this] at hl; simp at hl
                omega
            · simp at hs
          · simp at hs
        · have := (act_frame hs).2.2.2.2.2.1 ⟨hcs, fun q h => hcn ⟨q, h⟩⟩
          omega
  obtain ⟨k5, hk5, hcp5⟩ : ∃ k5, k4 ≤ k5 ∧ (e.σ k5).cp = P := by
    obtain ⟨j, hj, ha⟩ := hf.scans k4
    obtain ⟨j', hj', ha'⟩ := hf.scans (j + 1)
    have hstep := e.step j
    rw [ha] at hstep
    have hR := e.always (P := fun s => s.cp = P ∨ ∃ v, s.cc = .loaded P v) (k := j + 1) (by
        simp only [SB.act] at hstep
        split at hstep
        · simp only [Option.some.injEq] at hstep
          right
          exact ⟨_, by rw [← hstep, hmemP j (by omega)]⟩
        · simp at hstep) (by
        intro i a hi hai hs h
        by_cases h' : (e.σ i).cp = P
        · exact Or.inl (hcpkeep i (by omega) h' (i + 1) (by omega))
        · obtain ⟨v, hcc⟩ := h.resolve_left h'
          by_cases hcs : a = .cstep
          · subst hcs
            left
            obtain ⟨g, hg⟩ := Reachable.inv h0 hN (e.reachable i)
            have hpp := hP i (by omega)
            rcases drained_pos hg (hdr i (by omega)) with ⟨_, h1⟩ | ⟨hcf, h1, h3, h2⟩
            · exact absurd (by rw [h1, hpp]) h'
            · have hP0 : P = 0 := by omega
              have hm : g.m = true := by
                have := hg.c
                simp only [CInv, hcc] at this
                exact (this.1 (by omega)).2.1
              have hpath := hg.core.path
              rw [hcf, hm] at hpath
              have hE : (e.σ i).memE = g.old.length := by
                rw [← applyAll_memE_none _ hpath.no_setE]; exact hg.core.endE hcf
              simp only [SB.act, hcc] at hs
              rw [if_pos (by omega), hE, wsub_eq (by omega) (by have := hg.core.oldN; omega),
                if_neg (by omega)] at hs
              simp only [Option.some.injEq] at hs
              rw [← hs, hP0]
          · right
            refine ⟨v, ?_⟩
            rw [← hcc]
            apply (act_pc hs).2
            refine ⟨fun h => ?_, hcs, fun i h => ?_, fun i h => ?_, fun h => ?_, fun h => ?_⟩ <;>
              subst h <;> simp [SB.act, hcc] at hs) j' (by omega)
    refine ⟨j', by omega, hR.resolve_right ?_⟩
    rintro ⟨v, hcc⟩
    have hstep := e.step j'
    rw [ha'] at hstep
    simp [SB.act, hcc] at hstep
  have hcp := hcpkeep k5 hk5 hcp5
  -- its stores arrive
  let Z (m : Nat) (s : SB) : Prop := ∃ rem new, s.cbuf = rem ++ new ∧ rem.length ≤ m ∧
    (s.memC :: rem).getLast? = some P ∧ ∀ x ∈ new, x = P
  have hZstep : ∀ m j a, k5 ≤ j → e.α j = some a → (e.σ j).act mm N a = some (e.σ (j + 1)) →
      Z m (e.σ j) → Z m (e.σ (j + 1)) ∧ (a = .commitC → Z (m - 1) (e.σ (j + 1))) := by
    rintro m j a hj ha hs ⟨rem, new, x1, x2, x3, x4⟩
    have hcpj := hcp j hj
    have hcpj1 := hcp (j + 1) (by omega)
    by_cases hcc : a = .commitC
    · subst hcc
      have key : Z (m - 1) (e.σ (j + 1)) := by
        simp only [SB.act] at hs
        split at hs
        · simp at hs
        · rename_i c cs hcs
          simp only [Option.some.injEq] at hs
          rw [← hs]
          rw [hcs] at x1
          cases rem with
          | nil =>
            rw [List.nil_append] at x1
            refine ⟨[], cs, rfl, by simp, ?_, fun x hx => x4 x (by rw [← x1]; simp [hx])⟩
            have := x4 c (by rw [← x1]; simp)
            simp [this]
          | cons y rem =>
            rw [List.cons_append, List.cons.injEq] at x1
            obtain ⟨rfl, x1⟩ := x1
            refine ⟨rem, new, x1, by simp at x2 ⊢; omega, ?_, x4⟩
            rwa [List.getLast?_cons_cons] at x3
      refine ⟨?_, fun _ => key⟩
      obtain ⟨r, n', y1, y2, y3, y4⟩ := key
      exact ⟨r, n', y1, by omega, y3, y4⟩
    · refine ⟨?_, fun h => absurd h hcc⟩
      by_cases hcs : a = .cstep
      · subst hcs
        simp only [SB.act] at hs
        repeat' split at hs
        all_goals first
          | (simp at hs; done)
          | (simp only [Option.some.injEq] at hs
             rw [← hs]
             exact ⟨rem, new, x1, x2, x3, x4⟩)
          | (simp only [Option.some.injEq] at hs
             rw [← hs] at hcpj1 ⊢
             refine ⟨rem, new ++ [0], by simp [x1], x2, x3, ?_⟩
             intro x hx
             rcases List.mem_append.1 hx with h | h
             · exact x4 x h
             · simp at h hcpj1; omega)
      · by_cases hcn : ∃ q, a = .consume q
        · obtain ⟨q, rfl⟩ := hcn
          simp only [SB.act] at hs
          repeat' split at hs
          all_goals first
            | (simp at hs; done)
            | (simp only [Option.some.injEq] at hs
               rw [← hs] at hcpj1 ⊢
               refine ⟨rem, new ++ [(e.σ j).cp + q], by simp [x1], x2, x3, ?_⟩
               intro x hx
               rcases List.mem_append.1 hx with h | h
               · exact x4 x h
               · simp at h hcpj1; omega)
        · have := (act_frame hs).2.2.2.2.2.2 ⟨hcs, fun q h => hcn ⟨q, h⟩, hcc⟩
          exact ⟨rem, new, by rw [this.1]; exact x1, x2, by rw [this.2]; exact x3, x4⟩
  have hZkeep : ∀ m j, k5 ≤ j → Z m (e.σ j) → ∀ i, j ≤ i → Z m (e.σ i) := by
    intro m j hj h
    exact e.always h (fun i a hi ha hs h => (hZstep m i a (by omega) ha hs h).1)
  have hZmain : ∀ m j, k5 ≤ j → Z m (e.σ j) → ∃ i, j ≤ i ∧ Z 0 (e.σ i) := by
    intro m
    induction m with
    | zero => intro j _ h; exact ⟨j, Nat.le_refl _, h⟩
    | succ m ih =>
      intro j hj h
      by_cases hb : (e.σ j).cbuf = []
      · refine ⟨j, Nat.le_refl _, ?_⟩
        obtain ⟨rem, new, x1, x2, x3, x4⟩ := h
        rw [hb] at x1
        obtain ⟨rfl, rfl⟩ := List.append_eq_nil_iff.1 x1.symm
        exact ⟨[], [], hb, Nat.le_refl _, x3, x4⟩
      · obtain ⟨i, hi, ha⟩ := hf.storesC j hb
        have hs := e.step i
        rw [ha] at hs
        have h2 := (hZstep _ i _ (by omega) ha hs (hZkeep _ j hj h i hi)).2 rfl
        obtain ⟨i', hi', h3⟩ := ih (i + 1) (by omega) h2
        exact ⟨i', by omega, h3⟩
  obtain ⟨k6, hk6, hZ⟩ := hZmain (e.σ k5).cbuf.length k5 (Nat.le_refl _) (by
    obtain ⟨g, hg⟩ := Reachable.inv h0 hN (e.reachable k5)
    refine ⟨(e.σ k5).cbuf, [], by simp, Nat.le_refl _, ?_, by simp⟩
    rw [hg.core.hist, hg.core.last, hcp5])
  have hmemC : ∀ j, k6 ≤ j → (e.σ j).memC = P := by
    intro j hj
    obtain ⟨rem, new, x1, x2, x3, x4⟩ := hZkeep 0 k6 hk6 hZ j hj
    have : rem = [] := List.length_eq_zero_iff.1 (by omega)
    subst this
    simpa using x3
  -- the producer sees it
  have hPN : P < N := by
    obtain ⟨g, hg⟩ := Reachable.inv h0 hN (e.reachable k6)
    have := hg.core.ppN
    rw [hP k6 (by omega)] at this; exact this
  have hstepL : ∀ j, k6 ≤ j → (e.σ j).pc = .loop n → False := by
    intro j hj hpc
    obtain ⟨j1, hj1, ha1, hpc1⟩ := e.next_pstep hf (hwait j (by omega))
    rw [hpc] at hpc1
    have hs1 := e.step j1
    rw [ha1] at hs1
    simp only [SB.act, hpc1] at hs1
    split at hs1
    · simp only [Option.some.injEq] at hs1
      have hpc2 : (e.σ (j1 + 1)).pc = .loaded n P := by rw [← hs1, hmemC j1 (by omega)]
      obtain ⟨j2, hj2, ha2, hpc3⟩ := e.next_pstep hf (hwait (j1 + 1) (by omega))
      rw [hpc2] at hpc3
      have hs2 := e.step j2
      rw [ha2] at hs2
      simp only [SB.act, hpc3] at hs2
      rw [hP j2 (by omega), if_pos (Nat.le_refl _), wsub_eq (by omega) hN] at hs2
      split at hs2
      · simp only [Option.some.injEq] at hs2
        exact hne ⟨j2 + 1, _, by omega, by rw [← hs2]⟩
      · simp only [Option.some.injEq] at hs2
        have hP0 : P ≠ 0 := by omega
        have hpc4 : (e.σ (j2 + 1)).pc = .wrapping n P := by rw [← hs2]
        obtain ⟨j3, hj3, ha3, hpc5⟩ := e.next_pstep hf (hwait (j2 + 1) (by omega))
        rw [hpc4] at hpc5
        exact hnw j3 (by omega) P hP0 hpc5 ha3
    · simp only [Option.some.injEq] at hs1
      exact hne ⟨j1 + 1, _, by omega, by rw [← hs1]⟩
  have hstepW : ∀ j c, k6 ≤ j → (e.σ j).pc = .wrapping n c → False := by
    intro j c hj hpc
    obtain ⟨j1, hj1, ha1, hpc1⟩ := e.next_pstep hf (hwait j (by omega))
    rw [hpc] at hpc1
    have hs1 := e.step j1
    rw [ha1] at hs1
    simp only [SB.act, hpc1] at hs1
    split at hs1
    · simp only [Option.some.injEq] at hs1
      exact hstepL (j1 + 1) (by omega) (by rw [← hs1])
    · simp only [Option.some.injEq] at hs1
      exact hstepL (j1 + 1) (by omega) (by rw [← hs1])
  have hw6 := hwait k6 (by omega)
  cases hp : (e.σ k6).pc <;> simp [PPc.waiting, hp] at hw6
  · subst hw6
    exact hstepL k6 (Nat.le_refl _) hp
  · rename_i c
    subst hw6
    obtain ⟨j1, hj1, ha1, hpc1⟩ := e.next_pstep hf (hwait k6 (by omega))
    rw [hp] at hpc1
    have hs1 := e.step j1
    rw [ha1] at hs1
    simp only [SB.act, hpc1] at hs1
    split at hs1
    · split at hs1
      · simp only [Option.some.injEq] at hs1
        exact hne ⟨j1 + 1, _, by omega, by rw [← hs1]⟩
      · simp only [Option.some.injEq] at hs1
        exact hstepW (j1 + 1) _ (by omega) (by rw [← hs1])
    · simp only [Option.some.injEq] at hs1
      exact hstepL (j1 + 1) (by omega) (by rw [← hs1])
  · subst hw6
    exact hstepW k6 _ (Nat.le_refl _) hp

/-- **C09**, liveness: under fair scheduling, if the background thread keeps up, a waiting
producer obtains its `n < N` bytes. -/
theorem C09_eventually {mm : MemModel} {N : Nat} (h0 : 0 < N) (hN : N < 2 ^ 64) (e : Exec mm N)
    (hf : e.Fair) {k n : Nat} (hn : n < N) (hw : (e.σ k).pc.waiting n) :
    ∃ j img, k ≤ j ∧ (e.σ j).pc = .reserved n img :=
  e.obtains h0 hN hf.live (C07_eventually h0 hN e hf) hn hw

/-! ## A fair execution -/

def PPc.isWaiting : PPc → Bool
  | .loop _ | .loaded .. | .wrapping .. => true
  | _ => false

def CPc.isIdle : CPc → Bool
  | .idle => true
  | _ => false

def CPc.isDone : CPc → Bool
  | .holding 0 _ => true
  | .dead => true
  | _ => false

/-- Can the finite run `pre` be continued forever by empty scans, fairly? -/
def fairPrefix (mm : MemModel) (N : Nat) (pre : List Act) : Bool :=
  (match SB.run mm N pre (SB.init N) with
   | none => false
   | some s => s.buf.isEmpty && s.cbuf.isEmpty && s.cc.isIdle && !s.pc.isWaiting && s.cp == s.memP) &&
  (List.range pre.length).all fun k =>
    match SB.run mm N (pre.take k) (SB.init N) with
    | none => false
    | some s =>
      (s.buf.isEmpty || (pre.drop k).contains (.commit 0)) &&
      (s.cbuf.isEmpty || (pre.drop k).contains .commitC) &&
      (!s.pc.isWaiting || (pre.drop k).contains .pstep) &&
      (pre[k]? != some .release || s.cc.isDone)

/-- The scans that follow. -/
def idleAct (d : Nat) : Act := if d % 3 = 0 then .peek else if d % 3 = 1 then .cstep else .release

def idleState (s : SB) (d : Nat) : SB :=
  if d % 3 = 0 then s
  else if d % 3 = 1 then { s with cc := .loaded s.memP s.vis }
  else { s with cc := .holding 0 fun _ => none }

theorem wsub_self (a : Nat) : wsub a a = 0 := by
  unfold wsub
  rw [show a + 2 ^ 64 - a = 2 ^ 64 by omega]

theorem idle_step {mm N} {s : SB} (h1 : s.cc = .idle) (h2 : s.cp = s.memP) (d : Nat) :
    (idleState s d).act mm N (idleAct d) = some (idleState s (d + 1)) := by
  have hd : d % 3 = 0 ∨ d % 3 = 1 ∨ d % 3 = 2 := by omega
  rcases hd with hd | hd | hd
  · have : (d + 1) % 3 = 1 := by omega
    simp [idleState, idleAct, hd, this, SB.act, h1]
  · have : (d + 1) % 3 = 2 := by omega
    simp [idleState, idleAct, hd, this, SB.act, h2, wsub_self]
  · have : (d + 1) % 3 = 0 := by omega
    have hs : { s with cc := CPc.idle } = s := by rw [← h1]
    simp [idleState, idleAct, hd, this, SB.act, hs]

theorem take_run {mm N} {pre : List Act} {k : Nat} (hk : k < pre.length) {s s' : SB}
    (h1 : SB.run mm N (pre.take k) (SB.init N) = some s)
    (h2 : SB.run mm N (pre.take (k + 1)) (SB.init N) = some s') :
    s.act mm N pre[k] = some s' := by
  rw [List.take_succ, List.getElem?_eq_getElem hk, SB.run_append, h1] at h2
  simp only [Option.toList_some, Option.bind_some, SB.run] at h2
  split at h2
  · simp at h2
  · rename_i h; rw [h, h2]

theorem fairPrefix.exec {mm : MemModel} {N : Nat} {pre : List Act} (h : fairPrefix mm N pre = true) :
    ∃ e : Exec mm N, e.Fair ∧
      ∀ k, k ≤ pre.length → SB.run mm N (pre.take k) (SB.init N) = some (e.σ k) := by
  simp only [fairPrefix, Bool.and_eq_true, List.all_eq_true, List.mem_range] at h
  obtain ⟨hend, hall⟩ := h
  cases hr : SB.run mm N pre (SB.init N) with
  | none => rw [hr] at hend; simp at hend
  | some sE =>
    rw [hr] at hend
    simp only [Bool.and_eq_true, List.isEmpty_iff, beq_iff_eq] at hend
    obtain ⟨⟨⟨⟨e1, e2⟩, e3⟩, e4⟩, e5⟩ := hend
    have e3' : sE.cc = .idle := by
      cases hc : sE.cc <;> simp [CPc.isIdle, hc] at e3; rfl
    have hex : ∀ k, ∃ s, k < pre.length → SB.run mm N (pre.take k) (SB.init N) = some s := by
      intro k
      by_cases hk : k < pre.length
      · have := hall k hk
        cases hrk : SB.run mm N (pre.take k) (SB.init N) with
        | none => rw [hrk] at this; simp at this
        | some s => exact ⟨s, fun _ => rfl⟩
      · exact ⟨SB.init N, fun h => absurd h hk⟩
    let τ : Nat → SB := fun k => Classical.choose (hex k)
    have hτ : ∀ k, k < pre.length → SB.run mm N (pre.take k) (SB.init N) = some (τ k) :=
      fun k => Classical.choose_spec (hex k)
    let σ : Nat → SB := fun k => if k < pre.length then τ k else idleState sE (k - pre.length)
    let α : Nat → Option Act := fun k =>
      if k < pre.length then pre[k]? else some (idleAct (k - pre.length))
    have hσ : ∀ k, k ≤ pre.length → SB.run mm N (pre.take k) (SB.init N) = some (σ k) := by
      intro k hk
      by_cases hlt : k < pre.length
      · simp only [σ, if_pos hlt]; exact hτ k hlt
      · have : k = pre.length := by omega
        subst this
        simp [σ, hr, idleState]
    have hαlate : ∀ k i, ∃ j, k ≤ j ∧ α j = some (idleAct i) := by
      intro k i
      refine ⟨pre.length + (3 * k + i % 3), by omega, ?_⟩
      simp only [α]
      rw [if_neg (by omega)]
      have : (pre.length + (3 * k + i % 3) - pre.length) % 3 = i % 3 := by omega
      simp [idleAct, this]
    have hcont : ∀ k a, k < pre.length → (pre.drop k).contains a = true →
        ∃ j, k ≤ j ∧ α j = some a := by
      intro k a hk hc
      rw [List.contains_iff_mem, List.mem_iff_getElem] at hc
      obtain ⟨i, hi, hia⟩ := hc
      simp only [List.length_drop] at hi
      refine ⟨k + i, by omega, ?_⟩
      simp only [α]
      rw [if_pos (by omega), List.getElem?_eq_getElem (by omega), ← hia, List.getElem_drop]
    have hlate : ∀ k, ¬ k < pre.length → (σ k).buf = [] ∧ (σ k).cbuf = [] ∧ (σ k).pc = sE.pc := by
      intro k hk
      simp only [σ, if_neg hk, idleState]
      split
      · exact ⟨e1, e2, rfl⟩
      · split <;> exact ⟨e1, e2, rfl⟩
    have hchk : ∀ k, k < pre.length →
        ((σ k).buf = [] ∨ (pre.drop k).contains (.commit 0) = true) ∧
        ((σ k).cbuf = [] ∨ (pre.drop k).contains .commitC = true) ∧
        ((σ k).pc.isWaiting = false ∨ (pre.drop k).contains .pstep = true) ∧
        (pre[k]? = some .release → (σ k).cc.isDone = true) := by
      intro k hk
      have := hall k hk
      rw [hσ k (by omega)] at this
      simp only [Bool.and_eq_true, Bool.or_eq_true, List.isEmpty_iff, Bool.not_eq_true',
        bne_iff_ne, ne_eq] at this
      obtain ⟨⟨⟨h1, h2⟩, h3⟩, h4⟩ := this
      exact ⟨h1, h2, h3, fun h => h4.resolve_left (fun h' => h' h)⟩
    refine ⟨⟨σ, α, ?_, ?_⟩, ⟨?_, ?_, ?_, ?_, ?_⟩, hσ⟩
    · have := hσ 0 (Nat.zero_le _)
      simp [SB.run] at this
      exact this.symm
    · intro k
      by_cases hk : k < pre.length
      · simp only [α, if_pos hk, List.getElem?_eq_getElem hk]
        exact take_run hk (hσ k (by omega)) (hσ (k + 1) (by omega))
      · simp only [α, if_neg hk, σ, if_neg (show ¬ k + 1 < pre.length by omega)]
        rw [show k + 1 - pre.length = k - pre.length + 1 by omega]
        exact idle_step e3' e5 _
    · intro k hb
      by_cases hk : k < pre.length
      · exact hcont k _ hk ((hchk k hk).1.resolve_left hb)
      · exact absurd (hlate k hk).1 hb
    · intro k hb
      by_cases hk : k < pre.length
      · exact hcont k _ hk ((hchk k hk).2.1.resolve_left hb)
      · exact absurd (hlate k hk).2.1 hb
    · intro k n hw
      have hw' : (σ k).pc.isWaiting = true := by
        show (σ k).pc.isWaiting = true
        have hw : (σ k).pc.waiting n := hw
        cases hp : (σ k).pc <;> simp [PPc.waiting, hp] at hw <;> rfl
      by_cases hk : k < pre.length
      · exact hcont k _ hk ((hchk k hk).2.2.1.resolve_left (by simp [hw']))
      · rw [(hlate k hk).2.2] at hw'
        simp [hw'] at e4
    · intro k
      exact hαlate k 0
    · intro k ha
      by_cases hk : k < pre.length
      · have hd := (hchk k hk).2.2.2 (by simpa [α, if_pos hk] using ha)
        show (∃ view, (σ k).cc = .holding 0 view) ∨ (σ k).cc = .dead
        cases hc : (σ k).cc with
        | holding a view =>
          cases a with
          | zero => exact Or.inl ⟨view, rfl⟩
          | succ a => simp [CPc.isDone, hc] at hd
        | dead => exact Or.inr rfl
        | _ => simp [CPc.isDone, hc] at hd
      · have ha : α k = some .release := ha
        simp only [α, if_neg hk] at ha
        left
        refine ⟨fun _ => none, ?_⟩
        show (σ k).cc = _
        simp only [σ, if_neg hk, idleState]
        unfold idleAct at ha
        split at ha
        · simp at ha
        · split at ha
          · simp at ha
          · rename_i x y; rw [if_neg x, if_neg y]

/-- A fair execution in which the producer has to wait for 4 bytes in a ring of 8, of which 5
had been used, and wraps around. -/
def exFair : List Act :=
  exWrap ++ [.look 0, .look 1, .consume 2, .release, .commitC, .commitC, .commitC]

def exFairCheck : Bool :=
  match SB.run .pso 8 (exFair.take 25) (SB.init 8) with
  | some s => (match s.pc with | .loop n => n == 4 | _ => false)
  | none => false

theorem exFair_waits : ∃ e : Exec .pso 8, e.Fair ∧ (e.σ 25).pc.waiting 4 := by
  obtain ⟨e, hf, hr⟩ := fairPrefix.exec (mm := .pso) (N := 8) (pre := exFair) (by decide +kernel)
  refine ⟨e, hf, ?_⟩
  have h : exFairCheck = true := by decide +kernel
  unfold exFairCheck at h
  rw [hr 25 (by decide)] at h
  simp only at h
  split at h
  · rename_i n hp
    rw [hp]
    simpa [PPc.waiting] using h
  · simp at h

/-- The hypotheses of the two theorems are met. -/
example : ∃ e : Exec .pso 8, e.Fair ∧ ∃ j img, 25 ≤ j ∧ (e.σ j).pc = .reserved 4 img := by
  obtain ⟨e, hf, hw⟩ := exFair_waits
  exact ⟨e, hf, C09_eventually (by decide) (by decide) e hf (by decide) hw⟩

end NanoLog
