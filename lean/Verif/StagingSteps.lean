import Verif.StagingInv

/-! The invariant of the staging buffer is preserved by every step. -/

namespace NanoLog

theorem SameMem.of_upd (s : SB) (f : Nat) (a : PPc) (b : CPc) :
    SameMem { s with minFree := f, pc := a, cc := b } s := ⟨rfl, rfl, rfl, rfl, rfl⟩

/-- Control states and `minFree` change only. -/
theorem Core.upd {N s g} (h : Core N s g) (f : Nat) (a : PPc) (b : CPc)
    (hT : g.h = true → s.pp + f ≤ N) (hF : g.h = false → s.pp + f ≤ s.memC) :
    Core N { s with minFree := f, pc := a, cc := b } g := by
  have hm := (SameMem.of_upd s f a b).applyAll s.buf
  exact { h with
    endE := fun hc => by rw [hm.memE]; exact h.endE hc
    limT := hT
    limF := fun hh => ⟨hF hh, (h.limF hh).2⟩
    dataOld := fun hc i h1 h2 => by rw [hm.mem]; exact h.dataOld hc i h1 h2
    dataCur := fun i h1 h2 => by rw [hm.mem]; exact h.dataCur i h1 h2 }

/-- Control states change only. -/
theorem Core.ctl {N s g} (h : Core N s g) (a : PPc) (b : CPc) :
    Core N { s with pc := a, cc := b } g :=
  h.upd s.minFree a b h.limT fun hh => (h.limF hh).1

theorem reserve_inv {mm N s g n s'} (h : SInv mm N s g) (ha : s.act mm N (.reserve n) = some s') :
    SInv mm N s' g := by
  obtain ⟨hcore, hp, hc, hd⟩ := h
  simp only [SB.act] at ha
  split at ha
  · rename_i hpc
    have hd1 : s.memD = false ∧ .setD ∉ s.buf := by have := hd.1; simpa [hpc] using this
    split at ha
    · rename_i hn
      simp only [Option.some.injEq] at ha; subst ha
      exact ⟨hcore.ctl _ s.cc, ⟨hn, by simp⟩, hc, ⟨hd1, hd.2⟩⟩
    · simp only [Option.some.injEq] at ha; subst ha
      exact ⟨hcore.ctl _ s.cc, trivial, hc, ⟨hd1, hd.2⟩⟩
  · simp at ha

theorem Core.memC_old {N s g} (h : Core N s g) (hh : g.h = false) : s.memC ≤ g.old.length := by
  apply h.leA
  have h3 := h.hist
  cases hA : g.A with
  | nil => exact absurd hA (h.hA' hh)
  | cons a l => rw [hA] at h3; simp at h3; simp [h3.1]

theorem getLast_max {l : List Nat} {x : Nat} (hs : l.Pairwise (· ≤ ·)) (hl : l.getLast? = some x) :
    ∀ a ∈ l, a ≤ x := by
  intro a ha
  rcases List.eq_nil_or_concat l with rfl | ⟨l', y, rfl⟩
  · simp at ha
  · rw [List.concat_eq_append] at *
    simp at hl
    subst hl
    rw [List.pairwise_append] at hs
    rcases List.mem_append.1 ha with h | h
    · exact hs.2.2 a h y (by simp)
    · simp at h; omega

theorem pstep_inv {mm N s g s'} (h : SInv mm N s g) (ha : s.act mm N .pstep = some s') :
    ∃ g', SInv mm N s' g' := by
  obtain ⟨hcore, hp, hc, hd⟩ := h
  have hppN := hcore.ppN
  have hmaxN := hcore.maxN
  simp only [SB.act] at ha
  split at ha
  · -- at the while
    rename_i n hpc
    have hd1 : s.memD = false ∧ .setD ∉ s.buf := by have := hd.1; simpa [hpc] using this
    split at ha
    · simp only [Option.some.injEq] at ha; subst ha
      refine ⟨g, hcore.ctl _ s.cc, ⟨fun hle => ?_, fun hlt => ⟨?_, fun _ => Nat.le_refl _⟩⟩, hc,
        ⟨hd1, hd.2⟩⟩
      · cases hh : g.h with
        | true => exact ⟨rfl, Nat.le_refl _⟩
        | false => have := (hcore.limF hh).2; simp only at hle; omega
      · simp only at hlt ⊢
        cases hh : g.h with
        | true =>
          have h1 := hcore.memC_le (by rw [hh, hcore.hc hh])
          have h2 := hcore.cp_pp (hcore.hc hh)
          omega
        | false =>
          have := hcore.memC_old hh
          have := hcore.oldN
          omega
    · rename_i hn
      simp only [Option.some.injEq] at ha; subst ha
      exact ⟨g, hcore.ctl _ s.cc, ⟨by simp only; omega, by simp⟩, hc, ⟨hd1, hd.2⟩⟩
  · -- consumerPos loaded
    rename_i n c hpc
    have hd1 : s.memD = false ∧ .setD ∉ s.buf := by have := hd.1; simpa [hpc] using this
    have hp1 : (c ≤ s.pp → g.h = true ∧ c ≤ s.memC) ∧
        (s.pp < c → c ≤ N ∧ (g.h = false → c ≤ s.memC)) := by
      have := hp; simpa [PInv, hpc] using this
    split at ha
    · rename_i hle
      obtain ⟨hh, hcm⟩ := hp1.1 hle
      rw [wsub_eq (by omega) hmaxN] at ha
      have hcore1 : Core N { s with minFree := N - s.pp, pc := s.pc, cc := s.cc } g :=
        hcore.upd (N - s.pp) _ s.cc (fun _ => by omega) (fun h => by rw [hh] at h; simp at h)
      split at ha
      · rename_i hfree
        simp only [Option.some.injEq] at ha; subst ha
        exact ⟨g, hcore1.ctl _ s.cc, ⟨hfree, by simp⟩, hc, ⟨hd1, hd.2⟩⟩
      · simp only [Option.some.injEq] at ha; subst ha
        have hct := hcore.hc hh
        let s1 : SB := { s with minFree := N - s.pp, buf := s.buf ++ [.setE s.pp], pc := .wrapping n c }
        have hmem : SameMem (applyAll s1.buf s1) ((applyAll s.buf s).apply (.setE s.pp)) := by
          rw [show s1.buf = s.buf ++ [.setE s.pp] from rfl, applyAll_append]
          exact SameMem.apply (SameMem.applyAll (s := s1) (t := s) ⟨rfl, rfl, rfl, rfl, rfl⟩ s.buf) (.setE s.pp)
        refine ⟨g, ?_, ?_, hc, ⟨⟨hd1.1, ?_⟩, hd.2⟩⟩
        · exact { hcore with
            endE := fun h => by rw [hct] at h; simp at h
            limT := fun _ => by simp only; omega
            limF := fun h => by rw [hh] at h; simp at h
            fenced := hcore.fenced.append_other (by simp)
            path := hcore.path.append ⟨by simp [hct], rfl, rfl⟩
            dataOld := fun h => by rw [hct] at h; simp at h
            dataCur := fun i h1 h2 => by
              have := hcore.dataCur i h1 h2
              rw [this]; congr 1
              exact (congrFun hmem.mem i).symm }
        · exact ⟨hh, hcm, rfl, hmem.memE⟩
        · simp [hd1.2]
    · rename_i hle
      obtain ⟨h1, h2⟩ := hp1.2 (by omega)
      rw [wsub_eq (by omega) (by omega)] at ha
      simp only [Option.some.injEq] at ha; subst ha
      exact ⟨g, hcore.upd (c - s.pp) _ s.cc (fun _ => by omega) (fun h => by have := h2 h; omega),
        trivial, hc, ⟨hd1, hd.2⟩⟩
  · -- endOfRecordedSpace stored
    rename_i n c hpc
    have hd1 : s.memD = false ∧ .setD ∉ s.buf := by have := hd.1; simpa [hpc] using this
    obtain ⟨hh, hcm, hmf, hE⟩ : g.h = true ∧ c ≤ s.memC ∧ s.minFree = N - s.pp ∧
      (applyAll s.buf s).memE = s.pp := by have := hp; simpa [PInv, hpc] using this
    have hct := hcore.hc hh
    have hmt := hcore.cm hct
    have h1 := hcore.memC_le (by rw [hh, hct])
    have h2 := hcore.cp_pp hct
    split at ha
    · rename_i hc0
      rw [wsub_eq (by omega) (by omega)] at ha
      simp only [Option.some.injEq, Nat.sub_zero] at ha; subst ha
      let s1 : SB := { s with buf := s.buf ++ [.fence, .setP 0 s.pub.length], pp := 0
                              minFree := c, pc := .loop n }
      have hmem : (applyAll s1.buf s1).mem = (applyAll s.buf s).mem ∧
          (applyAll s1.buf s1).memE = (applyAll s.buf s).memE := by
        rw [show s1.buf = s.buf ++ [.fence, .setP 0 s.pub.length] from rfl, applyAll_append]
        have := SameMem.applyAll (s := s1) (t := s) ⟨rfl, rfl, rfl, rfl, rfl⟩ s.buf
        exact ⟨this.mem, this.memE⟩
      have hA := hcore.hA hh
      have hpub : s.pub.length = g.base.length + g.old.length + g.cur.length := by
        rw [hcore.pub]; simp; omega
      have hpath := hcore.path
      rw [hct, hmt] at hpath
      have hpp := hcore.pp
      refine ⟨⟨g.base ++ g.old, g.cur, [], false, false, false, g.B, []⟩, ?_, trivial, ?_,
        ⟨⟨hd1.1, by simp [hd1.2]⟩, hd.2⟩⟩
      · exact {
          posN := hcore.posN
          maxN := hcore.maxN
          hc := by simp
          cm := by simp
          pub := by simp only [hcore.pub, List.append_nil]
          pp := rfl
          ppN := hcore.posN
          oldN := by simp only; omega
          got := by
            have := hcore.got
            simp only [hct, if_true] at this
            simp only [this]; simp
          cpv := by simp only [SB.vlim]; exact h2.1
          ahead := fun _ => by simp only; omega
          vis := by
            have := hcore.vis
            simp only [hmt, if_true] at this
            simp only [this]; simp; omega
          endE := fun _ => by rw [hmem.2, hE]; exact hpp.symm
          limT := by simp
          limF := fun _ => ⟨by simp only; omega, by simp only; omega⟩
          hist := by have := hcore.hist; rw [hA] at this; simpa using this
          sA := hcore.sB
          sB := List.Pairwise.nil
          hA := by simp
          hA' := fun _ => hcore.cB' hct
          cB := fun _ => rfl
          cB' := by simp
          last := by have := hcore.last; rw [hA] at this; simpa using this
          leA := fun a haB => by
            have := hcore.last; rw [hA, List.nil_append] at this
            have := getLast_max hcore.sB this a haB
            simp only; omega
          fenced := hcore.fenced.append_setP _ _
          path := by
            have := hpath.wrapAround (n := g.cur.length) (by omega)
            rw [← List.length_append] at this
            refine this.append (Or.inr ⟨rfl, rfl, by omega, ?_, rfl, rfl⟩)
            simp [hpub]
          dataOld := fun _ i hi1 hi2 => by
            rw [hmem.1]; exact hcore.dataCur i (fun _ => hi1) (by simp only at hi2; omega)
          dataCur := fun i _ hi => absurd hi (Nat.not_lt_zero _) }
      · have hcc := hc
        unfold CInv at hcc ⊢
        simp only
        split at hcc
        · trivial
        · rename_i p v e
          try simp only [e]
          have hcp : s.cp ≤ p := by
            rcases Nat.lt_or_ge p s.cp with hlt | hge
            · have := (hcc.1 hlt).1; rw [hct] at this; simp at this
            · exact hge
          refine ⟨fun hlt => absurd hlt (by omega), fun _ => ?_⟩
          have := hcc.2 hcp
          simp only [SB.vlim, hct, if_true] at this
          simp only [SB.vlim]
          exact ⟨this.1, by rw [this.2]; simp; omega⟩
        · rename_i p v e
          have := hcc.2.1
          omega
        · rename_i avail view e
          try simp only [e]
          have h3 := hcc.1
          simp only [SB.vlim, hct, if_true] at h3
          refine ⟨by simp only [SB.vlim]; exact h3, fun i b hv => ?_⟩
          have := hcc.2 i b hv
          simp only [Ghost.lap, hct, if_true] at this
          exact this
        · exact hcc
        · trivial
    · simp only [Option.some.injEq] at ha; subst ha
      exact ⟨g, hcore.ctl _ s.cc, trivial, hc, ⟨hd1, hd.2⟩⟩
  · simp at ha

theorem put_inv {mm N s g i b s'} (h : SInv mm N s g) (ha : s.act mm N (.put i b) = some s') :
    SInv mm N s' g := by
  obtain ⟨hcore, hp, hc, hd⟩ := h
  simp only [SB.act] at ha
  split at ha
  · rename_i n img hpc
    have hd1 : s.memD = false ∧ .setD ∉ s.buf := by have := hd.1; simpa [hpc] using this
    obtain ⟨hn, himg⟩ : n < s.minFree ∧
        ∀ i b, img i = some b → i < n ∧ (applyAll s.buf s).mem (s.pp + i) = b := by
      have := hp; simpa [PInv, hpc] using this
    split at ha
    · rename_i hi
      simp only [Option.some.injEq] at ha; subst ha
      obtain ⟨hr1, hr2⟩ := hcore.room hn
      let s1 : SB := { s with buf := s.buf ++ [.data (s.pp + i) b]
                              pc := .reserved n fun j => if j = i then some b else img j }
      have hmem : SameMem (applyAll s1.buf s1) ((applyAll s.buf s).apply (.data (s.pp + i) b)) := by
        rw [show s1.buf = s.buf ++ [.data (s.pp + i) b] from rfl, applyAll_append]
        exact SameMem.apply (SameMem.applyAll (s := s1) (t := s) ⟨rfl, rfl, rfl, rfl, rfl⟩ s.buf) (.data (s.pp + i) b)
      have hmem' : ∀ j, (applyAll s1.buf s1).mem j =
          if j = s.pp + i then b else (applyAll s.buf s).mem j := fun j => congrFun hmem.mem j
      refine ⟨?_, ?_, hc, ⟨⟨hd1.1, by simp [hd1.2]⟩, hd.2⟩⟩
      · exact { hcore with
          endE := fun h => by rw [hmem.memE]; exact hcore.endE h
          fenced := hcore.fenced.append_other (by simp)
          path := hcore.path.append (b := [.data (s.pp + i) b]) ⟨⟨fun _ => by omega, fun hcf _ => ⟨fun hh => by have := hr2 hcf; omega, by omega⟩,
            by simp⟩, rfl, rfl⟩
          dataOld := fun h j h1 h2 => by
            have h1' : s.cp ≤ j := h1
            have := hr2 h
            rw [hmem' j, if_neg (by omega)]; exact hcore.dataOld h j h1 h2
          dataCur := fun j h1 h2 => by
            have h2' : j < s.pp := h2
            rw [hmem' j, if_neg (by omega)]; exact hcore.dataCur j h1 h2 }
      · refine ⟨hn, fun j b' hj => ?_⟩
        rw [hmem' (s.pp + j)]
        simp only at hj
        split at hj
        · rename_i e; subst e
          simp only [Option.some.injEq] at hj
          exact ⟨hi, by simp [hj]⟩
        · rename_i e
          rw [if_neg (by omega)]
          exact himg j b' hj
    · simp at ha
  · simp at ha

theorem imageBytes_ok {f : Nat → Option Byte} {n : Nat} {bs : List Byte}
    (h : imageBytes f n = some bs) : bs.length = n ∧ ∀ i, i < n → f i = bs[i]? := by
  unfold imageBytes at h
  have key : ∀ (l : List Nat) (bs : List Byte), l.mapM f = some bs →
      bs.length = l.length ∧ ∀ i (hi : i < l.length), f l[i] = bs[i]? := by
    intro l
    induction l with
    | nil => intro bs h; simp at h; subst h; simp
    | cons a l ih =>
      intro bs h
      simp only [List.mapM_cons, Option.bind_eq_bind, Option.pure_def, Option.bind_eq_some_iff] at h
      obtain ⟨x, hx, ys, hy, h⟩ := h
      simp only [Option.some.injEq] at h
      subst h
      obtain ⟨h1, h2⟩ := ih ys hy
      refine ⟨by simp [h1], fun i hi => ?_⟩
      cases i with
      | zero => simpa using hx
      | succ i => simpa using h2 i (by simpa using hi)
  obtain ⟨h1, h2⟩ := key _ _ h
  simp only [List.length_range] at h1
  refine ⟨h1, fun i hi => ?_⟩
  have := h2 i (by simpa using hi)
  simpa using this

theorem finish_inv {mm N s g k s'} (h : SInv mm N s g) (ha : s.act mm N (.finish k) = some s') :
    ∃ g', SInv mm N s' g' := by
  obtain ⟨hcore, hp, hc, hd⟩ := h
  simp only [SB.act] at ha
  split at ha
  · rename_i n img hpc
    have hd1 : s.memD = false ∧ .setD ∉ s.buf := by have := hd.1; simpa [hpc] using this
    obtain ⟨hn, himg⟩ : n < s.minFree ∧
        ∀ i b, img i = some b → i < n ∧ (applyAll s.buf s).mem (s.pp + i) = b := by
      have := hp; simpa [PInv, hpc] using this
    split at ha
    · rename_i hk
      split at ha
      · simp at ha
      · rename_i bs hbs
        obtain ⟨hl, hb⟩ := imageBytes_ok hbs
        obtain ⟨hr1, hr2⟩ := hcore.room (n := k) (by omega)
        have hmf : s.minFree ≤ N := by
          cases hh : g.h with
          | true => have := hcore.limT hh; omega
          | false =>
            have := (hcore.limF hh).1
            have := hcore.memC_old hh
            have := hcore.oldN
            omega
        have hmaxN := hcore.maxN
        rw [wsub_eq (by omega) (by omega)] at ha
        simp only [Option.some.injEq] at ha; subst ha
        let s1 : SB := { s with buf := s.buf ++ [.fence, .setP (s.pp + k) (s.pub.length + k)]
                                minFree := s.minFree - k, pp := s.pp + k, pc := .idle
                                pub := s.pub ++ bs }
        have hmem : (applyAll s1.buf s1).mem = (applyAll s.buf s).mem ∧
            (applyAll s1.buf s1).memE = (applyAll s.buf s).memE := by
          rw [show s1.buf = s.buf ++ [.fence, .setP (s.pp + k) (s.pub.length + k)] from rfl,
            applyAll_append]
          have := SameMem.applyAll (s := s1) (t := s) ⟨rfl, rfl, rfl, rfl, rfl⟩ s.buf
          exact ⟨this.mem, this.memE⟩
        have hpp := hcore.pp
        have hpub : s.pub.length = g.base.length + g.old.length + g.cur.length := by
          rw [hcore.pub]; simp; omega
        have htake : g.c = true → (g.cur ++ bs).take s.cp = g.cur.take s.cp := fun hct => by
          have := hcore.cp_pp hct
          rw [List.take_append_of_le_length (by omega)]
        have hfreed : (match s.cc with
            | .freed => s.memD = true ∧ (mm = .tso → s.got = s.pub ++ bs)
            | _ => True) := by
          have := hd.2
          split <;> rename_i e
          · rw [e] at this; have := this.1; rw [hd1.1] at this; simp at this
          · trivial
        refine ⟨⟨g.base, g.old, g.cur ++ bs, g.h, g.c, g.m, g.A, g.B⟩, ?_, trivial, ?_,
          ⟨⟨hd1.1, by simp [hd1.2]⟩, hfreed⟩⟩
        · exact { hcore with
            pub := by simp only [hcore.pub, List.append_assoc]
            pp := by simp [hpp, hl]
            ppN := hr1
            got := by
              have := hcore.got
              simp only [this]
              split
              · rename_i hct; rw [htake hct]
              · rfl
            ahead := hr2
            endE := fun h => by rw [hmem.2]; exact hcore.endE h
            limT := fun h => by have := hcore.limT h; simp only; omega
            limF := fun h => by have := hcore.limF h; simp only; omega
            fenced := hcore.fenced.append_setP _ _
            path := by
              refine hcore.path.append (Or.inl ⟨by omega, by simp, ?_, rfl, rfl⟩)
              simp only [if_true]; omega
            dataOld := fun h i h1 h2 => by rw [hmem.1]; exact hcore.dataOld h i h1 h2
            dataCur := fun i h1 h2 => by
              rw [hmem.1]
              have h2' : i < s.pp + k := h2
              rcases Nat.lt_or_ge i s.pp with hlt | hge
              · rw [List.getElem?_append_left (by omega)]; exact hcore.dataCur i h1 hlt
              · rw [List.getElem?_append_right (by omega), hpp, ← hb (i - s.pp) (by omega)]
                have hlen : i - s.pp < bs.length := by omega
                have hv : img (i - s.pp) = some bs[i - s.pp] := by
                  rw [hb _ (by omega), List.getElem?_eq_getElem hlen]
                have := (himg _ _ hv).2
                rw [show s.pp + (i - s.pp) = i by omega] at this
                rw [hv, this] }
        · have hcc := hc
          unfold CInv at hcc ⊢
          simp only
          split at hcc
          · trivial
          · rename_i p v e; exact hcc
          · rename_i p v e; exact hcc
          · rename_i avail view e
            try simp only [e]
            refine ⟨hcc.1, fun i b hv => ?_⟩
            obtain ⟨x1, x2⟩ := hcc.2 i b hv
            refine ⟨x1, ?_⟩
            simp only [Ghost.lap] at x2 ⊢
            split
            · rename_i hct
              simp only [hct, if_true] at x2
              rw [List.getElem?_append_left]
              · exact x2
              · rw [List.getElem?_eq_some_iff] at x2; exact x2.1
            · rename_i hct
              simp only [hct] at x2
              exact x2
          · exact hcc
          · trivial
    · simp at ha
  · simp at ha

theorem exit_inv {mm N s g s'} (h : SInv mm N s g) (ha : s.act mm N .exit = some s') :
    SInv mm N s' g := by
  obtain ⟨hcore, hp, hc, hd⟩ := h
  simp only [SB.act] at ha
  split at ha
  · rename_i hpc
    have hd1 : s.memD = false ∧ .setD ∉ s.buf := by have := hd.1; simpa [hpc] using this
    simp only [Option.some.injEq] at ha; subst ha
    let s1 : SB := { s with buf := s.buf ++ [.setD], pc := .exited }
    have hmem : (applyAll s1.buf s1).mem = (applyAll s.buf s).mem ∧
        (applyAll s1.buf s1).memE = (applyAll s.buf s).memE := by
      rw [show s1.buf = s.buf ++ [.setD] from rfl, applyAll_append]
      have := SameMem.applyAll (s := s1) (t := s) ⟨rfl, rfl, rfl, rfl, rfl⟩ s.buf
      exact ⟨this.mem, this.memE⟩
    refine ⟨?_, trivial, hc, ⟨fun _ => Or.inr ⟨hd1.1, _, rfl, hd1.2⟩, hd.2⟩⟩
    exact { hcore with
      endE := fun h => by rw [hmem.2]; exact hcore.endE h
      fenced := hcore.fenced.append_other (by simp)
      path := hcore.path.append ⟨rfl, rfl⟩
      dataOld := fun h i h1 h2 => by rw [hmem.1]; exact hcore.dataOld h i h1 h2
      dataCur := fun i h1 h2 => by rw [hmem.1]; exact hcore.dataCur i h1 h2 }
  · simp at ha


/-- A commit leaves the settled memory as it is. -/
theorem commit_settled {s : SB} {a b : List Store} {w : Store} (hb : s.buf = a ++ w :: b)
    (hv : ∀ v ∈ a, v.sameVar w = false) :
    SameMem (applyAll (a ++ b) { s.apply w with buf := a ++ b }) (applyAll s.buf s) := by
  have h1 : SameMem { s.apply w with buf := a ++ b } (s.apply w) := ⟨rfl, rfl, rfl, rfl, rfl⟩
  have h2 := h1.applyAll (a ++ b)
  have h3 : applyAll (a ++ b) (s.apply w) = applyAll s.buf s := by
    rw [hb, applyAll_append, applyAll_append, ← applyAll_comm hv]
    rfl
  rw [h3] at h2
  exact h2

/-- Commit of a store other than to `producerPos`: memory changes at most at `mem`, `memE` and
`memD`. -/
theorem Core.commit_other {N s g} (h : Core N s g) {a b : List Store} {w : Store}
    (hb : s.buf = a ++ w :: b) (hv : ∀ v ∈ a, v.sameVar w = false) (hf : Fenced (a ++ b))
    (hw : ∀ v l, w ≠ .setP v l) (mem : Nat → Byte) (memE : Nat) (memD : Bool)
    (he : { s.apply w with buf := a ++ b } =
      { s with mem := mem, memE := memE, memD := memD, buf := a ++ b }) :
    Core N { s with mem := mem, memE := memE, memD := memD, buf := a ++ b } g := by
  have hm := commit_settled hb hv
  rw [he] at hm
  have hpath := h.path
  rw [hb] at hpath
  exact { h with
    endE := fun hc => by rw [hm.memE]; exact h.endE hc
    fenced := hf
    path := hpath.erase hw
    dataOld := fun hc i h1 h2 => by rw [hm.mem]; exact h.dataOld hc i h1 h2
    dataCur := fun i h1 h2 => by rw [hm.mem]; exact h.dataCur i h1 h2 }

theorem PInv.commit {N s g} (h : PInv N s g) {a b : List Store} {w : Store}
    (hb : s.buf = a ++ w :: b) (hv : ∀ v ∈ a, v.sameVar w = false) (s' : SB)
    (he : s' = { s.apply w with buf := a ++ b }) (g' : Ghost) (hg : g'.h = g.h) : PInv N s' g' := by
  have hm := commit_settled hb hv
  rw [← he] at hm
  have e1 : s'.buf = a ++ b := by rw [he]
  have e2 : s'.pp = s.pp ∧ s'.memC = s.memC ∧ s'.minFree = s.minFree ∧ s'.pc = s.pc := by
    rw [he]; cases w <;> exact ⟨rfl, rfl, rfl, rfl⟩
  obtain ⟨e2, e3, e4, e5⟩ := e2
  unfold PInv at h ⊢
  rw [e1, e2, e3, e4, e5, hm.mem, hm.memE, hg]
  exact h

theorem DInv.commit {mm s} (h : DInv mm s) {a b : List Store} {w : Store}
    (hb : s.buf = a ++ w :: b) (ht : mm = .tso → a = []) (s' : SB)
    (he : s' = { s.apply w with buf := a ++ b }) : DInv mm s' := by
  have e1 : s'.buf = a ++ b := by rw [he]
  have e2 : s'.pc = s.pc ∧ s'.cc = s.cc ∧ s'.got = s.got ∧ s'.pub = s.pub := by
    rw [he]; cases w <;> exact ⟨rfl, rfl, rfl, rfl⟩
  have e6 : s'.memD = if w = .setD then true else s.memD := by
    rw [he]; cases w <;> rfl
  obtain ⟨e2, e3, e4, e5⟩ := e2
  unfold DInv at h ⊢
  rw [e1, e2, e3, e4, e5, e6]
  obtain ⟨h1, h2⟩ := h
  constructor
  · cases hpc : s.pc with
    | exited =>
      rw [hpc] at h1
      intro hmm
      have := ht hmm; subst this
      rcases h1 hmm with ⟨x, y⟩ | ⟨x, a0, y, z⟩
      · rw [hb] at y; simp at y
      · rw [hb, List.nil_append] at y
        cases a0 with
        | nil =>
          simp only [List.nil_append, List.cons.injEq] at y
          left; simp [y.1, y.2]
        | cons q a0 =>
          rw [List.cons_append, List.cons.injEq] at y
          obtain ⟨rfl, rfl⟩ := y
          have hw : w ≠ .setD := fun h => z (by simp [h])
          right
          rw [if_neg hw]
          exact ⟨x, a0, rfl, fun h => z (by simp [h])⟩
    | _ =>
      rw [hpc] at h1
      have hw : w ≠ .setD := fun h => h1.2 (by rw [hb]; simp [h])
      refine ⟨by rw [if_neg hw]; exact h1.1, fun h => h1.2 ?_⟩
      rw [hb]
      rcases List.mem_append.1 h with h | h <;> simp [h]
  · cases hcc : s.cc with
    | freed =>
      rw [hcc] at h2
      exact ⟨by rw [h2.1]; simp, h2.2⟩
    | _ => trivial

theorem commit_inv {mm N s g k s'} (h : SInv mm N s g) (ha : s.act mm N (.commit k) = some s') :
    ∃ g', SInv mm N s' g' := by
  obtain ⟨hcore, hp, hc, hd⟩ := h
  simp only [SB.act] at ha
  split at ha
  · rename_i hk
    split at ha
    · simp at ha
    · rename_i w hw
      simp only [Option.some.injEq] at ha
      obtain ⟨a, b, hb, he, hv, ht, hfn, hsp⟩ := commit_split hcore.fenced hk hw
      rw [he] at ha
      have hp' := fun g' hg => hp.commit hb hv s' ha.symm g' hg
      have hd' := hd.commit hb ht s' ha.symm
      have hfen := hcore.fenced
      rw [hb] at hfen
      cases w with
      | data i x =>
        refine ⟨g, ?_, hp' g rfl, ?_, hd'⟩ <;> subst ha
        · exact hcore.commit_other hb hv (hfen.erase (by simp)) (by simp) _ s.memE s.memD rfl
        · exact hc
      | setE e =>
        refine ⟨g, ?_, hp' g rfl, ?_, hd'⟩ <;> subst ha
        · exact hcore.commit_other hb hv (hfen.erase (by simp)) (by simp) s.mem _ s.memD rfl
        · exact hc
      | setD =>
        refine ⟨g, ?_, hp' g rfl, ?_, hd'⟩ <;> subst ha
        · exact hcore.commit_other hb hv (hfen.erase (by simp)) (by simp) s.mem s.memE _ rfl
        · have hcc := hc
          unfold CInv at hcc ⊢
          simp only [SB.apply]
          cases e : s.cc <;> simp only [e] at hcc ⊢ <;> exact hcc
      | fence =>
        have := hfn rfl; subst this
        refine ⟨g, ?_, hp' g rfl, ?_, hd'⟩ <;> subst ha
        · exact hcore.commit_other hb hv hfen.head (by simp) s.mem s.memE s.memD rfl
        · exact hc
      | setP v l =>
        have := hsp v l rfl; subst this
        have hm := commit_settled hb hv
        have hpath := hcore.path
        rw [hb] at hpath
        simp only [List.nil_append] at hpath ha hm
        have hpub := hcore.vis
        rcases hpath with ⟨x1, x2, x3, x4⟩ | ⟨x1, x2, x3, x4, x5⟩
        · have hvl : ∀ s', s' = { s.apply (.setP v l) with buf := b } → s.vlim g ≤ s'.vlim g := by
            rintro s' rfl
            simp only [SB.vlim, SB.apply]
            split
            · exact x1
            · split
              · exact Nat.le_refl _
              · exact x1
          have hvl' := hvl s' ha.symm
          refine ⟨g, ?_, hp' g rfl, ?_, hd'⟩
          · subst ha
            exact { hcore with
              cpv := Nat.le_trans hcore.cpv hvl'
              vis := x3
              endE := fun hc => by rw [hm.memE]; exact hcore.endE hc
              fenced := hfen.head
              path := x4
              dataOld := fun hc i h1 h2 => by rw [hm.mem]; exact hcore.dataOld hc i h1 h2
              dataCur := fun i h1 h2 => by rw [hm.mem]; exact hcore.dataCur i h1 h2 }
          · have hcc := hc
            have e1 : s'.cc = s.cc ∧ s'.cp = s.cp ∧ s'.memP = v ∧ s'.memD = s.memD := by
              rw [← ha]; exact ⟨rfl, rfl, rfl, rfl⟩
            obtain ⟨e1, e2, e3, e4⟩ := e1
            unfold CInv at hcc ⊢
            rw [e1, e2, e3, e4]
            cases e : s.cc with
            | loaded p v' =>
              rw [e] at hcc
              refine ⟨fun h => ?_, fun h => ?_⟩
              · obtain ⟨y1, y2, y3, y4⟩ := hcc.1 h
                exact ⟨y1, y2, by omega, y4⟩
              · obtain ⟨y1, y2⟩ := hcc.2 h
                exact ⟨by omega, y2⟩
            | rolled p v' =>
              rw [e] at hcc
              obtain ⟨y1, y2, y3, y4⟩ := hcc
              exact ⟨y1, y2, by omega, y4⟩
            | holding av view =>
              rw [e] at hcc
              exact ⟨Nat.le_trans hcc.1 hvl', hcc.2⟩
            | idle => trivial
            | dead => rw [e] at hcc; exact hcc
            | freed => trivial
        · have hcf : g.c = false := by
            cases h : g.c with
            | false => rfl
            | true => have := hcore.cm h; rw [x1] at this; simp at this
          have hold : s.cp ≤ g.old.length := hcore.cp_old hcf
          refine ⟨{ g with m := true }, ?_, hp' _ rfl, ?_, hd'⟩
          · subst ha
            exact { hcore with
              cm := fun _ => rfl
              cpv := by simp only [SB.vlim, SB.apply, hcf]; simpa using hold
              vis := by
                simp only [SB.apply]
                rw [x4]; simp [x2]
              endE := fun hc => by rw [hm.memE]; exact hcore.endE hc
              fenced := hfen.head
              path := by
                simp only [SB.apply]
                rw [x2]; exact x5
              dataOld := fun hc i h1 h2 => by rw [hm.mem]; exact hcore.dataOld hc i h1 h2
              dataCur := fun i h1 h2 => by rw [hm.mem]; exact hcore.dataCur i h1 h2 }
          · have hcc := hc
            have e1 : s'.cc = s.cc ∧ s'.cp = s.cp ∧ s'.memP = v ∧ s'.memD = s.memD := by
              rw [← ha]; exact ⟨rfl, rfl, rfl, rfl⟩
            obtain ⟨e1, e2, e3, e4⟩ := e1
            unfold CInv at hcc ⊢
            rw [e1, e2, e3, e4]
            have hvl : s.vlim g = s.memP := by simp [SB.vlim, hcf, x1]
            have hvl' : s'.vlim { g with m := true } = g.old.length := by simp [SB.vlim, hcf]
            rw [hvl] at hcc
            rw [hvl']
            cases e : s.cc with
            | loaded p v' =>
              rw [e] at hcc
              refine ⟨fun h => ?_, fun h => ?_⟩
              · have := (hcc.1 h).2.1; rw [x1] at this; simp at this
              · obtain ⟨y1, y2⟩ := hcc.2 h
                exact ⟨by omega, y2⟩
            | rolled p v' =>
              rw [e] at hcc
              have := hcc.1; rw [hcf] at this; simp at this
            | holding av view =>
              rw [e] at hcc
              exact ⟨by have := hcc.1; omega, hcc.2⟩
            | idle => trivial
            | dead => rw [e] at hcc; exact hcc
            | freed => trivial
  · simp at ha

theorem commitC_inv {mm N s g s'} (h : SInv mm N s g) (ha : s.act mm N .commitC = some s') :
    ∃ g', SInv mm N s' g' := by
  obtain ⟨hcore, hp, hc, hd⟩ := h
  simp only [SB.act] at ha
  split at ha
  · simp at ha
  · rename_i c cs hcs
    simp only [Option.some.injEq] at ha; subst ha
    let s1 : SB := { s with memC := c, cbuf := cs }
    have hm : SameMem (applyAll s.buf s1) (applyAll s.buf s) :=
      SameMem.applyAll (s := s1) (t := s) ⟨rfl, rfl, rfl, rfl, rfl⟩ s.buf
    have hist := hcore.hist
    rw [hcs] at hist
    cases hA : g.A with
    | nil =>
      rw [hA, List.nil_append] at hist
      have hh : g.h = true := by
        cases h : g.h with
        | true => rfl
        | false => exact absurd hA (hcore.hA' h)
      have hle : s.memC ≤ c := by
        have := hcore.sB; rw [← hist] at this
        exact (List.pairwise_cons.1 this).1 c (by simp)
      refine ⟨{ g with B := c :: cs }, ?_, ?_, hc, hd⟩
      · exact { hcore with
          endE := fun hc => by rw [hm.memE]; exact hcore.endE hc
          limF := fun h => by simp only at h; rw [hh] at h; simp at h
          hist := by simp only [hA, List.nil_append]
          sB := by
            have := hcore.sB; rw [← hist] at this
            exact (List.pairwise_cons.1 this).2
          cB := fun h => by
            have := hcore.hc hh; simp only at h; rw [h] at this; simp at this
          cB' := by simp
          last := by
            have := hcore.last
            rw [hA, ← hist] at this
            simp only [hA, List.nil_append] at this ⊢
            rwa [List.getLast?_cons_cons] at this
          dataOld := fun hc i h1 h2 => by rw [hm.mem]; exact hcore.dataOld hc i h1 h2
          dataCur := fun i h1 h2 => by rw [hm.mem]; exact hcore.dataCur i h1 h2 }
      · have hpp := hp
        unfold PInv at hpp ⊢
        simp only
        rw [hm.mem, hm.memE]
        cases e : s.pc with
        | loaded n c' =>
          rw [e] at hpp
          refine ⟨fun h => ⟨hh, by have := (hpp.1 h).2; omega⟩,
            fun h => ⟨(hpp.2 h).1, fun h' => by rw [hh] at h'; simp at h'⟩⟩
        | wrapping n c' =>
          rw [e] at hpp
          exact ⟨hh, by have := hpp.2.1; omega, hpp.2.2⟩
        | reserved n img => rw [e] at hpp; exact hpp
        | _ => trivial
    | cons x A =>
      rw [hA, List.cons_append] at hist
      have hist0 := List.cons.inj hist
      clear hist
      obtain ⟨hx, hist⟩ := hist0
      subst hx
      have hh : g.h = false := by
        cases h : g.h with
        | false => rfl
        | true => have := hcore.hA h; rw [hA] at this; simp at this
      have hlast := hcore.last
      rw [hA, List.cons_append, ← hist, List.getLast?_cons_cons, hist] at hlast
      have hsA := hcore.sA
      rw [hA] at hsA
      have hsA := List.pairwise_cons.1 hsA
      cases A with
      | nil =>
        -- the last value of the old lap is gone
        rw [List.nil_append] at hist hlast
        have hct : g.c = true := by
          cases h : g.c with
          | true => rfl
          | false => have := hcore.cB h; rw [this] at hist; simp at hist
        have hlim := hcore.limF hh
        have hmo := hcore.memC_old hh
        have hoN := hcore.oldN
        refine ⟨{ g with h := true, A := [] }, ?_, ?_, hc, hd⟩
        · exact { hcore with
            hc := fun _ => hct
            endE := fun hc => by rw [hm.memE]; exact hcore.endE hc
            limT := fun _ => by simp only; omega
            limF := fun h => by simp at h
            hist := by simpa using hist
            sA := List.Pairwise.nil
            hA := fun _ => rfl
            hA' := fun h => by simp at h
            last := by simpa using hlast
            leA := fun a ha => by simp at ha
            dataOld := fun hc i h1 h2 => by rw [hm.mem]; exact hcore.dataOld hc i h1 h2
            dataCur := fun i h1 h2 => by rw [hm.mem]; exact hcore.dataCur i h1 h2 }
        · have hpp := hp
          unfold PInv at hpp ⊢
          simp only
          rw [hm.mem, hm.memE]
          cases e : s.pc with
          | loaded n c' =>
            rw [e] at hpp
            refine ⟨fun h => ?_, fun h => ⟨(hpp.2 h).1, fun h' => by simp at h'⟩⟩
            have := (hpp.1 h).1; rw [hh] at this; simp at this
          | wrapping n c' =>
            rw [e] at hpp
            have := hpp.1; rw [hh] at this; simp at this
          | reserved n img => rw [e] at hpp; exact hpp
          | _ => trivial
      | cons y A =>
        rw [List.cons_append] at hist
        have hist0 := List.cons.inj hist
        clear hist
        obtain ⟨hy, hist⟩ := hist0
        subst hy
        have hle : s.memC ≤ c := hsA.1 c (by simp)
        refine ⟨{ g with A := c :: A }, ?_, ?_, hc, hd⟩
        · exact { hcore with
            endE := fun hc => by rw [hm.memE]; exact hcore.endE hc
            limF := fun h => by have := hcore.limF h; simp only; omega
            hist := by simp only [List.cons_append, hist]
            sA := hsA.2
            hA := fun h => by simp only at h; rw [hh] at h; simp at h
            hA' := by simp
            last := by simpa using hlast
            leA := fun a ha => hcore.leA a (by rw [hA]; exact List.mem_cons_of_mem _ ha)
            dataOld := fun hc i h1 h2 => by rw [hm.mem]; exact hcore.dataOld hc i h1 h2
            dataCur := fun i h1 h2 => by rw [hm.mem]; exact hcore.dataCur i h1 h2 }
        · have hpp := hp
          unfold PInv at hpp ⊢
          simp only
          rw [hm.mem, hm.memE]
          cases e : s.pc with
          | loaded n c' =>
            rw [e] at hpp
            refine ⟨fun h => ?_, fun h => ⟨(hpp.2 h).1, fun h' => by have := (hpp.2 h).2 h'; omega⟩⟩
            have := (hpp.1 h).1; rw [hh] at this; simp at this
          | wrapping n c' =>
            rw [e] at hpp
            have := hpp.1; rw [hh] at this; simp at this
          | reserved n img => rw [e] at hpp; exact hpp
          | _ => trivial


theorem Core.vlim_lt {N s g} (h : Core N s g) : s.vlim g < N ∧ (g.c = false → s.vlim g ≤ g.old.length) := by
  have h1 := h.oldN
  have h2 := h.ppN
  simp only [SB.vlim]
  split
  · rename_i hc
    have := h.cp_pp hc
    exact ⟨by omega, fun h => by rw [hc] at h; simp at h⟩
  · split
    · exact ⟨by omega, fun _ => Nat.le_refl _⟩
    · rename_i hm
      have hp := h.path
      have hm' : g.m = false := by cases h : g.m <;> simp_all
      rw [hm'] at hp
      have := hp.le_old
      exact ⟨by omega, fun _ => this⟩

theorem peek_inv {mm N s g s'} (h : SInv mm N s g) (ha : s.act mm N .peek = some s') :
    SInv mm N s' g := by
  obtain ⟨hcore, hp, hc, hd⟩ := h
  simp only [SB.act] at ha
  split at ha
  · rename_i hcc
    simp only [Option.some.injEq] at ha; subst ha
    have hm := (SameMem.of_upd s s.minFree s.pc (.loaded s.memP s.vis)).applyAll s.buf
    refine ⟨hcore.ctl s.pc _, ?_, ?_, ⟨hd.1, trivial⟩⟩
    · have hpp := hp
      unfold PInv at hpp ⊢
      simp only
      rw [hm.mem, hm.memE]; exact hpp
    · have hcpv := hcore.cpv
      have hvis := hcore.vis
      simp only [CInv]
      cases hct : g.c with
      | true =>
        have hmt := hcore.cm hct
        have := hcore.cp_pp hct
        simp only [hmt, if_true] at hvis
        refine ⟨fun h => by omega, fun _ => ⟨?_, ?_⟩⟩
        · simp only [SB.vlim, hct, if_true]; omega
        · simp only [hvis, if_true]; try omega
      | false =>
        cases hmt : g.m with
        | true =>
          have hpa := hcore.path
          rw [hmt] at hpa
          have := hpa.le
          have := hcore.ahead hct
          simp only [hmt, if_true] at hvis
          refine ⟨fun h => ⟨rfl, rfl, Nat.le_refl _, by omega⟩, fun _ => by omega⟩
        | false =>
          simp only [SB.vlim, hct, hmt] at hcpv
          simp only [hmt] at hvis
          simp only [Bool.false_eq_true, if_false] at hcpv hvis
          refine ⟨fun h => by omega, fun _ => ⟨?_, ?_⟩⟩
          · simp [SB.vlim, hct, hmt]
          · simp [hvis]
  · simp at ha

theorem PInv.cc {N s g} (h : PInv N s g) (x : CPc) : PInv N { s with cc := x } g := by
  have hm := (SameMem.of_upd s s.minFree s.pc x).applyAll s.buf
  unfold PInv at h ⊢
  simp only
  rw [hm.mem, hm.memE]; exact h

theorem cstep_inv {mm N s g s'} (h : SInv mm N s g) (ha : s.act mm N .cstep = some s') :
    ∃ g', SInv mm N s' g' := by
  obtain ⟨hcore, hp, hc, hd⟩ := h
  have hvN := hcore.vlim_lt.1
  have hmaxN := hcore.maxN
  have hcpv := hcore.cpv
  simp only [SB.act] at ha
  split at ha
  · rename_i p v hcc
    obtain ⟨hc1, hc2⟩ : (p < s.cp → g.c = false ∧ g.m = true ∧ p ≤ s.memP ∧
        v = g.base.length + g.old.length + p) ∧
      (s.cp ≤ p → p ≤ s.vlim g ∧ v = g.base.length + (if g.c then g.old.length + p else p)) := by
      have := hc; simpa only [CInv, hcc] using this
    split at ha
    · rename_i hlt
      obtain ⟨hcf, hmt, hpm, hv⟩ := hc1 hlt
      have hpath := hcore.path
      rw [hcf, hmt] at hpath
      have hE : s.memE = g.old.length := by
        rw [← applyAll_memE_none s hpath.no_setE]; exact hcore.endE hcf
      have hold := hcore.cp_old hcf
      have hws : wsub s.memE s.cp = g.old.length - s.cp := by
        rw [hE, wsub_eq hold (by have := hcore.oldN; omega)]
      rw [hws] at ha
      have hvl : s.vlim g = g.old.length := by simp [SB.vlim, hcf, hmt]
      split at ha
      · simp only [Option.some.injEq] at ha; subst ha
        refine ⟨g, hcore.ctl s.pc _, hp.cc _, ⟨?_, by simp⟩, ⟨hd.1, trivial⟩⟩
        show s.cp + (g.old.length - s.cp) ≤ s.vlim g
        rw [hvl]; omega
      · rename_i h0
        have hcp : s.cp = g.old.length := by omega
        simp only [Option.some.injEq] at ha; subst ha
        let s1 : SB := { s with cbuf := s.cbuf ++ [0], cp := 0, cc := .rolled p v }
        have hm : SameMem (applyAll s.buf s1) (applyAll s.buf s) :=
          SameMem.applyAll (s := s1) (t := s) ⟨rfl, rfl, rfl, rfl, rfl⟩ s.buf
        have hhf : g.h = false := by
          cases h : g.h with
          | false => rfl
          | true => have := hcore.hc h; rw [hcf] at this; simp at this
        have hB := hcore.cB hcf
        refine ⟨{ g with c := true, B := [0] }, ?_, ?_, ⟨rfl, rfl, hpm, hv⟩, ⟨hd.1, trivial⟩⟩
        · exact { hcore with
            hc := fun _ => rfl
            cm := fun _ => hmt
            got := by
              have := hcore.got
              simp only [hcf] at this
              simp only [this, hcp]
              simp
            cpv := Nat.zero_le _
            ahead := fun h => by simp at h
            endE := fun h => by simp at h
            hist := by
              have := hcore.hist
              rw [hB, List.append_nil] at this
              simp only [← this]; simp
            sB := by simp
            cB := fun h => by simp at h
            cB' := by simp
            last := by simp
            path := by simp only [hmt]; exact hpath.roll
            dataOld := fun h => by simp at h
            dataCur := fun i _ h2 => by
              rw [hm.mem]; exact hcore.dataCur i (fun h => by rw [hcf] at h; simp at h) h2 }
        · have hpp := hp
          unfold PInv at hpp ⊢
          simp only
          rw [hm.mem, hm.memE]; exact hpp
    · rename_i hge
      obtain ⟨h1, h2⟩ := hc2 (by omega)
      rw [wsub_eq (by omega) (by omega)] at ha
      simp only [Option.some.injEq] at ha; subst ha
      refine ⟨g, hcore.ctl s.pc _, hp.cc _, ⟨?_, by simp⟩, ⟨hd.1, trivial⟩⟩
      show s.cp + (p - s.cp) ≤ s.vlim g
      omega
  · rename_i p v hcc
    obtain ⟨h1, h2, h3, h4⟩ : g.c = true ∧ s.cp = 0 ∧ p ≤ s.memP ∧
        v = g.base.length + g.old.length + p := by have := hc; simpa only [CInv, hcc] using this
    have hvl : s.vlim g = s.memP := by simp [SB.vlim, h1]
    rw [wsub_eq (by omega) (by omega)] at ha
    simp only [Option.some.injEq] at ha; subst ha
    refine ⟨g, hcore.ctl s.pc _, hp.cc _, ⟨?_, by simp⟩, ⟨hd.1, trivial⟩⟩
    show s.cp + (p - s.cp) ≤ s.vlim g
    omega
  · simp at ha

/-- What the consumer may read is what was published. -/
theorem Core.read {N s g} (h : Core N s g) {j : Nat} (h1 : s.cp ≤ j) (h2 : j < s.vlim g) :
    g.lap[j]? = some (s.mem j) := by
  have hno : ∀ x, Store.data j x ∉ s.buf := by
    intro x hx
    obtain ⟨o1, o2, o3⟩ := h.path.outside h.cm hx
    cases hc : g.c with
    | true =>
      simp only [SB.vlim, hc, if_true] at h2
      exact o1 hc ⟨h1, h2⟩
    | false =>
      cases hm : g.m with
      | true =>
        simp only [SB.vlim, hc, hm, if_true, Bool.false_eq_true, if_false] at h2
        exact (o2 hc hm).1 ⟨h1, h2⟩
      | false =>
        simp only [SB.vlim, hc, hm, Bool.false_eq_true, if_false] at h2
        exact o3 hc hm ⟨h1, h2⟩
  rw [← applyAll_mem_none s j hno]
  cases hc : g.c with
  | true =>
    have := h.cp_pp hc
    simp only [SB.vlim, hc, if_true] at h2
    simp only [Ghost.lap, hc, if_true]
    exact h.dataCur j (fun _ => h1) (by omega)
  | false =>
    have := h.vlim_lt.2 hc
    simp only [Ghost.lap, hc, Bool.false_eq_true, if_false]
    exact h.dataOld hc j h1 (by omega)

theorem look_inv {mm N s g i s'} (h : SInv mm N s g) (ha : s.act mm N (.look i) = some s') :
    SInv mm N s' g := by
  obtain ⟨hcore, hp, hc, hd⟩ := h
  simp only [SB.act] at ha
  split at ha
  · rename_i avail view hcc
    obtain ⟨h1, h2⟩ : s.cp + avail ≤ s.vlim g ∧
      ∀ i b, view i = some b → i < avail ∧ g.lap[s.cp + i]? = some b := by
      have := hc; simpa only [CInv, hcc] using this
    split at ha
    · rename_i hi
      simp only [Option.some.injEq] at ha; subst ha
      refine ⟨hcore.ctl s.pc _, hp.cc _, ⟨h1, fun j b hj => ?_⟩, ⟨hd.1, trivial⟩⟩
      simp only at hj
      split at hj
      · rename_i e; subst e
        simp only [Option.some.injEq] at hj
        subst hj
        exact ⟨hi, hcore.read (j := s.cp + j) (by omega) (by omega)⟩
      · exact h2 j b hj
    · simp at ha
  · simp at ha

theorem take_add_image {l bs : List Byte} {k n : Nat} (hl : bs.length = n)
    (h : ∀ i, i < n → l[k + i]? = bs[i]?) : l.take (k + n) = l.take k ++ bs := by
  rw [List.take_add]
  congr 1
  apply List.ext_getElem?
  intro i
  rw [List.getElem?_take]
  split
  · rename_i hi
    rw [List.getElem?_drop]; exact h i hi
  · rw [List.getElem?_eq_none (by omega)]

theorem consume_inv {mm N s g n s'} (h : SInv mm N s g) (ha : s.act mm N (.consume n) = some s') :
    ∃ g', SInv mm N s' g' := by
  obtain ⟨hcore, hp, hc, hd⟩ := h
  simp only [SB.act] at ha
  split at ha
  · rename_i avail view hcc
    obtain ⟨h1, h2⟩ : s.cp + avail ≤ s.vlim g ∧
      ∀ i b, view i = some b → i < avail ∧ g.lap[s.cp + i]? = some b := by
      have := hc; simpa only [CInv, hcc] using this
    split at ha
    · rename_i hn
      split at ha
      · simp at ha
      · rename_i bs hbs
        obtain ⟨hl, hb⟩ := imageBytes_ok hbs
        simp only [Option.some.injEq] at ha; subst ha
        let s1 : SB := { s with cbuf := s.cbuf ++ [s.cp + n], cp := s.cp + n
                                cc := .holding (avail - n) fun j => view (j + n)
                                got := s.got ++ bs }
        have hm : SameMem (applyAll s.buf s1) (applyAll s.buf s) :=
          SameMem.applyAll (s := s1) (t := s) ⟨rfl, rfl, rfl, rfl, rfl⟩ s.buf
        have hlap : g.lap.take (s.cp + n) = g.lap.take s.cp ++ bs := by
          apply take_add_image hl
          intro i hi
          have hlen : i < bs.length := by omega
          have hv : view i = some bs[i] := by rw [hb _ hi, List.getElem?_eq_getElem hlen]
          rw [(h2 i _ hv).2, List.getElem?_eq_getElem hlen]
        have hp' : ∀ g', g'.h = g.h → PInv N s1 g' := by
          intro g' hg
          have hpp := hp
          unfold PInv at hpp ⊢
          simp only [s1] at hm ⊢
          rw [hm.mem, hm.memE, hg]; exact hpp
        have hc' : ∀ g', g'.c = g.c → g'.m = g.m → g'.old = g.old → g'.cur = g.cur → CInv s1 g' := by
          intro g' e1 e2 e3 e4
          refine ⟨?_, fun i b hv => ?_⟩
          · simp only [SB.vlim, e1, e2, e3] at h1 ⊢
            simp only [s1] at *
            omega
          · obtain ⟨x1, x2⟩ := h2 _ _ hv
            refine ⟨by omega, ?_⟩
            simp only [Ghost.lap, e1, e3, e4] at x2 ⊢
            rw [← x2]
            congr 1
            simp only [s1]; omega
        have hist := hcore.hist
        have hlast := hcore.last
        cases hct : g.c with
        | true =>
          have hBne := hcore.cB' hct
          simp only [Ghost.lap, hct, if_true] at hlap
          have hlastB : g.B.getLast? = some s.cp := by
            rw [List.getLast?_append] at hlast
            rcases List.eq_nil_or_concat g.B with h | ⟨B', y, h⟩
            · exact absurd h hBne
            · rw [h, List.concat_eq_append] at hlast ⊢
              simpa using hlast
          refine ⟨{ g with B := g.B ++ [s.cp + n] }, ?_, hp' _ rfl, hc' _ rfl rfl rfl rfl,
            ⟨hd.1, trivial⟩⟩
          exact { hcore with
            got := by
              have := hcore.got
              simp only [hct, if_true] at this ⊢
              rw [this, hlap]; simp
            cpv := by
              simp only [SB.vlim, hct, if_true] at h1 ⊢; omega
            ahead := fun h => by simp only at h; rw [hct] at h; simp at h
            endE := fun h => by simp only at h; rw [hct] at h; simp at h
            hist := by
              simp only [← List.append_assoc, ← hist]; simp
            sB := by
              rw [List.pairwise_append]
              refine ⟨hcore.sB, by simp, fun a ha b hb => ?_⟩
              have := getLast_max hcore.sB hlastB a ha
              simp at hb; omega
            cB := fun h => by simp only at h; rw [hct] at h; simp at h
            cB' := by simp
            last := by simp
            path := hcore.path.advance (by simp only; omega)
            dataOld := fun h => by simp only at h; rw [hct] at h; simp at h
            dataCur := fun i h1 h2 => by
              rw [hm.mem]
              exact hcore.dataCur i (fun h => by have := h1 h; simp only at this; omega) h2 }
        | false =>
          have hB := hcore.cB hct
          have hhf : g.h = false := by
            cases h : g.h with
            | false => rfl
            | true => have := hcore.hc h; rw [hct] at this; simp at this
          simp only [Ghost.lap, hct, Bool.false_eq_true, if_false] at hlap
          rw [hB, List.append_nil] at hlast hist
          have hvo := hcore.vlim_lt.2 hct
          refine ⟨{ g with A := g.A ++ [s.cp + n] }, ?_, hp' _ rfl, hc' _ rfl rfl rfl rfl,
            ⟨hd.1, trivial⟩⟩
          exact { hcore with
            got := by
              have := hcore.got
              simp only [hct, Bool.false_eq_true, if_false] at this ⊢
              rw [this, hlap]; simp
            cpv := by
              simp only [SB.vlim, hct] at h1 ⊢; omega
            ahead := fun h => by have := hcore.ahead h; simp only; omega
            endE := fun h => by rw [hm.memE]; exact hcore.endE h
            hist := by
              simp only [hB, List.append_nil, ← hist]; simp
            sA := by
              rw [List.pairwise_append]
              refine ⟨hcore.sA, by simp, fun a ha b hb => ?_⟩
              have := getLast_max hcore.sA hlast a ha
              simp at hb; omega
            hA := fun h => by simp only at h; rw [hhf] at h; simp at h
            hA' := by simp
            last := by simp [hB]
            leA := fun a ha => by
              rcases List.mem_append.1 ha with h | h
              · exact hcore.leA a h
              · simp at h; simp only; omega
            path := hcore.path.advance (by simp only; omega)
            dataOld := fun h i h1 h2 => by
              rw [hm.mem]
              exact hcore.dataOld h i (by simp only at h1; omega) h2
            dataCur := fun i h1 h2 => by
              rw [hm.mem]
              exact hcore.dataCur i (fun h => by rw [hct] at h; simp at h) h2 }
    · simp at ha
  · simp at ha

theorem release_inv {mm N s g s'} (h : SInv mm N s g) (ha : s.act mm N .release = some s') :
    SInv mm N s' g := by
  obtain ⟨hcore, hp, hc, hd⟩ := h
  simp only [SB.act] at ha
  split at ha
  · simp only [Option.some.injEq] at ha; subst ha
    exact ⟨hcore.ctl s.pc _, hp.cc _, trivial, ⟨hd.1, trivial⟩⟩
  · simp only [Option.some.injEq] at ha; subst ha
    exact ⟨hcore.ctl s.pc _, hp.cc _, trivial, ⟨hd.1, trivial⟩⟩
  · simp at ha

/-- Nothing is pending and the consumer is at the position of the producer. -/
theorem Core.drained {N s g} (h : Core N s g) (hb : s.buf = []) (hp : s.cp = s.memP) :
    s.got = s.pub := by
  have hpath := h.path
  rw [hb] at hpath
  obtain ⟨hm, hpp⟩ : g.m = true ∧ s.memP = s.pp := hpath
  have hct : g.c = true := by
    cases hc : g.c with
    | true => rfl
    | false => have := h.ahead hc; omega
  have h1 := h.got
  simp only [hct, if_true] at h1
  rw [h1, h.pub, hp, hpp, ← h.pp, List.take_length, List.append_assoc]

theorem canDelete_inv {mm N s g s'} (h : SInv mm N s g) (ha : s.act mm N .canDelete = some s') :
    SInv mm N s' g := by
  obtain ⟨hcore, hp, hc, hd⟩ := h
  simp only [SB.act] at ha
  split at ha
  · split at ha
    · rename_i hD
      simp only [Option.some.injEq] at ha; subst ha
      exact ⟨hcore.ctl s.pc _, hp.cc _, hD, ⟨hd.1, trivial⟩⟩
    · simp at ha
  · rename_i hcc
    have hD : s.memD = true := by have := hc; simpa only [CInv, hcc] using this
    split at ha
    · rename_i hpos
      simp only [Option.some.injEq] at ha; subst ha
      refine ⟨hcore.ctl s.pc _, hp.cc _, trivial, ⟨hd.1, hD, fun hmm => ?_⟩⟩
      apply hcore.drained _ hpos
      have := hd.1
      cases hpc : s.pc with
      | exited =>
        rw [hpc] at this
        rcases this hmm with ⟨_, h⟩ | ⟨h, _⟩
        · exact h
        · rw [hD] at h; simp at h
      | _ => rw [hpc] at this; have := this.1; rw [hD] at this; simp at this
    · simp at ha
  · simp at ha

theorem act_inv {mm N s g a s'} (h : SInv mm N s g) (ha : s.act mm N a = some s') :
    ∃ g', SInv mm N s' g' := by
  cases a with
  | reserve n => exact ⟨g, reserve_inv h ha⟩
  | pstep => exact pstep_inv h ha
  | put i b => exact ⟨g, put_inv h ha⟩
  | finish m => exact finish_inv h ha
  | exit => exact ⟨g, exit_inv h ha⟩
  | commit k => exact commit_inv h ha
  | commitC => exact commitC_inv h ha
  | peek => exact ⟨g, peek_inv h ha⟩
  | cstep => exact cstep_inv h ha
  | look i => exact ⟨g, look_inv h ha⟩
  | consume n => exact consume_inv h ha
  | release => exact ⟨g, release_inv h ha⟩
  | canDelete => exact ⟨g, canDelete_inv h ha⟩

theorem run_inv {mm N as s g s'} (h : SInv mm N s g) (ha : SB.run mm N as s = some s') :
    ∃ g', SInv mm N s' g' := by
  induction as generalizing s g with
  | nil => simp only [SB.run, Option.some.injEq] at ha; subst ha; exact ⟨g, h⟩
  | cons a as ih =>
    simp only [SB.run] at ha
    split at ha
    · simp at ha
    · rename_i s1 h1
      obtain ⟨g1, hg⟩ := act_inv h h1
      exact ih hg ha

theorem Reachable.inv {mm N s} (h0 : 0 < N) (hN : N < 2 ^ 64) (h : SB.Reachable mm N s) :
    ∃ g, SInv mm N s g := by
  obtain ⟨as, ha⟩ := h
  exact run_inv (SInv.init mm h0 hN) ha

end NanoLog
