import Verif.OrderedFile

/-! Helper lemmas: ordered decompression of a file cut inside a record. -/

namespace NanoLog

/-! ## At the end of the file `good` does not matter -/

theorem depleteStep_good {pick : Nat → List BufFrag → Nat} {s s' : OSt} (g : Bool)
    (h : s.depleteStep pick = some s') :
    OSt.depleteStep pick { s with good := g } = some { s' with good := g } ∧ s'.file = s.file ∧
      s'.good = s.good := by
  unfold OSt.depleteStep at h ⊢
  simp only at h ⊢
  split at h
  · rename_i hm
    simp only [Option.some.injEq] at h
    subst h
    exact ⟨rfl, rfl, rfl⟩
  · rename_i i k bf hm
    split at h
    · rename_i m bf' st h1 h2
      split at h
      · simp at h
      · rename_i h3
        simp only [Option.some.injEq] at h
        subst h
        simp only [h1, h2, h3]
        exact ⟨trivial, trivial, trivial⟩
      · rename_i h3
        simp only [Option.some.injEq] at h
        subst h
        simp only [h1, h2, h3]
        exact ⟨trivial, trivial, trivial⟩
    · simp at h

theorem step_good {cap : Nat} {pick : Nat → List BufFrag → Nat} {s s' : OSt} (g : Bool)
    (he : s.file.eof = true) (h : s.step cap pick = some s') :
    OSt.step cap pick { s with good := g } = some { s' with good := g } ∧ s'.file = s.file ∧
      s'.good = s.good := by
  unfold OSt.step at h ⊢
  simp only at h ⊢
  split at h
  · rename_i hm
    simp only [Option.some.injEq] at h
    subst h
    simp [hm]
  · rename_i hm
    rw [if_pos (.inl he)] at h
    simp only [Option.some.injEq] at h
    subst h
    simp [hm, he]
  · rename_i hm
    rw [if_pos (.inl he)] at h
    simp only [Option.some.injEq] at h
    subst h
    simp [hm, he]
  · rename_i hm
    have := depleteStep_good g h
    simpa only [hm] using this

theorem OPlus.good {cap : Nat} {pick : Nat → List BufFrag → Nat} {s s' : OSt} (g : Bool)
    (he : s.file.eof = true) (h : OPlus cap pick s s') :
    OPlus cap pick { s with good := g } { s' with good := g } := by
  induction h with
  | one hm h => exact .one hm (step_good g he h).1
  | cons hm h _ ih =>
    obtain ⟨h1, h2, -⟩ := step_good g he h
    exact .cons hm h1 (ih (by rw [h2]; exact he))

theorem OStar.good {cap : Nat} {pick : Nat → List BufFrag → Nat} {s s' : OSt} (g : Bool)
    (he : s.file.eof = true) (h : OStar cap pick s s') :
    OStar cap pick { s with good := g } { s' with good := g } := by
  rcases h with rfl | h
  · exact .refl _
  · exact .inr (h.good g he)

theorem OSt.Ok.good {cap : Nat} {s : OSt} (h : s.Ok cap) (he : s.file.eof = true) (g : Bool) :
    OSt.Ok cap { s with good := g } := by
  have ht : s.terminal := .inl he
  have ht' : OSt.terminal { s with good := g } := .inl he
  refine ⟨h.three, h.nb, h.beyond, fun hn => h.beyond' ?_, h.frags, h.pool, fun _ _ h => absurd ht' h⟩
  rintro ⟨-, -, h⟩; exact h ht

/-! ## The cut record -/

/-- A non-empty proper prefix of an extent or of a dictionary fragment. -/
inductive CutTail (cap : Nat) : List Byte → Prop where
  | ext {tid np body p q} (ht : tid < 2 ^ 32) (hl : (extentBytes tid np body).length ≤ cap)
      (hcap : cap < 2 ^ 32) (h : extentBytes tid np body = p ++ q) (hp : p ≠ []) (hq : q ≠ []) :
      CutTail cap p
  | dict {total new p q} (hn : AllSupported new) (hl : (dictBytes total new).length < 2 ^ 30)
      (h : dictBytes total new = p ++ q) (hp : p ≠ []) (hq : q ≠ []) : CutTail cap p

theorem CutTail.noPad {cap : Nat} {tail : List Byte} (h : CutTail cap tail) : NoPadHead tail := by
  intro b hb
  cases h with
  | @ext tid np body p q ht hl hcap h hp hq =>
    obtain ⟨b', l, e1, e2⟩ := extentBytes_head tid np body ht
    rw [h] at e1
    cases tail with
    | nil => exact absurd rfl hp
    | cons c tail =>
      simp only [List.cons_append, List.cons.injEq] at e1
      simp only [List.head?_cons, Option.some.injEq] at hb
      rw [← hb, e1.1, e2]; simp
  | @dict total new p q hn hl h hp hq =>
    obtain ⟨b', l, e1, e2⟩ := dictBytes_head total new
    rw [h] at e1
    cases tail with
    | nil => exact absurd rfl hp
    | cons c tail =>
      simp only [List.cons_append, List.cons.injEq] at e1
      simp only [List.head?_cons, Option.some.injEq] at hb
      rw [← hb, e1.1, e2]; simp

theorem CutTail.ne {cap : Nat} {tail : List Byte} (h : CutTail cap tail) : tail ≠ [] := by
  cases h <;> assumption

/-- Reading a cut record fails at the end of the file. -/
theorem CutTail.read {cap : Nat} {tail : List Byte} (h : CutTail cap tail) {s : OSt}
    {curc : List BufFrag} (hf : s.file = ⟨tail, false⟩) (hc : s.stages[s.nb]? = some curc) {T : Nat}
    (hpool : ∀ bf ∈ s.pool, bf.stor.length = cap ∧ bf.ts ≤ T) {known : List Site}
    (hd : Describes s.dict known) :
    ∃ d pool new, s.readStep cap = OSt.endRead { s with
        file := ⟨[], true⟩, good := false, dict := d, pool := pool } false ∧
      Describes d (known ++ new) ∧ ∀ bf ∈ pool, bf.stor.length = cap ∧ bf.ts ≤ T := by
  cases h with
  | @ext tid np body p q ht hl hcap h hp hq =>
    obtain ⟨b, l, e1, e2⟩ := extentBytes_head tid np body ht
    have hpk : s.file.peek = (.extent, s.file) := by
      rw [hf, peek_of_head (e1.symm.trans h) hp, e2]
    obtain ⟨a1, a2, a3⟩ := allocFrag_facts (cap := cap) hpool
    obtain ⟨bf', r1, -⟩ := readBufferExtent_cut (allocFrag cap s.pool).1 np ht
      (by rw [a1]; exact hl) (by omega) h hp hq
    refine ⟨s.dict, (allocFrag cap s.pool).2, [], ?_, by simpa using hd, a3⟩
    unfold OSt.readStep
    rw [hpk]
    simp only
    rw [hf, r1]
    simp only [hc, Bool.false_eq_true, if_false]
  | @dict total new p q hn hl h hp hq =>
    obtain ⟨b, l, e1, e2⟩ := dictBytes_head total new
    have hpk : s.file.peek = (.dict, s.file) := by
      rw [hf, peek_of_head (e1.symm.trans h) hp, e2]
    obtain ⟨d', r1, r2⟩ := readDictionaryFragment_cut hn total hl s.dict h hq
    obtain ⟨new', h'⟩ := r2 _ hd
    refine ⟨d', s.pool, new', ?_, h', hpool⟩
    unfold OSt.readStep
    rw [hpk]
    simp only
    rw [hf, r1]

/-- From the cut record to depleting all stages. -/
theorem sim_cut {cap : Nat} {pick : Nat → List BufFrag → Nat} (hp : Picks pick) {ck : Checkpoint}
    {tail : List Byte} (ht : CutTail cap tail) {s : OSt} {W : List (List AF)} {cur : List AF} {T : Nat}
    (hs : Sim cap ck tail s ⟨W, cur, [], T, .fill⟩) (hft : s.file = ⟨tail, false⟩) :
    ∃ s', OPlus cap pick s s' ∧ s'.out = s.out ∧ s'.good = false ∧ s'.file = ⟨[], true⟩ ∧
      Sim cap ck [] { s' with good := true } ⟨if cur = [] then W else W ++ [cur], [], [], T, .all⟩ := by
  cases hs with
  | @fill _ _ _ _ known Wc curc bs h hm hmust hf hb hcur hW hst =>
  have hl : Wc.length = W.length := h.W.length_eq
  have hnb : s.nb = W.length := h.nb
  have hc : s.stages[s.nb]? = some curc := by
    rw [hst, hnb, ← hl]; simp
  have hcn : curc = [] ↔ cur = [] := by
    cases hcur <;> simp
  obtain ⟨d, pool, new, hr, hdesc, hpool⟩ := ht.read hft hc h.pool h.dict
  have e1 := endRead_flush (s := { s with
    file := ⟨[], true⟩, good := false, dict := d, pool := pool }) (cur := curc) (.inr rfl) hc
  have hs1 : s.step cap pick = _ :=
    (step_read (pick := pick) hm (by rw [hft]) h.good hmust).trans (hr.trans e1)
  have hd : s.mode ≠ .done := by rw [hm]; simp
  have hW' : List.Forall₂ (List.Forall₂ (FR cap (known ++ new) ck)) Wc W :=
    h.W.imp fun _ _ h => h.imp fun _ _ h => h.mono
  have hcur' : List.Forall₂ (FR cap (known ++ new) ck) curc cur := hcur.imp fun _ _ h => h.mono
  have fin : ∀ s' : OSt, s'.Ok cap → s'.file = ⟨[], true⟩ → s'.ck = s.ck →
      s'.dict = d → s'.pool = pool → s'.stages = s.stages → s'.must = true → s'.mode = .deplete →
      s'.nb = (if cur = [] then s.nb else s.nb + 1) →
      Sim cap ck [] { s' with good := true } ⟨if cur = [] then W else W ++ [cur], [], [], T, .all⟩ := by
    intro s' h1 h2 h4 h5 h6 h7 h8 h9 h10
    have hok := h1.good (by rw [h2]) true
    by_cases hcr : cur = []
    · subst hcr
      have : curc = [] := hcn.2 rfl
      subst this
      simp only [if_true] at h10 ⊢
      refine .all (known := known ++ new) (Wc := Wc) ⟨rfl, h4.trans h.ckEq, h5 ▸ hdesc, hW',
        h6 ▸ hpool, h10.trans hnb, hok⟩ h9 h8 (by simpa using h2) (by omega) ?_
      simp only
      rw [h7, hst, show 3 - W.length = (2 - W.length) + 1 by omega, List.replicate_succ]
    · simp only [hcr, if_false] at h10 ⊢
      refine .all (known := known ++ new) (Wc := Wc ++ [curc]) ⟨rfl, h4.trans h.ckEq, h5 ▸ hdesc, ?_,
        h6 ▸ hpool, ?_, hok⟩ h9 h8 (by simpa using h2) (by simp; omega) ?_
      · exact Forall₂.app hW' (.cons hcur' .nil)
      · simp only; rw [h10, hnb]; simp
      · simp only
        rw [h7, hst]
        simp only [List.length_append, List.length_singleton, List.append_assoc, List.singleton_append]
        rw [show 3 - (W.length + 1) = 2 - W.length by omega]
  have hnbe : (if curc = [] then s.nb else s.nb + 1) = (if cur = [] then s.nb else s.nb + 1) := by
    simp only [hcn]
  by_cases h3 : (if curc = [] then s.nb else s.nb + 1) = 3
  · have hplus := OPlus.one hd hs1
    refine ⟨_, hplus, rfl, rfl, rfl, fin _ (hplus.ok hp h.ok).1 rfl rfl rfl rfl rfl rfl ?_ ?_⟩
    · simp only [if_pos h3]
    · exact hnbe
  · have hp1 := OPlus.one hd hs1
    have hs2 := step_flush (cap := cap) (pick := pick) (s := { s with
        file := ⟨[], true⟩, good := false, dict := d, pool := pool, must := true
        nb := if curc = [] then s.nb else s.nb + 1
        mode := if (if curc = [] then s.nb else s.nb + 1) = 3 then .deplete else .read })
      (by simp only [if_neg h3]) rfl
    have hplus := hp1.trans (OPlus.one (by simp only [if_neg h3]; simp) hs2)
    exact ⟨_, hplus, rfl, rfl, rfl, fin _ (hplus.ok hp h.ok).1 rfl rfl rfl rfl rfl rfl rfl hnbe⟩

/-! ## The last execution of a file -/

theorem sim_end {cap : Nat} {pick : Nat → List BufFrag → Nat} {ck : Checkpoint} {s : OSt} {T : Nat}
    (hs : Sim cap ck [] s ⟨[], [], [], T, .fin⟩) :
    ∃ s', OPlus cap pick s s' ∧ s'.out = s.out ∧ s'.mode = .done ∧ s'.good = true := by
  cases hs with
  | fin h hf hst =>
  rcases hf with ⟨-, hf, hm⟩ | ⟨h1, -⟩
  · refine ⟨{ s with mode := .done }, .one (by rw [hm]; simp) ?_, rfl, rfl, h.good⟩
    unfold OSt.step; rw [hm]; simp [hf]
  · exact absurd rfl h1

/-- Everything before a cut record is printed. -/
theorem sim_cut_run {cap : Nat} {pick : Nat → List BufFrag → Nat} (hp : Picks pick) {ck : Checkpoint}
    {tail : List Byte} (ht : CutTail cap tail) (n : Nat) {s : OSt} {a : ASt} (hn : s.phi cap ≤ n)
    (hs : Sim cap ck tail s a) (hm : a.mode = .fill ∨ a.mode = .one) :
    ∃ o s', ARun a o ∧ OPlus cap pick s s' ∧ s'.out = s.out ++ o ∧ s'.mode = .done ∧
      s'.good = false := by
  induction n using Nat.strongRecOn generalizing s a with
  | ind n ih =>
  have go : ∀ m a' s', AStep a m a' → OPlus cap pick s s' → s'.out = s.out ++ m.toList →
      Sim cap ck tail s' a' → (a'.mode = .fill ∨ a'.mode = .one) →
      ∃ o s', ARun a o ∧ OPlus cap pick s s' ∧ s'.out = s.out ++ o ∧ s'.mode = .done ∧
        s'.good = false := by
    intro m a' s' h1 h2 h3 h4 h5
    have hlt := (h2.ok hp hs.ok).2
    obtain ⟨o, s2, g1, g2, g3, g4, g5⟩ := ih (s'.phi cap) (by omega) (Nat.le_refl _) h4 h5
    exact ⟨m.toList ++ o, s2, .step h1 g1, h2.trans g2, by rw [g3, h3]; simp, g4, g5⟩
  obtain ⟨W, cur, F, T, mode⟩ := a
  cases mode with
  | fin => simp at hm
  | all => simp at hm
  | one =>
    cases hs with
    | one h hm' hmust hf hb hW hst =>
      obtain ⟨m, a', s', h1, h2, h3, h4⟩ := sim_one (pick := pick) hp (.one h hm' hmust hf hb hW hst)
      refine go m a' s' h1 h2 h3 h4 ?_
      cases h1 <;> simp
  | fill =>
    rcases sim_fill_core (pick := pick) hp ht.noPad hs with ⟨s', h1, h2, h3⟩ | ⟨a', s', h1, h2, h3, h4, h5⟩ | ⟨h1, rfl, h4⟩
    · have hlt := (h1.ok hp hs.ok).2
      obtain ⟨o, s2, g1, g2, g3, g4, g5⟩ := ih (s'.phi cap) (by omega) (Nat.le_refl _) h3 (.inl rfl)
      exact ⟨o, s2, g1, h1.trans g2, by rw [g3, h2], g4, g5⟩
    · exact go none a' s' h1 h2 (by rw [h3]; simp) h4 (h5 ht.ne)
    · obtain ⟨s1, q1, q2, q3, q4, q5⟩ := sim_cut (pick := pick) hp ht hs h4
      obtain ⟨o, s2, T', r1, r2, r3, r4⟩ := sim_run (pick := pick) hp (tail := []) (by intro b hb; simp at hb)
        _ (Nat.le_refl _) q5 (fun h => absurd rfl h)
      obtain ⟨s3, u1, u2, u3, u4⟩ := sim_end (pick := pick) r4
      have hall : OStar cap pick { s1 with good := true } s3 := r2.trans u1.star
      have hg := hall.good false (by simp [q4])
      have e : ({ ({ s1 with good := true } : OSt) with good := false } : OSt) = s1 := by
        cases s1; simp only at q3; subst q3; rfl
      rw [e] at hg
      have hplus : OPlus cap pick s { s3 with good := false } := by
        rcases hg with hg | hg
        · rw [← hg]; exact q1
        · exact q1.trans hg
      refine ⟨none.toList ++ o, _, .step .flush r1, hplus, ?_, u3, rfl⟩
      simp only
      rw [u2, r3, q2]; simp

/-- The rest of an execution that ends with the file or is cut inside a record. -/
theorem sim_last {cap : Nat} {pick : Nat → List BufFrag → Nat} (hp : Picks pick) {ck : Checkpoint}
    {tail : List Byte} (ht : tail = [] ∨ CutTail cap tail) {s : OSt} {F : Exts} {T : Nat}
    (hs : Sim cap ck tail s ⟨[], [], F, T, .fill⟩) :
    ∃ o s', ARun ⟨[], [], F, T, .fill⟩ o ∧ OPlus cap pick s s' ∧ s'.out = s.out ++ o ∧ s'.mode = .done ∧
      (s'.good = true ↔ tail = []) := by
  rcases ht with rfl | ht
  · obtain ⟨o, s2, T', r1, r2, r3, r4⟩ := sim_run (pick := pick) hp (tail := []) (by intro b hb; simp at hb)
      _ (Nat.le_refl _) hs (fun h => absurd rfl h)
    obtain ⟨s3, u1, u2, u3, u4⟩ := sim_end (pick := pick) r4
    refine ⟨o, s3, r1, ?_, by rw [u2, r3], u3, by simp [u4]⟩
    rcases r2 with rfl | r2
    · exact u1
    · exact r2.trans u1
  · obtain ⟨o, s', h1, h2, h3, h4, h5⟩ := sim_cut_run (pick := pick) hp ht _ (Nat.le_refl _) hs (.inl rfl)
    exact ⟨o, s', h1, h2, h3, h4, by simp [h5, ht.ne]⟩

/-! ## Records of a cut execution -/

theorem recExts_append {cap : Nat} {ck : Checkpoint} {known : List Site} {a : List Rec} {m1 : List OutMsg}
    (h : Holds cap ck known a m1) (b : List Rec) (m2 : List OutMsg) :
    recExts (a ++ b) (m1 ++ m2) = recExts a m1 ++ recExts b m2 := by
  induction h with
  | nil => rfl
  | ckpt _ _ _ ih => simpa [recExts] using ih
  | dict _ _ _ ih => simpa [recExts] using ih
  | @ext ck known tid np cs body rs ms' ms he hp ht hl hcap h ih =>
    have hlen : cs.length = ms'.length := hp.length_eq
    simp [recExts, hlen, ih]
  | pad _ _ ih => simpa [recExts] using ih

/-- What is left of well-formed records when they are cut. -/
theorem cut_body {cap : Nat} {ck : Checkpoint} {known : List Site} {rs : List Rec} {ms : List OutMsg}
    (h : Holds cap ck known rs ms) (hno : ∀ jk c, Rec.ckpt jk c ∉ rs) (n : Nat)
    (hn : n ≤ (recBytes rs).length) :
    ∃ a b m1 m2 tail, rs = a ++ b ∧ ms = m1 ++ m2 ∧ Holds cap ck known a m1 ∧
      (∀ a' b', rs = a' ++ b' → (recBytes a').length ≤ n → a' <+: a) ∧
      (n = (recBytes rs).length → b = []) ∧
      Body cap ck tail known (recExts a m1) ((recBytes rs).take n) ∧ (tail = [] ∨ CutTail cap tail) ∧
      ∀ s : Dec, s.good = true → s.file = ⟨(recBytes rs).take n, false⟩ → s.ck = ck → Describes s.dict known →
        s.bf.stor.length = cap → ∃ s', URuns s s' ∧ s'.out = s.out ++ m1 := by
  have hnil : ∀ {known'}, Body cap ck [] known' [] [] := .nil
  rcases cut_records rs n hn with h1 | ⟨a, r, b, p, q, h1, h2, h3, h4, h5⟩
  · refine ⟨rs, [], ms, [], [], by simp, by simp, h, ?_, fun _ => rfl, ?_, .inl rfl,
      fun s hg hf hck hd hb => ?_⟩
    · rintro a' b' rfl -; exact List.prefix_append _ _
    · rw [h1]
      have := (h.body hno).2 (tail := []) hnil
      simpa using this
    · obtain ⟨s', u1, u2, -⟩ := unordered_holds h s (by rw [hf, h1]) hg hck hd hb
      exact ⟨s', u1, u2⟩
  · rw [h2]
    rw [h1] at h
    obtain ⟨m1, m2, g1, g2, g3⟩ := h.split
    have hql : 0 < q.length := List.length_pos_iff.2 h4
    have hg2 := fun tail F bs => (g2.body fun jk c hm => hno jk c (by rw [h1]; simp [hm])).2 (tail := tail) (F := F) (bs := bs)
    have hfull : n ≠ (recBytes rs).length := by
      intro e
      rw [h1, h5] at e
      simp only [recBytes, List.flatMap_append, List.flatMap_cons, List.length_append, h3] at e
      omega
    have hpre : ∀ a' b', rs = a' ++ b' → (recBytes a').length ≤ n → a' <+: a := by
      rintro a' b' hab hle
      by_contra hnp
      have hlt : a.length < a'.length := by
        by_contra hge
        apply hnp
        have e := congrArg (List.take a'.length) (h1.symm.trans hab)
        rw [List.take_left, List.take_append_of_le_length (by omega)] at e
        rw [← e]; exact List.take_prefix _ _
      have e := congrArg (List.take (a.length + 1)) (h1.symm.trans hab)
      rw [List.take_append_of_le_length (l₂ := b') (by omega)] at e
      have e2 : (a ++ r :: b).take (a.length + 1) = a ++ [r] := by
        rw [List.take_append, List.take_of_length_le (by omega)]; simp
      rw [e2] at e
      have : recBytes a' = recBytes a ++ r.bytes ++ recBytes (a'.drop (a.length + 1)) := by
        have : a' = (a ++ [r]) ++ a'.drop (a.length + 1) := by rw [e, List.take_append_drop]
        rw [this]; simp [recBytes]
      rw [this, h3] at hle
      simp only [List.length_append] at hle
      omega
    suffices hs : ∃ tail, Body cap ck tail (after ck known a).2 [] p ∧ (tail = [] ∨ CutTail cap tail) by
      obtain ⟨tail, t1, t2⟩ := hs
      refine ⟨a, r :: b, m1, m2, tail, h1, g1, g2, hpre, fun e => absurd e hfull, by simpa using hg2 _ _ _ t1, t2,
        fun s hg hf hck hd hb => ?_⟩
      obtain ⟨s1, u1, u2, u3, u4, -, -, u5⟩ := unordered_leads g2 p s hf hg hck hd hb
      obtain ⟨s', v1, v2⟩ := unordered_cut g3 h3 h4 s1 u4 u3 u5
      exact ⟨s', u1 _ v1, by rw [v2, u2]⟩
    by_cases hp : p = []
    · exact ⟨[], by rw [hp]; exact .nil, .inl rfl⟩
    · cases g3 with
      | @ckpt _ _ junk c' _ _ _ _ _ => exact absurd (by rw [h1]; simp : Rec.ckpt junk c' ∈ rs) (hno _ _)
      | dict hn hl h => exact ⟨p, .nil, .inr (.dict hn hl h3 hp h4)⟩
      | ext he hp' ht hl hcap h => exact ⟨p, .nil, .inr (.ext ht hl hcap h3 hp h4)⟩
      | pad hz h =>
        have hz' : ∀ b ∈ p, entryType b = .invalid := fun x hx => hz x (by
          have e : _ = p ++ q := h3
          simp only [Rec.bytes] at e
          rw [e]; simp [hx])
        refine ⟨[], ?_, .inl rfl⟩
        have := Body.pad (cap := cap) (ck := ck) (tail := []) (known := (after ck known a).2) hz' .nil
        simpa using this

/-! ## A cut execution -/

theorem Trace.recs {cfg ck st ops ck' st' ns rss mss}
    (h : Trace cfg ck st ops ck' st' ns rss mss) (hno : NoStart ops) :
    RunExts cfg ck st ops (recExts rss.flatten mss.flatten) ∧ ∀ jk c, Rec.ckpt jk c ∉ rss.flatten := by
  induction h with
  | nil hi => exact ⟨.nil, by simp⟩
  | @cons ck st op ck1 st1 n rs ms ops ck2 st2 ns rss mss hi h ht ih =>
    obtain ⟨rfl, hx2, hx3⟩ := h.exts (hno op (by simp))
    obtain ⟨h1, h2⟩ := ih fun op' hop => hno op' (by simp [hop])
    refine ⟨?_, ?_⟩
    · rw [List.flatten_cons, List.flatten_cons, recExts_append h.holds]
      exact hx3 h1
    · intro jk c hm
      rcases List.mem_append.1 (by simpa only [List.flatten_cons] using hm) with hm | hm
      · exact hx2 _ hm
      · exact h2 jk c hm

/-- The records of a run with one execution. -/
theorem Trace.exec {cfg jk c all ops ck' st ns rss mss}
    (h : Trace cfg c EncSt.init (.start jk c all :: ops) ck' st ns rss mss) (hno : NoStart ops) :
    ∃ q, rss.flatten = .ckpt jk c :: q ∧ (∀ jk c, Rec.ckpt jk c ∉ q) ∧
      Holds (cfg.staging + 9) c [] q mss.flatten ∧
      ExecExts cfg c all (.start jk c all :: ops) (recExts q mss.flatten) ∧
      st.contents = checkpointBytes jk c ++ recBytes q := by
  have hb := h.bytes
  cases h with
  | @cons _ _ _ ck1 st1 n rs m0 _ _ _ ns' rss mss hi hs ht =>
    have hrs := hs.start _ _ _ rfl
    subst hrs
    have hck : ck1 = c ∧ st1.shadow = [] := by
      have := hs.after
      simp only [after, Prod.mk.injEq] at this
      exact ⟨this.1.symm, this.2.symm⟩
    obtain ⟨rfl, hsh⟩ := hck
    have hm0 : m0 = [] := by
      have := hs.holds
      cases this with | ckpt _ _ h => cases h; rfl
    subst hm0
    obtain ⟨h1, h2⟩ := ht.recs hno
    have hh := ht.holds.1
    rw [hsh] at hh
    refine ⟨rss.flatten, by simp, h2, by simpa using hh, ⟨jk, ops, st1, n, rfl, hs.step, by simpa using h1⟩, ?_⟩
    rw [EncSt.contents, hb]; simp [EncSt.init, recBytes, Rec.bytes]

/-- Everything that operations `ops1` wrote in front of byte `n` is among `F'`. -/
def Keeps (cfg : Config) (c : Checkpoint) (all : List Site) (ops : List EncOp) (n : Nat) (F' : Exts) : Prop :=
  ∀ ops1 ops2 st1 ns1 ms1 F1, ops = ops1 ++ ops2 → FileRun cfg c all ops1 st1 ns1 ms1 →
    ExecExts cfg c all ops1 F1 → st1.contents.length ≤ n → F1 <+: F'

/-- A cut execution in the file. -/
theorem cut_exec {cfg c all ops st ns ms F} (h : FileRun cfg c all ops st ns ms)
    (hF : ExecExts cfg c all ops F) (n : Nat) (hn : n ≤ st.contents.length) :
    ∃ jk, c.Plain ∧ (checkpointBytes jk c).length = 40 ∧
      (n < 40 ∧ st.contents.take n = (checkpointBytes jk c).take n ∨
       40 ≤ n ∧ ∃ bs tail k, st.contents.take n = checkpointBytes jk c ++ bs ∧
        Body (cfg.staging + 9) c tail [] (F.take k) bs ∧ (tail = [] ∨ CutTail (cfg.staging + 9) tail) ∧
        (n = st.contents.length → F.take k = F) ∧ Keeps cfg c all ops n (F.take k)) := by
  have hno : NoStart ops.tail := by
    obtain ⟨jk, ops', st1, n, rfl, -, hr⟩ := hF
    exact hr.noStart
  obtain ⟨ck', rss, mss, ht, rfl⟩ := h.trace
  obtain ⟨jk, ops', rfl⟩ := h.starts
  have hc : c.Plain := by cases h.ok with | start hc _ _ _ => exact hc
  have hs : SitesOK all := by cases h.ok with | start _ hs _ _ => exact hs
  have h40 : (checkpointBytes jk c).length = 40 := checkpointBytes_length hc.1
  obtain ⟨q, e1, e2, e3, e4, e5⟩ := ht.exec hno
  obtain rfl := hF.unique hs e4
  refine ⟨jk, hc, h40, ?_⟩
  by_cases hlt : n < 40
  · left
    refine ⟨hlt, ?_⟩
    rw [e5, List.take_append_of_le_length (by omega)]
  · right
    rw [e5, List.length_append, h40] at hn
    obtain ⟨a, b, m1, m2, tail, f1, f2, f3, f4, f5, f6, f7, -⟩ := cut_body e3 e2 (n - 40) (by omega)
    have hrx : recExts q mss.flatten = recExts a m1 ++ recExts b m2 := by
      rw [f1, f2]; exact recExts_append f3 _ _
    have htk : (recExts q mss.flatten).take (recExts a m1).length = recExts a m1 := by
      rw [hrx, List.take_left']; rfl
    refine ⟨by omega, (recBytes q).take (n - 40), tail, (recExts a m1).length, ?_, ?_, f7, ?_, ?_⟩
    · rw [e5, List.take_append, h40, List.take_of_length_le (by omega)]
    · rw [htk]; exact f6
    · intro e
      rw [e5, List.length_append, h40] at e
      have hb := f5 (by omega)
      rw [htk, hrx, hb]; simp [recExts]
    · intro ops1 ops2 st1 ns1 ms1 F1 ho h1 hF1 hl
      rw [htk]
      obtain ⟨jk1, ops1', rfl⟩ := h1.starts
      simp only [List.cons_append, List.cons.injEq, EncOp.start.injEq, and_true] at ho
      obtain ⟨rfl, rfl⟩ := ho
      rw [← List.cons_append] at ht
      obtain ⟨ck1', st1', ns1', ns2, rs1, rs2, m1', m2', t1, t2, rfl, rfl, rfl⟩ := ht.split
      have e := t1.run
      rw [h1.run] at e
      simp only [Option.some.injEq, Prod.mk.injEq] at e
      obtain ⟨rfl, rfl⟩ := e
      obtain ⟨q1, i1, i2, i3, i4, i5⟩ := t1.exec (fun op hop => hno op (by simp [hop]))
      obtain rfl := hF1.unique hs i4
      rw [List.flatten_append, i1] at e1
      simp only [List.cons_append, List.cons.injEq, true_and] at e1
      have hpre := f4 q1 rs2.flatten e1.symm (by
        rw [i5, List.length_append, h40] at hl; omega)
      obtain ⟨z, rfl⟩ := hpre
      obtain ⟨w1, w2, rfl, w3, -⟩ := f3.split
      rw [recExts_append w3, Holds.unique (by intro s hs; simp at hs) i3 w3]
      exact List.prefix_append _ _

/-! ## Complete executions in front -/

/-- As `execs_run`, with `tail` behind the executions. -/
theorem execs_tail {cfg : Config} {pick : Nat → List BufFrag → Nat} (hp : Picks pick) {file tail : List Byte}
    {Fs : List Exts} (h : Execs cfg file Fs) (ht : TailOK tail) (ho : ∀ F ∈ Fs, Ordered F false)
    {ck : Checkpoint} {s : OSt}
    {T : Nat} (hs : Sim (cfg.staging + 9) ck (file ++ tail) s ⟨[], [], [], T, .fin⟩) :
    ∃ o s' ck' T', OStar (cfg.staging + 9) pick s s' ∧ s'.out = s.out ++ o ∧ PrintsAll Fs o ∧
      Sim (cfg.staging + 9) ck' tail s' ⟨[], [], [], T', .fin⟩ := by
  induction h generalizing ck s T with
  | nil => exact ⟨[], s, ck, T, .refl s, by simp, .nil, by simpa using hs⟩
  | @cons c all ops st ns ms F file Fs h hF hx ih =>
    obtain ⟨jk, bs, h1, h2, h3, h4⟩ := h.body' hF
    have oF := ho F (by simp)
    rw [h3, List.append_assoc, List.append_assoc] at hs
    obtain ⟨s1, q1, q2, q3⟩ := sim_next (pick := pick) hp h2 hs (h4 (file ++ tail))
    have hJ : ASt.J 0 ⟨[], [], F, T, .fill⟩ := ASt.J.init oF.chrono oF.apart oF.prog
      (fun ⟨e, he, hn⟩ => absurd hn (oF.empty rfl e he))
    have htl : TailOK (file ++ tail) := by
      intro b hb
      cases file with
      | nil => exact ht b hb
      | cons x l => exact hx.tailOK b (by simpa using hb)
    obtain ⟨o, s2, T', r1, r2, r3, r4⟩ := sim_run (pick := pick) hp htl _ (Nat.le_refl _) q3 (fun _ => ⟨0, hJ⟩)
    obtain ⟨o', s3, ck', T'', g1, g2, g3, g4⟩ := ih (fun F hF => ho F (by simp [hF])) r4
    refine ⟨o ++ o', s3, ck', T'', (q1.star.trans r2).trans g1, ?_, ?_, g4⟩
    · rw [g2, r3, q2]; simp
    · refine .cons ?_ (r1.chrono hJ).1 g3
      have := r1.merge (by simp)
      simpa [ASt.pend] using this

/-- A cut checkpoint at the end of the file. -/
theorem sim_cut_ckpt {cap : Nat} {pick : Nat → List BufFrag → Nat} {ck c : Checkpoint} {jk : Nat}
    (hc : c.Plain) {n : Nat} (hn : n < 40) {s : OSt} {T : Nat}
    (hs : Sim cap ck ((checkpointBytes jk c).take n) s ⟨[], [], [], T, .fin⟩) :
    ∃ s', OPlus cap pick s s' ∧ s'.out = s.out ∧ s'.mode = .done ∧ (s'.good = true ↔ n = 0) := by
  have h40 : (checkpointBytes jk c).length = 40 := checkpointBytes_length hc.1
  by_cases h0 : n = 0
  · subst h0
    rw [List.take_zero] at hs
    obtain ⟨s', h1, h2, h3, h4⟩ := sim_end (pick := pick) hs
    exact ⟨s', h1, h2, h3, by simp [h4]⟩
  obtain ⟨b, l, e1, e2⟩ := checkpointBytes_head jk c
  cases hs with
  | @fin _ known h hf hst =>
  rcases hf with ⟨h1, -⟩ | ⟨-, hf, hm, hmust⟩
  · rw [e1] at h1
    obtain ⟨k, rfl⟩ := Nat.exists_eq_succ_of_ne_zero h0
    simp at h1
  · have hpk : s.file.peek = (.checkpoint, s.file) := by
      obtain ⟨k, rfl⟩ := Nat.exists_eq_succ_of_ne_zero h0
      rw [hf, e1]; simp [FileSt.peek, e2]
    have hnb : s.nb = 0 := h.nb
    have hrs : s.readStep cap = OSt.endRead { s with
        file := ⟨[], true⟩, good := false } false := by
      unfold OSt.readStep
      rw [hpk]
      simp only [hst, List.getElem?_cons_zero]
      rw [hf, readDictionary_cut _ _ (by rw [List.length_take]; omega)]
    rw [endRead_flush (s := { s with file := ⟨[], true⟩, good := false }) (cur := []) (.inr rfl) (by
          simp only [hst, hnb]; rfl)] at hrs
    simp only [if_true, hnb, show ¬ ((0 : Nat) = 3) by omega, if_false] at hrs
    have p1 := OPlus.one (cap := cap) (pick := pick) (by rw [hm]; simp)
      ((step_read hm (by rw [hf]) h.good hmust).trans hrs)
    have p2 := p1.trans (OPlus.one (by simp) (step_flush (cap := cap) (pick := pick) rfl rfl))
    have p3 := p2.trans (OPlus.one (cap := cap) (pick := pick)
      (s' := { s with file := ⟨[], true⟩, good := false, must := true, nb := 0, mode := .outer }) (by simp)
      (by simp [OSt.step, OSt.depleteStep, minStage]))
    have p4 := p3.trans (OPlus.one (cap := cap) (pick := pick)
      (s' := { s with file := ⟨[], true⟩, good := false, must := true, nb := 0, mode := .done }) (by simp)
      (by simp [OSt.step]))
    exact ⟨_, p4, rfl, rfl, by simp [h0]⟩

end NanoLog
