import Verif.MemOrdered
import Verif.MemIterLemmas
import Verif.OrderedTerm

/-! Helper lemmas: ordered decompression terminates, for the decoder with memory (compare
`Verif.OrderedTerm`). -/

namespace NanoLog

/-- Nothing more will be read. -/
def MSt.terminal (s : MSt) : Prop := s.file.eof = true ∨ s.good = false

instance instDecidableTerminalM (s : MSt) : Decidable s.terminal := by
  unfold MSt.terminal; infer_instance

/-- Invariant of `decompressTo`. -/
structure MSt.Ok (cap : Nat) (s : MSt) : Prop where
  three : s.stages.length = 3
  nb : s.nb ≤ 3 ∧ (s.mode ≠ .deplete → s.nb ≤ 2)
  beyond : emptyFrom s.stages (s.nb + 1)
  beyond' : ¬ (s.mode = .read ∧ s.must = false ∧ ¬ s.terminal) → emptyFrom s.stages s.nb
  frags : ∀ bf ∈ s.stages.flatten, bf.room ≤ cap + 5 ∧ bf.mem.length ≤ cap + 5
  pool : ∀ bf ∈ s.pool, bf.room ≤ cap + 5
  must : s.mode = .read → s.must = true → ¬ s.terminal → s.stages.flatten ≠ []

/-- Rank of the program position. -/
def MSt.rank (s : MSt) : Nat :=
  match s.mode with
  | .done => 0
  | .outer => if s.terminal then 1 else 3
  | .read => if s.terminal then 6 else if s.must then 1 else 2
  | .deplete => if s.terminal then 5 else if s.stages.flatten = [] then 4 else 0

/-- Termination measure. -/
def MSt.phi (cap : Nat) (s : MSt) : Nat :=
  8 * (cap + 7) * s.file.measure + 8 * fragW s.stages.flatten + s.rank

theorem rankM_le (s : MSt) : s.rank ≤ 6 := by
  unfold MSt.rank; split <;> (try split) <;> (try split) <;> omega

theorem endReadM_ok {cap : Nat} {s s' : MSt} {np : Bool} (h : s.endRead np = some s')
    (h3 : s.stages.length = 3) (hnb : s.nb ≤ 2)
    (hb : emptyFrom s.stages (s.nb + 1))
    (hf : ∀ bf ∈ s.stages.flatten, bf.room ≤ cap + 5 ∧ bf.mem.length ≤ cap + 5)
    (hp : ∀ bf ∈ s.pool, bf.room ≤ cap + 5)
    (hm : s.must = true → ¬ s.terminal → s.stages.flatten ≠ []) :
    s'.Ok cap ∧ s'.file = s.file ∧ s'.stages = s.stages ∧ s'.must = (s.must || s.file.eof) ∧
      (s'.mode = .read ∨ s'.mode = .deplete) ∧ s'.good = s.good := by
  unfold MSt.endRead at h
  simp only at h
  have hlt : s.nb < s.stages.length := by omega
  rw [List.getElem?_eq_getElem hlt] at h
  simp only [Option.some.injEq] at h
  have hcur : s.stages[s.nb]? = some s.stages[s.nb] := List.getElem?_eq_getElem hlt
  generalize s.stages[s.nb] = cur at h hcur
  subst h
  refine ⟨⟨h3, ?_, ?_, ?_, hf, hp, ?_⟩, rfl, rfl, rfl, ?_, rfl⟩
  · simp only
    split <;> split <;> simp_all <;> omega
  · simp only
    split
    · exact emptyFrom_succ hb
    · exact hb
  · simp only
    intro hc
    by_cases hflag : (np || ((s.must || s.file.eof) || !s.good) && !cur.isEmpty) = true
    · rw [if_pos hflag]; exact hb
    · rw [if_neg hflag] at hc ⊢
      have hnb3 : s.nb ≠ 3 := by omega
      rw [if_neg hnb3] at hc
      simp only [true_and, not_and, MSt.terminal] at hc
      intro j st hj hst
      by_cases hjn : j = s.nb
      · subst hjn
        rw [hcur] at hst
        cases hst
        by_contra hne
        apply hflag
        have : cur.isEmpty = false := by simpa using hne
        rw [this]
        simp only [Bool.not_false, Bool.and_true, Bool.or_eq_true, Bool.not_eq_true']
        by_cases h1 : (s.must || s.file.eof) = false
        · have := hc h1
          simp only [not_not] at this
          rcases this with h2 | h2
          · exact .inr (.inl (.inr h2))
          · exact .inr (.inr h2)
        · simp only [Bool.or_eq_false_iff, not_and, Bool.not_eq_false] at h1
          right; left
          cases hm' : s.must with
          | true => exact .inl rfl
          | false => exact .inr (h1 hm')
      · exact hb j st (by omega) hst
  · intro _ hm' hnt
    simp only [MSt.terminal] at hm' hnt hm ⊢
    refine hm ?_ hnt
    simp only [not_or, Bool.not_eq_true] at hnt
    simpa [hnt.1] using hm'
  · simp only
    generalize (if (np || ((s.must || s.file.eof) || !s.good) && !cur.isEmpty) = true then s.nb + 1 else s.nb) = n
    by_cases hn : n = 3
    · simp [hn]
    · simp [hn]

theorem readStepM_ok {cap : Nat} {s s' : MSt} (hi : s.Ok cap) (hmode : s.mode = .read)
    (hnt : ¬ s.terminal) (hmust : s.must = false) (h : s.readStep cap = some s') :
    s'.Ok cap ∧ s'.phi cap < s.phi cap := by
  have hnb : s.nb ≤ 2 := hi.nb.2 (by simp [hmode])
  have heof : s.file.eof = false := by
    simp only [MSt.terminal, not_or, Bool.not_eq_true] at hnt; exact hnt.1
  -- conclusion from progress in the file
  have fin : ∀ s' : MSt, s'.Ok cap → s'.file.measure < s.file.measure →
      fragW s'.stages.flatten ≤ fragW s.stages.flatten + (cap + 6) → s'.phi cap < s.phi cap := by
    intro s' _ hfm hfw
    have hr := rankM_le s'
    unfold MSt.phi
    have : 8 * (cap + 7) * s'.file.measure + 8 * (cap + 7) ≤ 8 * (cap + 7) * s.file.measure := by
      have := Nat.mul_le_mul_left (8 * (cap + 7)) hfm
      rw [Nat.succ_eq_add_one, Nat.mul_add] at this
      omega
    omega
  unfold MSt.readStep at h
  have hpad := skipPad_measure_lt (f := s.file) heof
  have hpk := peek_facts s.file
  generalize s.file.peek = p at h hpad hpk
  obtain ⟨e, f⟩ := p
  simp only at h hpad hpk
  cases e with
  | extent =>
    obtain ⟨h1, rfl⟩ := hpk (by simp)
    generalize ha : allocFrag cap s.pool = r at h
    obtain ⟨bf0, pool⟩ := r
    obtain ⟨hr0, hpool⟩ := allocFrag_room ha hi.pool
    simp only at h
    cases hr : readBufferExtent bf0 s.file with
    | none => simp [hr] at h
    | some q =>
      obtain ⟨ok, np, bf, f1⟩ := q
      have hfm := readBufferExtent_measure h1 hr
      have hroom := readBufferExtent_room hr
      rw [hr] at h
      simp only at h
      have hlt : s.nb < s.stages.length := by rw [hi.three]; omega
      have hcur : s.stages[s.nb]? = some s.stages[s.nb] := List.getElem?_eq_getElem hlt
      generalize s.stages[s.nb] = cur at hcur
      rw [hcur] at h
      simp only at h
      obtain ⟨rest, q1, q2⟩ := flatten_set hcur
      have key : ∀ stages', stages' = (if ok then s.stages.set s.nb (cur ++ [bf]) else s.stages) →
          stages'.length = 3 ∧ emptyFrom stages' (s.nb + 1) ∧
          (∀ b ∈ stages'.flatten, b.room ≤ cap + 5 ∧ b.mem.length ≤ cap + 5) ∧
          fragW stages'.flatten ≤ fragW s.stages.flatten + (cap + 6) := by
        intro stages' he
        cases ok with
        | false =>
          simp only [Bool.false_eq_true, if_false] at he
          subst he
          exact ⟨hi.three, hi.beyond, hi.frags, by omega⟩
        | true =>
          simp only [if_true] at he
          subst he
          refine ⟨by simp [hi.three], ?_, ?_, ?_⟩
          · intro j st hj hst
            rw [List.getElem?_set_ne (by omega)] at hst
            exact hi.beyond j st hj hst
          · intro b hb
            have := (q2 (cur ++ [bf])).mem_iff.1 hb
            simp only [List.mem_append, List.mem_singleton] at this
            rcases this with (h | rfl) | h
            · exact hi.frags b (q1.mem_iff.2 (by simp [h]))
            · omega
            · exact hi.frags b (q1.mem_iff.2 (by simp [h]))
          · rw [fragW_perm (q2 (cur ++ [bf])), fragW_perm q1]
            simp only [fragW_append]
            have : fragW [bf] = bf.mem.length + 1 := by simp [fragW]
            omega
      generalize hst : (if ok then s.stages.set s.nb (cur ++ [bf]) else s.stages) = stages' at h
      obtain ⟨k1, k2, k3, k4⟩ := key stages' hst.symm
      obtain ⟨o1, o2, o3, -⟩ := endReadM_ok (cap := cap) h k1 hnb k2 k3 hpool (by simp [hmust])
      exact ⟨o1, fin s' o1 (by rw [o2]; exact hfm) (by rw [o3]; exact k4)⟩
  | checkpoint =>
    obtain ⟨h1, rfl⟩ := hpk (by simp)
    simp only at h
    split at h
    · simp at h
    · rename_i b bs hst
      have hne : s.stages.flatten ≠ [] := by
        intro he
        rw [List.flatten_eq_nil_iff] at he
        have := he _ (List.mem_of_getElem? hst)
        simp at this
      obtain ⟨o1, o2, o3, o4, o5, o6⟩ := endReadM_ok (cap := cap) h hi.three hnb hi.beyond hi.frags hi.pool
        (fun _ _ => hne)
      refine ⟨o1, ?_⟩
      simp only at o2 o3 o4
      have hr : s'.rank ≤ 1 := by
        have hnt' : ¬ s'.terminal := by
          unfold MSt.terminal at *
          rw [o2, o6]; exact hnt
        unfold MSt.rank
        rcases o5 with h5 | h5
        · rw [h5]; simp [hnt', o4]
        · rw [h5]; simp [hnt', o3, hne]
      have hr2 : s.rank = 2 := by simp [MSt.rank, hmode, hnt, hmust]
      unfold MSt.phi
      rw [o2, o3]; omega
    · cases hr : readDictP s.ck s.dict s.file with
      | none => simp [hr] at h
      | some q =>
        obtain ⟨ok, ck, d, f1⟩ := q
        have hfm := readDictP_measure h1 hr
        rw [hr] at h
        simp only at h
        obtain ⟨o1, o2, o3, -⟩ := endReadM_ok (cap := cap) h hi.three hnb hi.beyond hi.frags hi.pool
          (by simp [hmust])
        exact ⟨o1, fin s' o1 (by rw [o2]; exact hfm) (by rw [o3]; simp only; omega)⟩
  | dict =>
    obtain ⟨h1, rfl⟩ := hpk (by simp)
    simp only at h
    cases hr : readDictionaryFragmentM s.dict s.file with
    | none => simp [hr] at h
    | some q =>
      obtain ⟨ok, d, f1⟩ := q
      have hfm := readDictionaryFragmentM_measure h1 hr
      rw [hr] at h
      simp only at h
      obtain ⟨o1, o2, o3, -⟩ := endReadM_ok (cap := cap) h hi.three hnb hi.beyond hi.frags hi.pool
        (by simp [hmust])
      exact ⟨o1, fin s' o1 (by rw [o2]; exact hfm) (by rw [o3]; simp only; omega)⟩
  | invalid =>
    have hfm := hpad rfl
    simp only at h
    obtain ⟨o1, o2, o3, -⟩ := endReadM_ok (cap := cap) h hi.three hnb hi.beyond hi.frags hi.pool
      (by simp [hmust])
    exact ⟨o1, fin s' o1 (by rw [o2]; exact hfm) (by rw [o3]; simp only; omega)⟩

theorem depleteStepM_ok {cap : Nat} {pick : Nat → List BufFrag → Nat} (hp : Picks pick) {s s' : MSt}
    (hi : s.Ok cap) (hmode : s.mode = .deplete) (h : s.depleteStep pick = some s') :
    s'.Ok cap ∧ s'.phi cap < s.phi cap := by
  have hbey := hi.beyond' (by simp [hmode])
  have hcov : s.stages.take s.nb ++ s.stages.drop s.nb = s.stages := List.take_append_drop _ _
  have hdropE : ∀ st ∈ s.stages.drop s.nb, st = [] := by
    intro st hst
    obtain ⟨j, hj⟩ := List.getElem?_of_mem hst
    rw [List.getElem?_drop] at hj
    exact hbey _ st (by omega) hj
  unfold MSt.depleteStep at h
  cases hms : minStage (pick s.tick) 0 (s.stages.take s.nb) none with
  | none =>
    have hall := minStage_none hp hms
    rw [hms] at h
    simp only [Option.some.injEq] at h
    have hfl : s.stages.flatten = [] := by
      rw [List.flatten_eq_nil_iff]
      intro st hst
      rw [← hcov] at hst
      rcases List.mem_append.1 hst with h | h
      · exact hall st h
      · exact hdropE st h
    have hemp : ∀ n, emptyFrom s.stages n := by
      intro n j st _ hst
      exact List.flatten_eq_nil_iff.1 hfl st (List.mem_of_getElem? hst)
    subst h
    refine ⟨⟨hi.three, by simp, hemp _, fun _ => hemp _, hi.frags, hi.pool, by simp⟩, ?_⟩
    have r1 : s.rank = if s.terminal then 5 else 4 := by simp [MSt.rank, hmode, hfl]
    unfold MSt.phi
    simp only [r1]
    have : (MSt.rank { s with nb := 0, mode := .outer }) = if s.terminal then 1 else 3 := by
      simp [MSt.rank, MSt.terminal]
    rw [this]
    split <;> omega
  | some r =>
    obtain ⟨i, k, bf⟩ := r
    obtain ⟨⟨st, ha, hk⟩, -⟩ := minStage_some hp hms
    rw [hms] at h
    simp only at h
    have hin : i < s.nb ∧ s.stages[i]? = some st := by
      rw [List.getElem?_take] at ha
      split at ha
      · exact ⟨by assumption, ha⟩
      · cases ha
    obtain ⟨hin, ha⟩ := hin
    have hne : s.stages.flatten ≠ [] := by
      intro he
      have := List.flatten_eq_nil_iff.1 he _ (List.mem_of_getElem? ha)
      rw [this] at hk; simp at hk
    obtain ⟨rest, q1, q2⟩ := flatten_set ha
    obtain ⟨r, p1, p2, p3⟩ := perm_at hk
    cases hd : decompressNextP s.ck s.dict bf with
    | none => simp [hd] at h
    | some q =>
      obtain ⟨m, bf'⟩ := q
      obtain ⟨d1, d2, d3, -⟩ := decompressNextP_progress2 hd
      rw [hd, ha] at h
      simp only at h
      have hbf := hi.frags bf (q1.mem_iff.2 (by simp [List.mem_of_getElem? hk]))
      have hrm : bf'.room = bf.room := by unfold BufFrag.room; rw [d2]
      have hw : fragW s.stages.flatten = bf.mem.length + 1 + fragW (r ++ rest) := by
        rw [fragW_perm q1, fragW_append, fragW_perm p1, fragW_append]
        simp [fragW]; omega
      have key : ∀ stages', stages' = s.stages.set i (if bf'.hasMore then st.set k bf' else st.eraseIdx k) →
          stages'.length = 3 ∧ emptyFrom stages' s.nb ∧
          (∀ b ∈ stages'.flatten, b.room ≤ cap + 5 ∧ b.mem.length ≤ cap + 5) ∧
          fragW stages'.flatten < fragW s.stages.flatten := by
        intro stages' he
        subst he
        refine ⟨by simp [hi.three], ?_, ?_, ?_⟩
        · intro j sj hj hst
          rw [List.getElem?_set_ne (by omega)] at hst
          exact hbey j sj hj hst
        · intro b hb
          have := (q2 _).mem_iff.1 hb
          rw [List.mem_append] at this
          rcases this with h | h
          · split at h
            · have := (p2 bf').mem_iff.1 h
              rcases List.mem_cons.1 this with rfl | h
              · omega
              · exact hi.frags b (q1.mem_iff.2 (by simp [p1.mem_iff.2 (List.mem_cons_of_mem _ h)]))
            · have := p3.mem_iff.1 h
              exact hi.frags b (q1.mem_iff.2 (by simp [p1.mem_iff.2 (List.mem_cons_of_mem _ this)]))
          · exact hi.frags b (q1.mem_iff.2 (by simp [h]))
        · rw [fragW_perm (q2 _), fragW_append, hw, fragW_append]
          split
          · rename_i hm
            rw [fragW_perm (p2 bf')]
            have := d3 hm
            have e : fragW (bf' :: r) = bf'.mem.length + 1 + fragW r := by simp [fragW]
            omega
          · rw [fragW_perm p3]; omega
      have hpool : ∀ b ∈ (if bf'.hasMore then s.pool else s.pool ++ [bf'.reset]), b.room ≤ cap + 5 := by
        intro b hb
        split at hb
        · exact hi.pool b hb
        · simp only [List.mem_append, List.mem_singleton] at hb
          rcases hb with hb | rfl
          · exact hi.pool b hb
          · have : bf'.reset.room = bf'.room := by simp [BufFrag.reset, BufFrag.room]
            omega
      generalize (s.stages.set i (if bf'.hasMore then st.set k bf' else st.eraseIdx k)) = stages' at h key
      generalize (if bf'.hasMore then s.pool else s.pool ++ [bf'.reset]) = pool' at h hpool
      obtain ⟨k1, k2, k3, k4⟩ := key _ rfl
      have fin : ∀ s' : MSt, s'.file = s.file → fragW s'.stages.flatten < fragW s.stages.flatten →
          s'.phi cap < s.phi cap := by
        intro s' h1 h2
        have := rankM_le s'
        unfold MSt.phi
        rw [h1]; omega
      split at h
      · simp at h
      · simp only [Option.some.injEq] at h
        subst h
        refine ⟨⟨k1, ⟨hi.nb.1, by simp [hmode]⟩, emptyFrom_succ k2, fun _ => k2, k3, hpool, by simp [hmode]⟩,
          fin _ rfl k4⟩
      · rename_i h0
        have hsh : (shiftStages s.nb stages').flatten = stages'.flatten := by
          obtain ⟨a, b, c, rfl⟩ : ∃ a b c, stages' = [a, b, c] := by
            match stages', k1 with
            | [a, b, c], _ => exact ⟨a, b, c, rfl⟩
          simp at h0
          subst h0
          have hn := hi.nb.1
          match s.nb, hn, hin with
          | 1, _, _ => simp [shiftStages]
          | 2, _, _ => simp [shiftStages]
          | 3, _, _ => simp [shiftStages]
        have hemp : emptyFrom (shiftStages s.nb stages') (s.nb - 1) ∧ (shiftStages s.nb stages').length = 3 := by
          obtain ⟨a, b, c, rfl⟩ : ∃ a b c, stages' = [a, b, c] := by
            match stages', k1 with
            | [a, b, c], _ => exact ⟨a, b, c, rfl⟩
          have hn := hi.nb.1
          unfold emptyFrom at k2 ⊢
          match s.nb, hn, hin, k2 with
          | 1, _, _, k2 =>
            have e1 := k2 1 b (by omega) rfl
            have e2 := k2 2 c (by omega) rfl
            subst e1 e2
            refine ⟨?_, by simp [shiftStages]⟩
            intro j sj _ hj
            have := List.mem_of_getElem? hj
            simpa [shiftStages] using this
          | 2, _, _, k2 =>
            have e2 := k2 2 c (by omega) rfl
            subst e2
            refine ⟨?_, by simp [shiftStages]⟩
            intro j sj hj1 hj
            match j, hj1 with
            | j + 1, _ =>
              have : sj ∈ ([[], []] : List (List BufFrag)) := by
                apply List.mem_of_getElem? (i := j); simpa [shiftStages] using hj
              simpa using this
          | 3, _, _, k2 =>
            refine ⟨?_, by simp [shiftStages]⟩
            intro j sj hj1 hj
            match j, hj1 with
            | j + 2, _ =>
              have : sj ∈ ([[]] : List (List BufFrag)) := by
                apply List.mem_of_getElem? (i := j); simpa [shiftStages] using hj
              simpa using this
        simp only [Option.some.injEq] at h
        subst h
        have hnb := hi.nb.1
        refine ⟨⟨hemp.2, ⟨by simp only; omega, fun _ => by simp only; omega⟩, emptyFrom_succ hemp.1,
          fun _ => hemp.1, ?_, hpool, ?_⟩, fin _ rfl ?_⟩
        · simp only; rw [hsh]; exact k3
        · simp only; split <;> simp
        · simp only; rw [hsh]; exact k4

theorem ostepM_ok {cap : Nat} {pick : Nat → List BufFrag → Nat} (hp : Picks pick) {s s' : MSt}
    (hi : s.Ok cap) (hd : s.mode ≠ .done) (h : s.step cap pick = some s') :
    s'.Ok cap ∧ s'.phi cap < s.phi cap := by
  unfold MSt.step at h
  cases hm : s.mode with
  | done => exact absurd hm hd
  | outer =>
    rw [hm] at h
    have hb := hi.beyond' (by simp [hm])
    simp only at h
    split at h
    · rename_i ht
      simp only [Option.some.injEq] at h
      subst h
      refine ⟨⟨hi.three, ⟨hi.nb.1, fun _ => hi.nb.2 (by simp [hm])⟩, hi.beyond, fun _ => hb, hi.frags,
        hi.pool, by simp⟩, ?_⟩
      have ht' : s.terminal := ht
      simp [MSt.phi, MSt.rank, hm, ht']
    · rename_i ht
      simp only [Option.some.injEq] at h
      subst h
      refine ⟨⟨hi.three, ⟨hi.nb.1, fun _ => hi.nb.2 (by simp [hm])⟩, hi.beyond, fun _ => hb, hi.frags,
        hi.pool, by simp⟩, ?_⟩
      have ht' : ¬ s.terminal := ht
      have ht2 : ¬ MSt.terminal { s with must := false, mode := .read } := ht
      simp [MSt.phi, MSt.rank, hm, ht', ht2]
  | read =>
    rw [hm] at h
    simp only at h
    split at h
    · rename_i hc
      simp only [Option.some.injEq] at h
      subst h
      have hnt : ¬ (s.must = false ∧ ¬ s.terminal) := by
        rintro ⟨h1, h2⟩
        rcases hc with h | h | h
        · exact h2 (.inl h)
        · exact h2 (.inr h)
        · simp [h1] at h
      have hb := hi.beyond' (fun h => hnt h.2)
      refine ⟨⟨hi.three, ⟨hi.nb.1, by simp⟩, hi.beyond, fun _ => hb, hi.frags, hi.pool, by simp⟩, ?_⟩
      unfold MSt.phi
      simp only
      have : MSt.rank { s with mode := .deplete } < s.rank := by
        by_cases ht : s.terminal
        · have ht2 : MSt.terminal { s with mode := .deplete } := ht
          simp [MSt.rank, hm, ht, ht2]
        · have ht2 : ¬ MSt.terminal { s with mode := .deplete } := ht
          have hmu : s.must = true := by
            by_contra hc; exact hnt ⟨by simpa using hc, ht⟩
          have hne := hi.must hm hmu ht
          have e : MSt.rank { s with mode := .deplete } = 0 := by
            unfold MSt.rank; simp only; rw [if_neg ht2, if_neg hne]
          rw [e]; simp [MSt.rank, hm, ht, hmu]
      omega
    · rename_i hc
      simp only [not_or] at hc
      refine readStepM_ok hi hm ?_ (by simpa using hc.2.2) h
      rintro (h | h)
      · exact hc.1 h
      · exact hc.2.1 h
  | deplete =>
    rw [hm] at h
    exact depleteStepM_ok hp hi hm h

/-- The loop ends within `phi` steps, or something undefined happens. -/
theorem MSt.loop_phi {cap : Nat} {pick : Nat → List BufFrag → Nat} (hp : Picks pick) (n : Nat) {s : MSt}
    (hi : s.Ok cap) (hn : s.phi cap ≤ n) {s' : MSt} (h : MSt.loop cap pick n s = some s') :
    s'.mode = .done ∧ ∀ k, MSt.loop cap pick (n + k) s = some s' := by
  induction n generalizing s with
  | zero =>
    simp only [MSt.loop, Option.some.injEq] at h
    subst h
    by_cases hd : s.mode = .done
    · refine ⟨hd, fun k => ?_⟩
      cases k with
      | zero => rfl
      | succ k => rw [Nat.zero_add, MSt.loop, if_pos hd]
    · exfalso
      cases hs : s.step cap pick with
      | some s' => have := (ostepM_ok hp hi hd hs).2; omega
      | none =>
        have h0 : s.phi cap = 0 := by omega
        unfold MSt.phi at h0
        have hf : s.file.measure = 0 := by
          have : 8 * (cap + 7) * s.file.measure = 0 := by omega
          rcases Nat.mul_eq_zero.1 this with h | h
          · omega
          · exact h
        have hw : fragW s.stages.flatten = 0 := by omega
        have hr : s.rank = 0 := by omega
        have hfl := fragW_zero.1 hw
        unfold MSt.rank at hr
        cases hm : s.mode with
        | done => exact hd hm
        | outer => rw [hm] at hr; simp only at hr; split at hr <;> omega
        | read => rw [hm] at hr; simp only at hr; split at hr <;> (try split at hr) <;> omega
        | deplete =>
          rw [hm] at hr; simp only at hr
          split at hr
          · omega
          · first | omega | (rw [if_pos hfl] at hr; omega)
  | succ n ih =>
    by_cases hd : s.mode = .done
    · rw [MSt.loop, if_pos hd] at h
      simp only [Option.some.injEq] at h
      subst h
      refine ⟨hd, fun k => ?_⟩
      rw [show n + 1 + k = n + k + 1 by omega, MSt.loop, if_pos hd]
    · rw [MSt.loop, if_neg hd] at h
      cases hs : s.step cap pick with
      | none => rw [hs] at h; simp at h
      | some s1 =>
        rw [hs] at h
        obtain ⟨h1, h2⟩ := ostepM_ok hp hi hd hs
        obtain ⟨h3, h4⟩ := ih h1 (by omega) h
        refine ⟨h3, fun k => ?_⟩
        rw [show n + 1 + k = n + k + 1 by omega, MSt.loop, if_neg hd, hs]
        exact h4 k

theorem MSt.loop_phi_none {cap : Nat} {pick : Nat → List BufFrag → Nat} (n : Nat) {s : MSt}
    (h : MSt.loop cap pick n s = none) (k : Nat) : MSt.loop cap pick (n + k) s = none := by
  induction n generalizing s with
  | zero => simp [MSt.loop] at h
  | succ n ih =>
    rw [show n + 1 + k = n + k + 1 by omega]
    rw [MSt.loop] at h ⊢
    split at h
    · simp at h
    · rename_i hd
      rw [if_neg hd]
      split at h
      · rename_i hs; rfl
      · rename_i s1 hs; exact ih h

/-- Start state. -/
theorem startOrderedM_ok {cap : Nat} (s : PDec) {pool : List BufFrag}
    (hp : ∀ bf ∈ pool, bf.room ≤ cap + 5) :
    (s.startOrdered pool).Ok cap ∧ (s.startOrdered pool).phi cap ≤ OSt.fuel cap s.file := by
  have he : ∀ n, emptyFrom [[], [], []] n := by
    intro n j st _ h
    have := List.mem_of_getElem? h
    simpa using this
  refine ⟨⟨rfl, by simp [PDec.startOrdered], he _, fun _ => he _, by simp [PDec.startOrdered], hp,
    by simp [PDec.startOrdered]⟩, ?_⟩
  have hr : (s.startOrdered pool).rank ≤ 6 := rankM_le _
  have hm : s.file.measure ≤ s.file.inp.length + 1 := by unfold FileSt.measure; split <;> omega
  have : 8 * (cap + 7) * s.file.measure ≤ 8 * (cap + 7) * (s.file.inp.length + 1) := Nat.mul_le_mul_left _ hm
  have e : 8 * (s.file.inp.length + 2) * (cap + 7) = 8 * (cap + 7) * (s.file.inp.length + 1) + 8 * (cap + 7) := by
    rw [Nat.mul_right_comm, show s.file.inp.length + 2 = s.file.inp.length + 1 + 1 from rfl, Nat.mul_add _ (_ + 1) 1,
      Nat.mul_one]
  unfold MSt.phi OSt.fuel
  rw [e]
  have : fragW (s.startOrdered pool).stages.flatten = 0 := by simp [PDec.startOrdered, fragW]
  rw [this]
  have : (s.startOrdered pool).file = s.file := rfl
  rw [this]
  omega

/-- Enough fuel. -/
theorem MSt.loop_fuel {cap : Nat} {pick : Nat → List BufFrag → Nat} (hp : Picks pick) (s : PDec)
    {pool : List BufFrag} (hpool : ∀ bf ∈ pool, bf.room ≤ cap + 5) (k : Nat) :
    MSt.loop cap pick (OSt.fuel cap s.file + k) (s.startOrdered pool) = s.ordered cap pool pick ∧
    ∀ s', s.ordered cap pool pick = some s' → s'.mode = .done := by
  obtain ⟨h1, h2⟩ := startOrderedM_ok (cap := cap) s hpool
  unfold PDec.ordered
  cases h : MSt.loop cap pick (OSt.fuel cap s.file) (s.startOrdered pool) with
  | none => exact ⟨MSt.loop_phi_none _ h k, by simp⟩
  | some s' =>
    obtain ⟨h3, h4⟩ := MSt.loop_phi hp _ h1 h2 h
    exact ⟨h4 k, by rintro s'' h5; cases h5; exact h3⟩

end NanoLog
