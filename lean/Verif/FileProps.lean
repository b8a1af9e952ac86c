import Verif.TermLemmas

/-! Helper lemmas for the theorems about whole files: uniqueness of the required messages,
bytes written per operation, padding. -/

namespace NanoLog

theorem describes_exists {sites : List Site} (h : SitesOK sites) : ∃ d, Describes d sites := by
  have : ∀ (pre : List Site) (d : Dict), Describes d pre → ∃ d', Describes d' (pre ++ sites) := by
    induction sites with
    | nil => intro pre d hd; exact ⟨d, by simpa using hd⟩
    | cons s l ih =>
      intro pre d hd
      obtain ⟨is, hs⟩ := h s (by simp)
      obtain ⟨d', hd'⟩ := ih (fun x hx => h x (by simp [hx])) _ _ (hd.add hs)
      exact ⟨d', by simpa using hd'⟩
  simpa using this [] _ describes_empty

/-- What a log call must print is unique. -/
theorem Prints.unique {sites : List Site} (hs : SitesOK sites) {tid : Nat} {ck : Checkpoint}
    {c : LogCall} {m1 m2 : OutMsg} (h1 : Prints sites tid ck c m1) (h2 : Prints sites tid ck c m2) :
    m1 = m2 := by
  obtain ⟨d, hd⟩ := describes_exists hs
  obtain ⟨s, ok, hm⟩ := h1.ok
  let bf : BufFrag := ⟨[], tid, argsOut 0 s.params c.args ++ ([] ++ []),
    ((argsOut 0 s.params c.args ++ []).length : Nat), true, c.id, c.ts⟩
  have ha : At sites bf [c] := ⟨rfl, rfl, rfl, s, 0, [], [], ok, hm, rfl, rfl, .nil⟩
  obtain ⟨b1, e1, -⟩ := decompressNext_at (bf := bf) hd ha h1
  obtain ⟨b2, e2, -⟩ := decompressNext_at (bf := bf) hd ha h2
  rw [e1] at e2
  simp only [Option.some.injEq, Prod.mk.injEq] at e2
  exact e2.1

theorem prints_unique {sites : List Site} (hs : SitesOK sites) {tid : Nat} {ck : Checkpoint}
    {cs : List LogCall} {ms1 ms2 : List OutMsg} (h1 : List.Forall₂ (Prints sites tid ck) cs ms1)
    (h2 : List.Forall₂ (Prints sites tid ck) cs ms2) : ms1 = ms2 := by
  induction h1 generalizing ms2 with
  | nil => cases h2; rfl
  | cons h ht ih =>
    cases h2 with
    | cons h' ht' => rw [Prints.unique hs h h', ih ht']

theorem queueSize_take_inj {sites : List Site} {cs : List LogCall} (hq : Queue sites cs)
    {j k : Nat} (hj : j ≤ cs.length) (hk : k ≤ cs.length)
    (h : queueSize sites (cs.take j) = queueSize sites (cs.take k)) : j = k := by
  induction cs generalizing j k with
  | nil => simp at hj hk; omega
  | cons c cs ih =>
    obtain ⟨s, ok, -⟩ := hq c (by simp)
    have hpos : 0 < callSize sites c := by
      rw [callSize_eq ok]; simp only [LogCall.size]; omega
    simp only [queueSize] at h ih
    cases j with
    | zero =>
      cases k with
      | zero => rfl
      | succ k => simp at h; omega
    | succ j =>
      cases k with
      | zero => simp at h; omega
      | succ k =>
        simp at h hj hk
        rw [ih (fun c hc => hq c (by simp [hc])) hj hk (by simpa using h)]

/-- The messages a file must hold are determined by the operations and their results. -/
theorem Logged.unique {cfg : Config} {ck : Checkpoint} {all : List Site} {ops : List EncOp}
    {ns : List Int} {ms1 ms2 : List OutMsg} (hs : SitesOK all)
    (h1 : Logged cfg ck all ops ns ms1) (h2 : Logged cfg ck all ops ns ms2) : ms1 = ms2 := by
  induction h1 generalizing ms2 with
  | nil => cases h2; rfl
  | start hc hs' hj h ih => cases h2 with | start _ _ _ h' => exact ih hs' h'
  | dict h ih => cases h2 with | dict h' => exact ih hs h'
  | flush h ih => cases h2 with | flush h' => exact ih hs h'
  | @batch ck all junk cs mem nbytes tid np ops ns ms ms' k hb hk h ih =>
    generalize hn : ((queueSize all (cs.take k) : Int) :: ns) = ns' at h2
    cases h2 with
    | @batch _ _ _ _ _ _ _ _ _ ns2 ms2 ms2' k2 hb2 hk2 h2 =>
      simp only [List.cons.injEq] at hn
      obtain ⟨hn1, rfl⟩ := hn
      have : k = k2 := queueSize_take_inj (queue_of_prints hb.prints) hk hk2 (by exact_mod_cast hn1)
      rw [this, prints_unique hs hb.prints hb2.prints, ih hs h2]

/-- The bytes each operation appends to the file (directly or through the buffer). -/
def EncSt.written (cfg : Config) (st : EncSt) : List EncOp → List (List Byte)
  | [] => []
  | op :: ops =>
    match st.step cfg op with
    | none => []
    | some (st1, _) =>
      (st1.file ++ st1.buf).drop (st.file ++ st.buf).length :: EncSt.written cfg st1 ops

theorem Trace.written {cfg ck st ops ck' st' ns rss mss}
    (h : Trace cfg ck st ops ck' st' ns rss mss) : st.written cfg ops = rss.map recBytes := by
  induction h with
  | nil => rfl
  | cons hi h ht ih =>
    simp only [EncSt.written, h.step, h.bytes, ih, List.map_cons, List.cons.injEq, and_true]
    rw [List.drop_left]

theorem after_pads (ck : Checkpoint) (known : List Site) (rss : List (List Rec))
    (pads : List (List Byte)) (hl : pads.length = rss.length) :
    after ck known (List.zipWith (fun rs p => rs ++ [Rec.pad p]) rss pads).flatten =
      after ck known rss.flatten := by
  induction rss generalizing ck known pads with
  | nil => simp
  | cons rs rss ih =>
    cases pads with
    | nil => simp at hl
    | cons p pads =>
      simp only [List.zipWith_cons_cons, List.flatten_cons, after_append]
      simp only [after]
      exact ih _ _ _ (by simpa using hl)

theorem Holds.pads {cap : Nat} {ck : Checkpoint} {known : List Site} {rss : List (List Rec)}
    {ms : List OutMsg} (h : Holds cap ck known rss.flatten ms) (pads : List (List Byte))
    (hl : pads.length = rss.length) (hz : ∀ p ∈ pads, ∀ b ∈ p, entryType b = .invalid) :
    Holds cap ck known (List.zipWith (fun rs p => rs ++ [Rec.pad p]) rss pads).flatten ms := by
  induction rss generalizing ck known pads ms with
  | nil => simpa using h
  | cons rs rss ih =>
    cases pads with
    | nil => simp at hl
    | cons p pads =>
      rw [List.flatten_cons] at h
      obtain ⟨m1, m2, rfl, h1, h2⟩ := h.split
      simp only [List.zipWith_cons_cons, List.flatten_cons, List.append_assoc]
      refine h1.append ?_
      exact .pad (hz p (by simp)) (ih h2 pads (by simpa using hl) fun q hq => hz q (by simp [hq]))

theorem pads_bytes (rss : List (List Rec)) (pads : List (List Byte))
    (hl : pads.length = rss.length) :
    recBytes (List.zipWith (fun rs p => rs ++ [Rec.pad p]) rss pads).flatten =
      (List.zipWith (· ++ ·) (rss.map recBytes) pads).flatten := by
  induction rss generalizing pads with
  | nil => simp [recBytes]
  | cons rs rss ih =>
    cases pads with
    | nil => simp at hl
    | cons p pads =>
      have := ih pads (by simpa using hl)
      simp only [recBytes, List.zipWith_cons_cons, List.flatten_cons, List.map_cons,
        List.flatMap_append, List.flatMap_cons, List.flatMap_nil, Rec.bytes] at this ⊢
      rw [this]; simp

/-- The decoder after `open` on well-formed records that start with a checkpoint. -/
theorem open_ok {cap : Nat} {ck : Checkpoint} {known : List Site} {jk : Nat} {c : Checkpoint}
    {rs : List Rec} {ms : List OutMsg} (h : Holds cap ck known (.ckpt jk c :: rs) ms) (s0 : Dec)
    (tail : List Byte) :
    s0.openFile (checkpointBytes jk c ++ tail) =
      some (true, { s0 with file := ⟨tail, false⟩, good := true, ck := c, dict := Dict.empty
                            out := [] }) ∧ Holds cap c [] rs ms := by
  cases h with
  | ckpt hc hj h =>
    refine ⟨?_, h⟩
    rw [Dec.openFile, readDictionary_ok hc]

/-- Both interfaces on a complete file. -/
theorem decode_complete {cap : Nat} {ck : Checkpoint} {known : List Site} {jk : Nat}
    {c : Checkpoint} {rs : List Rec} {ms : List OutMsg}
    (h : Holds cap ck known (.ckpt jk c :: rs) ms) (s0 : Dec) :
    ∃ s, s0.openFile (recBytes (.ckpt jk c :: rs)) = some (true, s) ∧
      (∀ bf : BufFrag, bf.stor.length = cap → ∃ s', s.unordered bf = some (true, s') ∧ s'.out = ms) ∧
      (s0.bf.stor.length = cap → s0.bf.hasMore = false →
        ∃ s', (∀ n, ms.length < n → s.iterate n = some s') ∧ s'.out = ms) := by
  have e : recBytes (.ckpt jk c :: rs) = checkpointBytes jk c ++ recBytes rs := by
    simp [recBytes, Rec.bytes]
  obtain ⟨h1, h2⟩ := open_ok h s0 (recBytes rs)
  rw [e]
  refine ⟨_, h1, ?_, ?_⟩
  · intro bf hbf
    obtain ⟨s', u1, u2, u3, -⟩ := unordered_holds h2
      { s0 with file := ⟨recBytes rs, false⟩, good := true, ck := c, dict := Dict.empty
                out := [], bf := bf } rfl rfl rfl describes_empty hbf
    refine ⟨{ s' with bf := s0.bf }, ?_, by simpa using u2⟩
    have := u1.loop
    simp only at this
    simp only [Dec.unordered, this, u3]
  · intro hb hm
    obtain ⟨a, b, m1, m2, g1, g2, g3, g4, -, s', i1, i2⟩ := decode_cut h2 (recBytes rs).length
      (Nat.le_refl _) { s0 with file := ⟨recBytes rs, false⟩, good := true, ck := c
                                dict := Dict.empty, out := [] } ⟨hm, rfl, rfl⟩ (by simp) rfl
      describes_empty hb
    have hall := g4 rs [] (by simp) (Nat.le_refl _)
    have : a = rs := by
      have hl := hall.length_le
      rw [g1] at hl
      have : b = [] := by
        rw [List.length_append] at hl
        exact List.length_eq_zero_iff.1 (by omega)
      rw [g1, this, List.append_nil]
    have hm1 : m1 = ms := by
      rw [this] at g3
      obtain ⟨s2, x1, x2, -⟩ := unordered_holds g3
        { s0 with file := ⟨recBytes rs, false⟩, good := true, ck := c
                  dict := Dict.empty, out := [] } rfl rfl rfl describes_empty hb
      obtain ⟨s3, y1, y2, -⟩ := unordered_holds h2
        { s0 with file := ⟨recBytes rs, false⟩, good := true, ck := c
                  dict := Dict.empty, out := [] } rfl rfl rfl describes_empty hb
      have e1 := x1.loop
      have e2 := y1.loop
      rw [e1] at e2
      simp only [Option.some.injEq] at e2
      rw [e2, y2] at x2
      simpa using x2.symm
    rw [hm1] at i1 i2
    refine ⟨s', fun n hn => ?_, by simpa using i2⟩
    obtain ⟨k, rfl⟩ : ∃ k, n = ms.length + (k + 1) := ⟨n - ms.length - 1, by omega⟩
    exact i1 k

end NanoLog
