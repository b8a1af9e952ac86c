import Verif.DecHeap
import Verif.OrderedTerm
import Verif.RuntimeInv
import Mathlib.Data.List.Perm.Basic

/-! Helper lemmas: ordered decompression with pointers and heaps is simulated by the model with
an oracle. -/

namespace NanoLog

/-- The stages hold the same fragments, in some order. -/
def SameStages (heap : Nat → BufFrag) (hs : List (List Nat)) (os : List (List BufFrag)) : Prop :=
  hs.length = os.length ∧
    ∀ (i : Nat) st st', hs[i]? = some st → os[i]? = some st' → (st.map heap).Perm st'

/-- The state with objects and the state with an oracle. -/
structure HRel (h : HSt) (o : OSt) : Prop where
  file : o.file = h.file
  good : o.good = h.good
  ck : o.ck = h.ck
  dict : o.dict = h.dict
  pool : o.pool = h.free.map h.heap
  stages : SameStages h.heap h.stages o.stages
  nb : o.nb = h.nb
  must : o.must = h.must
  mode : o.mode = h.mode
  out : o.out = h.out

/-- Every object is in exactly one place. -/
def Owned (next : Nat) (free lost : List Nat) (stages : List (List Nat)) : Prop :=
  (0 :: (free ++ (lost ++ stages.flatten))).Perm (List.range next)

/-- Invariant of the state with objects. -/
structure HSt.Inv (h : HSt) : Prop where
  own : Owned h.next h.free h.lost h.stages
  three : h.stages.length = 3
  nb : h.nb ≤ 3
  heaps : h.mode = .deplete → ∀ st ∈ h.stages, IsHeap (tsOf h.heap) st
  atEof : (h.mode = .read ∨ h.mode = .deplete) → h.file.eof = true → h.must = true
  atEnd : (h.mode = .outer ∨ h.mode = .done) → h.file.eof = true → h.nb = 0

theorem Owned.nodup {next free lost stages} (h : Owned next free lost stages) :
    (0 :: (free ++ (lost ++ stages.flatten))).Nodup := h.nodup_iff.2 List.nodup_range

/-- Changing an object outside does not matter. -/
theorem map_upd_of_not_mem {heap : Nat → BufFrag} {a : Nat} {b : BufFrag} {l : List Nat} (h : a ∉ l) :
    l.map (upd heap a b) = l.map heap := by
  apply List.map_congr_left
  intro x hx
  exact upd_other _ _ fun e => h (e ▸ hx)

theorem SameStages.upd {heap : Nat → BufFrag} {hs os} (h : SameStages heap hs os) {a : Nat} (b : BufFrag)
    (ha : a ∉ hs.flatten) : SameStages (upd heap a b) hs os := by
  refine ⟨h.1, fun i st st' h1 h2 => ?_⟩
  rw [map_upd_of_not_mem fun hx => ha (List.mem_flatten.2 ⟨st, List.mem_of_getElem? h1, hx⟩)]
  exact h.2 i st st' h1 h2

theorem SameStages.set {heap : Nat → BufFrag} {hs os} (h : SameStages heap hs os) (i : Nat) {st st'}
    (hp : (st.map heap).Perm st') : SameStages heap (hs.set i st) (os.set i st') := by
  refine ⟨by simp [h.1], fun j x y h1 h2 => ?_⟩
  rw [List.getElem?_set] at h1 h2
  by_cases hj : i = j
  · subst hj
    simp only [if_true] at h1 h2
    split at h1 <;> simp_all
  · simp only [if_neg hj] at h1 h2
    exact h.2 j x y h1 h2

theorem SameStages.get {heap : Nat → BufFrag} {hs os} (h : SameStages heap hs os) {i : Nat} {st}
    (h1 : hs[i]? = some st) : ∃ st', os[i]? = some st' ∧ (st.map heap).Perm st' := by
  have hi : i < os.length := h.1 ▸ (List.getElem?_eq_some_iff.1 h1).1
  exact ⟨os[i], by simp, h.2 i _ _ h1 (by simp)⟩

theorem SameStages.get_none {heap : Nat → BufFrag} {hs os} (h : SameStages heap hs os) {i : Nat}
    (h1 : hs[i]? = none) : os[i]? = none := by
  rw [List.getElem?_eq_none_iff] at h1 ⊢
  rw [← h.1]; exact h1

theorem SameStages.map {heap : Nat → BufFrag} {hs os} (h : SameStages heap hs os) {f : List Nat → List Nat}
    (hf : ∀ l, (f l).Perm l) : SameStages heap (hs.map f) os := by
  refine ⟨by simp [h.1], fun i st st' h1 h2 => ?_⟩
  rw [List.getElem?_map] at h1
  cases h3 : hs[i]? with
  | none => simp [h3] at h1
  | some x =>
    simp only [h3, Option.map_some, Option.some.injEq] at h1
    subst h1
    exact ((hf x).map heap).trans (h.2 i _ _ h3 h2)

theorem perm_nil_iff_isEmpty {heap : Nat → BufFrag} {st : List Nat} {st' : List BufFrag} (h : (st.map heap).Perm st') :
    st.isEmpty = st'.isEmpty := by
  have := h.length_eq
  cases st <;> cases st' <;> simp_all

theorem flatten_map_perm {f : List Nat → List Nat} (hf : ∀ l, (f l).Perm l) (hs : List (List Nat)) :
    (hs.map f).flatten.Perm hs.flatten := by
  induction hs with
  | nil => exact .refl _
  | cons a l ih => simpa using (hf a).append ih

/-! ## Reading -/

theorem HRel.heapify {h : HSt} {o : OSt} (r : HRel h o) : HRel h.heapify { o with mode := .deplete } :=
  ⟨r.file, r.good, r.ck, r.dict, r.pool, r.stages.map fun l => (makeHeap_spec l).2, r.nb, r.must, rfl, r.out⟩

theorem Owned.heapify {next free lost stages} (h : Owned next free lost stages) (key : Nat → Nat) :
    Owned next free lost (stages.map (makeHeap key)) :=
  (List.Perm.cons _ (List.Perm.append_left _ (List.Perm.append_left _
    (flatten_map_perm (fun l => (makeHeap_spec l).2) stages)))).trans h

/-- Results of a step agree. -/
def Agree (h : Option HSt) (o : Option OSt) (tick : Nat) : Prop :=
  match h, o with
  | none, none => True
  | some h, some o => HRel h o ∧ h.Inv ∧ o.tick = tick
  | _, _ => False

theorem endRead_agree {h : HSt} {o : OSt} (r : HRel h o) (own : Owned h.next h.free h.lost h.stages)
    (three : h.stages.length = 3) (hm : h.mode = .read) (np : Bool)
    {t : Nat} (ht : o.tick = t) : Agree (h.endRead np) (o.endRead np) t := by
  subst ht
  unfold HSt.endRead OSt.endRead
  simp only [r.nb, r.must, r.file, r.good]
  cases h1 : h.stages[h.nb]? with
  | none => rw [r.stages.get_none h1]; trivial
  | some cur =>
    obtain ⟨cur', h2, hp⟩ := r.stages.get h1
    have hlt : h.nb < 3 := three ▸ (List.getElem?_eq_some_iff.1 h1).1
    simp only [h2, perm_nil_iff_isEmpty hp]
    generalize hn : (if (np || (h.must || h.file.eof || !h.good) && !cur'.isEmpty) = true then h.nb + 1 else h.nb) = nb
    have hnb : nb ≤ 3 := by subst hn; split <;> omega
    simp only [Agree]
    by_cases h3 : nb = 3
    · simp only [h3, if_true]
      refine ⟨⟨rfl, rfl, r.ck, r.dict, r.pool, r.stages.map fun l => (makeHeap_spec l).2, rfl, ?_, rfl, r.out⟩,
        ⟨own.heapify _, by simp [HSt.heapify, three], by simp [HSt.heapify], ?_, ?_, ?_⟩, trivial⟩
      · rfl
      · intro _ st hst
        obtain ⟨l, -, rfl⟩ := List.mem_map.1 hst
        exact (makeHeap_spec l).1
      · intro _ he
        have : h.file.eof = true := he
        show (h.must || h.file.eof) = true
        simp [this]
      · intro he; simp [HSt.heapify] at he
    · simp only [if_neg h3]
      refine ⟨⟨rfl, rfl, r.ck, r.dict, r.pool, r.stages, rfl, ?_, hm.symm, r.out⟩,
        ⟨own, three, hnb, ?_, ?_, ?_⟩, trivial⟩
      · rfl
      · intro he; exact absurd (hm.symm.trans he) (by simp)
      · intro _ he
        have : h.file.eof = true := he
        show (h.must || h.file.eof) = true
        simp [this]
      · intro he
        rcases he with he | he <;> exact absurd (hm.symm.trans he) (by simp)

/-- What allocation does. -/
theorem alloc_spec {cap : Nat} {h h' : HSt} {a : Nat} (e : h.alloc cap = (a, h'))
    (own : Owned h.next h.free h.lost h.stages) :
    h' = { h with heap := h'.heap, next := h'.next, free := h'.free } ∧
    allocFrag cap (h.free.map h.heap) = (h'.heap a, h'.free.map h'.heap) ∧
    (0 :: (h'.free ++ (h.lost ++ h.stages.flatten ++ [a]))).Perm (List.range h'.next) ∧
    (∀ x ∈ h.stages.flatten, h'.heap x = h.heap x) ∧ (∀ x ∈ h'.free, h'.heap x = h.heap x) ∧
    h'.heap 0 = h.heap 0 := by
  unfold HSt.alloc at e
  unfold allocFrag
  rw [List.getLast?_map]
  cases hl : h.free.getLast? with
  | some b =>
    simp only [hl, Prod.mk.injEq] at e
    obtain ⟨rfl, rfl⟩ := e
    refine ⟨rfl, by simp [List.map_dropLast], ?_, fun _ _ => rfl, fun _ _ => rfl, rfl⟩
    have hne : h.free ≠ [] := by rintro hx; simp [hx] at hl
    have hb : h.free.dropLast ++ [b] = h.free := by
      have := List.dropLast_append_getLast hne
      rw [List.getLast?_eq_some_getLast hne] at hl
      simp only [Option.some.injEq] at hl
      rw [hl] at this; exact this
    refine List.Perm.trans ?_ own
    refine List.Perm.cons _ ?_
    show (h.free.dropLast ++ _).Perm _
    rw [← hb]
    simp only [List.dropLast_concat, List.append_assoc]
    refine List.Perm.append_left _ ?_
    simpa using (List.perm_append_comm (l₁ := h.lost ++ h.stages.flatten) (l₂ := [b]))
  | none =>
    have hf : h.free = [] := by simpa using hl
    simp only [hl, Prod.mk.injEq] at e
    obtain ⟨rfl, rfl⟩ := e
    have hlt : ∀ x ∈ 0 :: (h.free ++ (h.lost ++ h.stages.flatten)), x < h.next := fun x hx =>
      List.mem_range.1 (own.mem_iff.1 hx)
    refine ⟨rfl, by simp [hf], ?_, fun x hx => ?_, fun x hx => ?_, ?_⟩
    · have := own.append_right [h.next]
      rw [List.range_succ]
      simpa [hf] using this
    · exact upd_other _ _ (Nat.ne_of_lt (hlt x (by simp [hx])))
    · exact upd_other _ _ (Nat.ne_of_lt (hlt x (by have : x ∈ h.free := hx; simp [this])))
    · exact upd_other _ _ (Nat.ne_of_lt (hlt 0 (by simp)))

theorem SameStages.congr {heap heap' : Nat → BufFrag} {hs os} (h : SameStages heap hs os)
    (he : ∀ x ∈ hs.flatten, heap' x = heap x) : SameStages heap' hs os := by
  refine ⟨h.1, fun i st st' h1 h2 => ?_⟩
  have : st.map heap' = st.map heap := List.map_congr_left fun x hx =>
    he x (List.mem_flatten.2 ⟨st, List.mem_of_getElem? h1, hx⟩)
  rw [this]
  exact h.2 i st st' h1 h2

theorem readStep_agree {cap : Nat} {h : HSt} {o : OSt} (r : HRel h o) (inv : h.Inv) (hm : h.mode = .read) :
    Agree (h.readStep cap) (o.readStep cap) o.tick := by
  unfold HSt.readStep OSt.readStep
  rw [r.file]
  rcases hpk : h.file.peek with ⟨e, f⟩
  simp only
  cases e with
  | extent =>
    simp only
    rcases ha : h.alloc cap with ⟨a, h1⟩
    obtain ⟨e1, e2, e3, e4, e5, e6⟩ := alloc_spec ha inv.own
    rw [r.pool, e2]
    simp only
    cases hr : readBufferExtent (h1.heap a) f with
    | none => trivial
    | some v =>
      obtain ⟨ok, np, bf, f1⟩ := v
      have e1s : h1.stages = h.stages := by rw [e1]
      have e1l : h1.lost = h.lost := by rw [e1]
      have e1n : h1.nb = h.nb := by rw [e1]
      have nd : (0 :: (h1.free ++ (h.lost ++ h.stages.flatten ++ [a]))).Nodup :=
        e3.nodup_iff.2 List.nodup_range
      have haf : a ∉ h1.free := by
        have := List.nodup_append.1 (List.nodup_cons.1 nd).2
        intro hx; exact this.2.2 a hx a (by simp) rfl
      have has : a ∉ h.stages.flatten := by
        have := List.nodup_append.1 (List.nodup_append.1 (List.nodup_cons.1 nd).2).2.1
        intro hx; exact this.2.2 a (by simp only [List.mem_append]; exact .inr hx) a (by simp) rfl
      have hst : SameStages (upd h1.heap a bf) h.stages o.stages := (r.stages.congr e4).upd bf has
      have hfr : h1.free.map h1.heap = h1.free.map (upd h1.heap a bf) := (map_upd_of_not_mem haf).symm
      simp only [r.nb]
      cases hs : h.stages[h.nb]? with
      | none =>
        rw [r.stages.get_none hs]
        cases ok with
        | true => simp only [if_true, e1s, e1n, hs]; trivial
        | false =>
          simp only [Bool.false_eq_true, if_false]
          unfold HSt.endRead
          simp only [e1s, e1n, hs]; trivial
      | some cur =>
        obtain ⟨cur', hs', hp⟩ := hst.get hs
        simp only [hs']
        cases ok with
        | true =>
          simp only [if_true, e1s, e1n, hs]
          refine endRead_agree ⟨rfl, rfl, ?_, ?_, hfr, ?_, ?_, ?_, ?_, ?_⟩ ?_ ?_ ?_ np rfl
          · show o.ck = h1.ck; rw [e1]; exact r.ck
          · show o.dict = h1.dict; rw [e1]; exact r.dict
          · refine hst.set _ ?_
            rw [List.map_append, List.map_singleton, upd_same]
            exact hp.append_right _
          · rfl
          · show o.must = h1.must; rw [e1]; exact r.must
          · show o.mode = h1.mode; rw [e1]; exact r.mode
          · show o.out = h1.out; rw [e1]; exact r.out
          · refine List.Perm.trans (.cons _ (.append_left _ ?_)) e3
            show (h1.lost ++ _).Perm _
            rw [e1l, List.append_assoc]
            refine .append_left _ ?_
            obtain ⟨rest, q1, q2⟩ := flatten_set hs
            refine (q2 _).trans (.trans ?_ (q1.symm.append_right [a]))
            simp only [List.append_assoc]
            exact .append_left _ List.perm_append_comm
          · simp [inv.three]
          · show h1.mode = _; rw [e1]; exact hm
        | false =>
          simp only [Bool.false_eq_true, if_false]
          refine endRead_agree ⟨rfl, rfl, ?_, ?_, hfr, ?_, ?_, ?_, ?_, ?_⟩ ?_ ?_ ?_ np rfl
          · show o.ck = h1.ck; rw [e1]; exact r.ck
          · show o.dict = h1.dict; rw [e1]; exact r.dict
          · show SameStages _ h1.stages _; rw [e1s]; exact hst
          · show _ = h1.nb; rw [e1]
          · show o.must = h1.must; rw [e1]; exact r.must
          · show o.mode = h1.mode; rw [e1]; exact r.mode
          · show o.out = h1.out; rw [e1]; exact r.out
          · refine List.Perm.trans (.cons _ (.append_left _ ?_)) e3
            show ((h1.lost ++ [a]) ++ h1.stages.flatten).Perm _
            rw [e1l, e1s]
            simp only [List.append_assoc]
            exact .append_left _ List.perm_append_comm
          · show h1.stages.length = 3; rw [e1s]; exact inv.three
          · show h1.mode = _; rw [e1]; exact hm
  | checkpoint =>
    simp only
    cases hs : h.stages[0]? with
    | none => rw [r.stages.get_none hs]; trivial
    | some cur =>
      obtain ⟨cur', hs', hp⟩ := r.stages.get hs
      rw [hs']
      cases cur with
      | nil =>
        have : cur' = [] := by simpa using hp
        subst this
        simp only [r.ck, r.dict]
        cases hr : readDictionary h.ck h.dict f with
        | none => trivial
        | some v =>
          obtain ⟨ok, ck, d, f1⟩ := v
          refine endRead_agree ?_ ?_ ?_ ?_ false rfl
          · exact ⟨rfl, rfl, rfl, rfl, r.pool, r.stages, r.nb, r.must, r.mode, r.out⟩
          · exact inv.own
          · exact inv.three
          · exact hm
      | cons x cur =>
        cases cur' with
        | nil => simp at hp
        | cons y cur' =>
          refine endRead_agree ?_ ?_ ?_ ?_ false rfl
          · exact ⟨rfl, r.good, r.ck, r.dict, r.pool, r.stages, r.nb, rfl, r.mode, r.out⟩
          · exact inv.own
          · exact inv.three
          · exact hm
  | dict =>
    simp only [r.dict]
    cases hr : readDictionaryFragment h.dict f with
    | none => trivial
    | some v =>
      obtain ⟨ok, d, f1⟩ := v
      refine endRead_agree ?_ ?_ ?_ ?_ false rfl
      · exact ⟨rfl, rfl, r.ck, rfl, r.pool, r.stages, r.nb, r.must, r.mode, r.out⟩
      · exact inv.own
      · exact inv.three
      · exact hm
  | invalid =>
    refine endRead_agree ?_ ?_ ?_ ?_ false rfl
    · exact ⟨rfl, r.good, r.ck, r.dict, r.pool, r.stages, r.nb, r.must, r.mode, r.out⟩
    · exact inv.own
    · exact inv.three
    · exact hm

/-! ## Depleting -/

/-- The front with the smallest key, in the first such stage. -/
structure FrontAt (ts : Nat → Nat) (sts : List (List Nat)) (i a : Nat) : Prop where
  at_ : ∃ l, sts[i]? = some (a :: l)
  min : ∀ (j : Nat) st b, sts[j]? = some st → b ∈ st → ts a ≤ ts b ∧ (j < i → ts a < ts b)

theorem minFront_go {ts : Nat → Nat} (done sts : List (List Nat)) (best : Option (Nat × Nat))
    (hh : ∀ st ∈ sts, IsHeap ts st)
    (hb : match best with
      | none => ∀ st ∈ done, st = []
      | some (i, a) => FrontAt ts done i a) :
    match minFront ts done.length sts best with
    | none => ∀ st ∈ done ++ sts, st = []
    | some (i, a) => FrontAt ts (done ++ sts) i a := by
  induction sts generalizing done best with
  | nil => simpa [minFront] using hb
  | cons st sts ih =>
    have key := ih (done ++ [st])
    simp only [List.length_append, List.length_singleton, List.append_assoc,
      List.singleton_append] at key
    have hlast : ∀ (j : Nat) st' , (done ++ [st])[j]? = some st' →
        (j < done.length ∧ done[j]? = some st') ∨ (j = done.length ∧ st' = st) := by
      intro j st' h
      by_cases hj : j < done.length
      · rw [List.getElem?_append_left hj] at h; exact .inl ⟨hj, h⟩
      · rw [List.getElem?_append_right (by omega)] at h
        have h0 : j - done.length = 0 := by
          have := (List.getElem?_eq_some_iff.1 h).1
          simp only [List.length_singleton] at this; omega
        rw [h0] at h
        simp only [List.getElem?_cons_zero, Option.some.injEq] at h
        exact .inr ⟨by omega, h.symm⟩
    cases st with
    | nil =>
      simp only [minFront]
      refine key _ (fun st h => hh st (by simp [h])) ?_
      match best, hb with
      | none, hb =>
        intro st hst
        rcases List.mem_append.1 hst with h | h
        · exact hb st h
        · simpa using h
      | some (i, a), hb =>
        obtain ⟨l, hl⟩ := hb.at_
        refine ⟨⟨l, ?_⟩, fun j st b h1 h2 => ?_⟩
        · rw [List.getElem?_append_left (List.getElem?_eq_some_iff.1 hl).1]; exact hl
        · rcases hlast j st h1 with ⟨-, h3⟩ | ⟨-, rfl⟩
          · exact hb.min j st b h3 h2
          · simp at h2
    | cons a l =>
      have hmin : ∀ x ∈ a :: l, ts a ≤ ts x := (hh (a :: l) (by simp)).min rfl
      simp only [minFront]
      refine key _ (fun st h => hh st (by simp [h])) ?_
      match best, hb with
      | none, hb =>
        refine ⟨⟨l, by simp⟩, fun j st b h1 h2 => ?_⟩
        rcases hlast j st h1 with ⟨-, h3⟩ | ⟨rfl, rfl⟩
        · rw [hb st (List.mem_of_getElem? h3)] at h2; simp at h2
        · exact ⟨hmin b h2, fun h => by omega⟩
      | some (i, c), hb =>
        obtain ⟨l', hl⟩ := hb.at_
        have hi := (List.getElem?_eq_some_iff.1 hl).1
        by_cases hlt : ts a < ts c
        · simp only [hlt, if_true]
          refine ⟨⟨l, by simp⟩, fun j st b h1 h2 => ?_⟩
          rcases hlast j st h1 with ⟨hj, h3⟩ | ⟨rfl, rfl⟩
          · have := (hb.min j st b h3 h2).1
            exact ⟨by omega, fun _ => by omega⟩
          · exact ⟨hmin b h2, fun h => by omega⟩
        · simp only [hlt, if_false]
          refine ⟨⟨l', by rw [List.getElem?_append_left hi]; exact hl⟩, fun j st b h1 h2 => ?_⟩
          rcases hlast j st h1 with ⟨hj, h3⟩ | ⟨rfl, rfl⟩
          · exact hb.min j st b h3 h2
          · have := hmin b h2
            exact ⟨by omega, fun h => by omega⟩

/-- The position found is the one picked. -/
theorem minStage_pick {pick : List BufFrag → Nat} (done sts : List (List BufFrag))
    (best : Option (Nat × Nat × BufFrag))
    (hb : ∀ i k bf, best = some (i, k, bf) → ∃ st, done[i]? = some st ∧ k = pick st)
    {i k : Nat} {bf : BufFrag} (h : minStage pick done.length sts best = some (i, k, bf)) :
    ∃ st, (done ++ sts)[i]? = some st ∧ k = pick st := by
  induction sts generalizing done best with
  | nil => simpa using hb i k bf h
  | cons st sts ih =>
    simp only [minStage] at h
    have key := ih (done ++ [st])
    simp only [List.length_append, List.length_singleton, List.append_assoc,
      List.singleton_append] at key
    refine key _ ?_ h
    have hold : ∀ i k bf, best = some (i, k, bf) → ∃ st', (done ++ [st])[i]? = some st' ∧ k = pick st' := by
      intro i k bf he
      obtain ⟨st', h1, h2⟩ := hb i k bf he
      exact ⟨st', by rw [List.getElem?_append_left (List.getElem?_eq_some_iff.1 h1).1]; exact h1, h2⟩
    intro i k bf he
    split at he
    · exact hold i k bf he
    · split at he
      · simp only [Option.some.injEq, Prod.mk.injEq] at he
        obtain ⟨rfl, rfl, -⟩ := he
        exact ⟨st, by simp, rfl⟩
      · split at he
        · simp only [Option.some.injEq, Prod.mk.injEq] at he
          obtain ⟨rfl, rfl, -⟩ := he
          exact ⟨st, by simp, rfl⟩
        · exact hold i k bf he

theorem IsHeap.congr {key key' : Nat → Nat} {l : List Nat} (h : IsHeap key l)
    (he : ∀ x ∈ l, key' x = key x) : IsHeap key' l := by
  have hk : ∀ i, keyAt key' l i = keyAt key l i := by
    intro i
    unfold keyAt
    cases hi : l[i]? with
    | none => rfl
    | some x => exact he x (List.mem_of_getElem? hi)
  intro i h1 h2 h3
  rw [hk, hk]
  exact h i h1 h2 h3

/-- Step 3c of the model with an oracle. -/
def OSt.exitCheck (s : OSt) : Option OSt :=
  match s.stages[0]? with
  | none => none
  | some (_ :: _) => some s
  | some [] =>
    some { s with stages := shiftStages s.nb s.stages, nb := s.nb - 1
                  mode := if s.must then .deplete else .outer }

theorem three_of_length {α : Type} {l : List α} (h : l.length = 3) : ∃ x y z, l = [x, y, z] := by
  match l, h with
  | [x, y, z], _ => exact ⟨x, y, z, rfl⟩

theorem exitCheck_agree {h : HSt} {o : OSt} (r : HRel h o) (inv : h.Inv) (hm : h.mode = .deplete)
    (h1 : 1 ≤ h.nb) {t : Nat} (ht : o.tick = t) : Agree h.exitCheck o.exitCheck t := by
  obtain ⟨x, y, z, hs⟩ := three_of_length inv.three
  obtain ⟨x', y', z', os⟩ := three_of_length (r.stages.1.symm.trans inv.three)
  have p0 : (x.map h.heap).Perm x' := r.stages.2 0 x x' (by simp [hs]) (by simp [os])
  have p1 : (y.map h.heap).Perm y' := r.stages.2 1 y y' (by simp [hs]) (by simp [os])
  have p2 : (z.map h.heap).Perm z' := r.stages.2 2 z z' (by simp [hs]) (by simp [os])
  unfold HSt.exitCheck OSt.exitCheck
  rw [hs, os, r.nb]
  simp only [List.getElem?_cons_zero]
  cases x with
  | cons a x =>
    cases x' with
    | nil => simp at p0
    | cons a' x' => exact ⟨r, inv, ht⟩
  | nil =>
    have hx' : x' = [] := by simpa using p0
    subst hx'
    have own := inv.own
    have heaps := inv.heaps hm
    have nb3 := inv.nb
    rw [hs] at own heaps
    have hnil : IsHeap (tsOf h.heap) [] := heaps [] (by simp)
    have hy : IsHeap (tsOf h.heap) y := heaps y (by simp)
    have hz : IsHeap (tsOf h.heap) z := heaps z (by simp)
    have same : ∀ {a b c : List Nat} {a' b' c' : List BufFrag}, (a.map h.heap).Perm a' → (b.map h.heap).Perm b' →
        (c.map h.heap).Perm c' → SameStages h.heap [a, b, c] [a', b', c'] := by
      intro a b c a' b' c' q0 q1 q2
      refine ⟨rfl, fun i st st' e1 e2 => ?_⟩
      match i with
      | 0 => simp at e1 e2; subst e1 e2; exact q0
      | 1 => simp at e1 e2; subst e1 e2; exact q1
      | 2 => simp at e1 e2; subst e1 e2; exact q2
      | i + 3 => simp at e1
    have fin : ∀ {L : List (List Nat)} {L' : List (List BufFrag)}, SameStages h.heap L L' → L.length = 3 →
        Owned h.next h.free h.lost L → (∀ st ∈ L, IsHeap (tsOf h.heap) st) →
        Agree (some { h with stages := L, nb := h.nb - 1, mode := if h.must then .deplete else .outer })
          (some { o with stages := L', nb := h.nb - 1, mode := if o.must then .deplete else .outer }) t := by
      intro L L' q1 q2 q3 q4
      refine ⟨⟨r.file, r.good, r.ck, r.dict, r.pool, q1, rfl, r.must, ?_, r.out⟩, ⟨q3, q2, ?_, fun _ => q4, ?_, ?_⟩, ht⟩
      · show (if o.must then OMode.deplete else .outer) = _
        rw [r.must]
      · show h.nb - 1 ≤ 3; omega
      · intro _ he
        exact inv.atEof (.inr hm) he
      · intro hmo he
        have := inv.atEof (.inr hm) he
        simp [this] at hmo
    have hc : h.nb = 1 ∨ h.nb = 2 ∨ h.nb = 3 := by omega
    rcases hc with hc | hc | hc
    · have := fin (L := [[], y, z]) (L' := [[], y', z']) (same (.refl _) p1 p2) rfl (by simpa using own)
        (by simp [hnil, hy, hz])
      simpa [hc, shiftLoop, shiftStages] using this
    · have := fin (L := [y, [], z]) (L' := [y', [], z']) (same p1 (.refl _) p2) rfl
        (by simpa [Owned] using own) (by simp [hnil, hy, hz])
      simpa [hc, shiftLoop, shiftStages] using this
    · have := fin (L := [y, z, []]) (L' := [y', z', []]) (same p1 p2 (.refl _)) rfl
        (by simpa [Owned] using own) (by simp [hnil, hy, hz])
      simpa [hc, shiftLoop, shiftStages] using this

/-- Replacing a stage and the object at `a`. -/
theorem SameStages.setUpd {heap heap' : Nat → BufFrag} {hs os} (h : SameStages heap hs os) {i a : Nat} {st w}
    (hj : ∀ (j : Nat) st, j ≠ i → hs[j]? = some st → a ∉ st) (he : ∀ x, x ≠ a → heap' x = heap x)
    (hp : (st.map heap').Perm w) : SameStages heap' (hs.set i st) (os.set i w) := by
  refine ⟨by simp [h.1], fun j x y h1 h2 => ?_⟩
  rw [List.getElem?_set] at h1 h2
  by_cases hij : i = j
  · subst hij
    simp only [if_true] at h1 h2
    split at h1 <;> simp_all
  · simp only [if_neg hij] at h1 h2
    have : x.map heap' = x.map heap := List.map_congr_left fun b hb =>
      he b fun e => hj j x (fun e => hij e.symm) h1 (e ▸ hb)
    rw [this]
    exact h.2 j x y h1 h2

/-- One step of the depleting loop, for some choice of the oracle. -/
theorem deplete_agree {h : HSt} {o : OSt} (r : HRel h o) (inv : h.Inv) (hm : h.mode = .deplete) :
    (∃ res, (∀ pick, Picks pick → o.depleteStep pick = res) ∧ Agree h.depleteStep res o.tick) ∨
    ∃ p res, (Picks fun _ => p) ∧ (∀ pick, pick o.tick = p → o.depleteStep pick = res) ∧
      Agree h.depleteStep res (o.tick + 1) := by
  have hheaps : ∀ st ∈ h.stages.take h.nb, IsHeap (tsOf h.heap) st := fun st hst =>
    inv.heaps hm st (List.mem_of_mem_take hst)
  have hgo := minFront_go [] (h.stages.take h.nb) none hheaps (by simp)
  simp only [List.length_nil, List.nil_append] at hgo
  unfold HSt.depleteStep
  cases hmf : minFront (tsOf h.heap) 0 (h.stages.take h.nb) none with
  | none =>
    rw [hmf] at hgo
    simp only at hgo
    left
    refine ⟨some { o with nb := 0, mode := .outer }, fun pick hp => ?_, ?_⟩
    · have hno : minStage (pick o.tick) 0 (o.stages.take o.nb) none = none := by
        cases hms : minStage (pick o.tick) 0 (o.stages.take o.nb) none with
        | none => rfl
        | some v =>
          obtain ⟨i, k, bf⟩ := v
          obtain ⟨⟨st', g1, g2⟩, -⟩ := minStage_some hp hms
          rw [List.getElem?_take, r.nb] at g1
          split at g1
          · rename_i hi
            have hlt : i < h.stages.length := by
              rw [r.stages.1]; exact (List.getElem?_eq_some_iff.1 g1).1
            have g3 := r.stages.2 i _ _ (List.getElem?_eq_getElem hlt) g1
            have : h.stages[i] = [] := hgo _ (List.mem_of_getElem? (i := i) (by
              rw [List.getElem?_take, if_pos hi, List.getElem?_eq_getElem hlt]))
            rw [this] at g3
            have : st' = [] := by simpa using g3
            rw [this] at g2; simp at g2
          · simp at g1
      unfold OSt.depleteStep
      rw [hno]
    · exact ⟨⟨r.file, r.good, r.ck, r.dict, r.pool, r.stages, rfl, r.must, rfl, r.out⟩,
        ⟨inv.own, inv.three, Nat.zero_le _, fun he => by simp at he, fun he => by simp at he, fun _ _ => rfl⟩, rfl⟩
  | some v =>
    obtain ⟨i, a⟩ := v
    rw [hmf] at hgo
    simp only at hgo
    obtain ⟨⟨l, hl⟩, hmin⟩ := hgo
    right
    rw [List.getElem?_take] at hl
    split at hl
    case isFalse => simp at hl
    rename_i hi
    obtain ⟨w, hw, hpw⟩ := r.stages.get hl
    have hmem : h.heap a ∈ w := hpw.mem_iff.1 (by simp)
    obtain ⟨k, hk⟩ := List.mem_iff_getElem?.1 hmem
    have hkl := (List.getElem?_eq_some_iff.1 hk).1
    have hka : w[k] = h.heap a := (List.getElem?_eq_some_iff.1 hk).2
    -- the oracle
    classical
    let q : List BufFrag → Nat := fun x =>
      if x = w then k else Classical.epsilon fun j => ∃ bf : BufFrag, x[j]? = some bf ∧ ∀ b ∈ x, bf.ts ≤ b.ts
    have hq : Picks fun _ => q := by
      intro _ x hx
      show ∃ bf, x[q x]? = some bf ∧ _
      by_cases hxw : x = w
      · subst hxw
        refine ⟨h.heap a, by simp [q, hk], fun b hb => ?_⟩
        obtain ⟨y, hy, rfl⟩ := List.mem_map.1 (hpw.mem_iff.2 hb)
        exact (hmin i (a :: l) y (by rw [List.getElem?_take, if_pos hi]; exact hl) hy).1
      · have hex : ∃ j : Nat, ∃ bf : BufFrag, x[j]? = some bf ∧ ∀ b ∈ x, bf.ts ≤ b.ts := by
          clear hxw hkl hka hk hmem hpw hw
          induction x with
          | nil => simp at hx
          | cons c x ih =>
            by_cases hne : x = []
            · subst hne; exact ⟨0, c, rfl, by simp⟩
            · obtain ⟨j, bf, e1, e2⟩ := ih hne
              by_cases hc : c.ts ≤ bf.ts
              · exact ⟨0, c, rfl, fun b hb => by
                  rcases List.mem_cons.1 hb with rfl | hb
                  · exact Nat.le_refl _
                  · exact Nat.le_trans hc (e2 b hb)⟩
              · exact ⟨j + 1, bf, by simpa using e1, fun b hb => by
                  rcases List.mem_cons.1 hb with rfl | hb
                  · omega
                  · exact e2 b hb⟩
        have := Classical.epsilon_spec hex
        simpa [q, hxw] using this
    -- what the oracle finds
    have hms : minStage q 0 (o.stages.take o.nb) none = some (i, k, h.heap a) := by
      rw [r.nb]
      have hwi : (o.stages.take h.nb)[i]? = some w := by rw [List.getElem?_take, if_pos hi]; exact hw
      cases hv : minStage q 0 (o.stages.take h.nb) none with
      | none =>
        have := minStage_none (pick := fun _ => q) (t := 0) hq hv w (List.mem_of_getElem? hwi)
        rw [this] at hmem; simp at hmem
      | some v =>
        obtain ⟨i', k', bf⟩ := v
        obtain ⟨⟨st', g1, g2⟩, g3⟩ := minStage_some (pick := fun _ => q) (t := 0) hq hv
        obtain ⟨st'', g4, g5⟩ := minStage_pick [] (o.stages.take h.nb) none (by simp) hv
        rw [List.nil_append, g1] at g4
        simp only [Option.some.injEq] at g4
        subst g4
        have e1 := g3 i w (h.heap a) hwi hmem
        have hst : ∃ s0, (h.stages.take h.nb)[i']? = some s0 ∧ (s0.map h.heap).Perm st' := by
          rw [List.getElem?_take] at g1
          split at g1
          · rename_i hi'
            have hlt : i' < h.stages.length := by
              rw [r.stages.1]; exact (List.getElem?_eq_some_iff.1 g1).1
            exact ⟨h.stages[i'], by rw [List.getElem?_take, if_pos hi', List.getElem?_eq_getElem hlt],
              r.stages.2 i' _ _ (List.getElem?_eq_getElem hlt) g1⟩
          · simp at g1
        obtain ⟨s0, f1, f2⟩ := hst
        obtain ⟨y, hy, hyb⟩ := List.mem_map.1 (f2.mem_iff.2 (List.mem_of_getElem? g2))
        have e2 := hmin i' s0 y f1 hy
        have hyt : tsOf h.heap y = bf.ts := by rw [← hyb]; rfl
        have hat : tsOf h.heap a = (h.heap a).ts := rfl
        rw [hyt, hat] at e2
        have hii : i' = i := by
          rcases Nat.lt_trichotomy i' i with hlt | heq | hgt
          · have := e2.2 hlt; omega
          · exact heq
          · have := e1.2 hgt; omega
        subst hii
        rw [hwi] at g1
        simp only [Option.some.injEq] at g1
        subst g1
        have hqk : q w = k := by simp [q]
        rw [g5, hqk] at g2
        rw [hk] at g2
        simp only [Option.some.injEq] at g2
        rw [g5, hqk, g2]
    -- disjointness
    have nd := inv.own.nodup
    obtain ⟨nd0, nd1⟩ := List.nodup_cons.1 nd
    obtain ⟨ndf, nd2, nd3⟩ := List.nodup_append.1 nd1
    obtain ⟨ndl, nds, nd4⟩ := List.nodup_append.1 nd2
    have hafl : a ∈ h.stages.flatten := List.mem_flatten.2 ⟨_, List.mem_of_getElem? hl, by simp⟩
    have haf : a ∉ h.free := fun hx => nd3 a hx a (by simp only [List.mem_append]; exact .inr hafl) rfl
    obtain ⟨rest, q1, q2⟩ := flatten_set hl
    have ndst : ((a :: l) ++ rest).Nodup := q1.nodup_iff.1 nds
    have hal : a ∉ l := by
      have := (List.nodup_append.1 ndst).1
      exact (List.nodup_cons.1 this).1
    have hoth : ∀ (j : Nat) st, j ≠ i → h.stages[j]? = some st → a ∉ st := by
      intro j st hj hst hx
      have hcl : ((h.stages.set i []).flatten).Perm rest := by simpa using q2 []
      have : a ∈ rest := hcl.mem_iff.1 (List.mem_flatten.2 ⟨st, List.mem_of_getElem? (i := j) (by
        rw [List.getElem?_set, if_neg fun e => hj e.symm]; exact hst), hx⟩)
      exact (List.nodup_append.1 ndst).2.2 a (by simp) a this rfl
    refine ⟨q, _, hq, fun pick hpk => by unfold OSt.depleteStep; rw [hpk, hms], ?_⟩
    simp only [r.ck, r.dict, hl, hw]
    cases hd : decompressNext h.ck h.dict (h.heap a) with
    | none => trivial
    | some v =>
      obtain ⟨m, bf'⟩ := v
      simp only
      have hheap := inv.heaps hm (a :: l) (List.mem_of_getElem? hl)
      have hpop := popHeap_spec (key := tsOf (upd h.heap a bf')) (a := a) (l := l) (by
        intro j h1 h2 h3
        have hk1 : ∀ n, 1 ≤ n → keyAt (tsOf (upd h.heap a bf')) (a :: l) n = keyAt (tsOf h.heap) (a :: l) n := by
          intro n hn
          obtain ⟨n, rfl⟩ : ∃ n', n = n' + 1 := ⟨n - 1, by omega⟩
          unfold keyAt
          rw [List.getElem?_cons_succ]
          cases hx : l[n]? with
          | none => rfl
          | some x =>
            show (upd h.heap a bf' x).ts = (h.heap x).ts
            rw [upd_other _ _ fun e => hal (by subst e; exact List.mem_of_getElem? hx)]
        rw [hk1 _ h3, hk1 _ (by omega)]
        exact hheap j h1 (by simpa using h2) (Nat.zero_le _))
      obtain ⟨l', hl', hheap', hpl⟩ := hpop
      have hal' : a ∉ l' := fun hx => hal (hpl.mem_iff.1 hx)
      have hperm : (h.heap a :: w.eraseIdx k).Perm w := by
        have := List.getElem_cons_eraseIdx_perm hkl
        rwa [hka] at this
      have herase : (w.eraseIdx k).Perm (l.map h.heap) :=
        List.Perm.cons_inv (hperm.trans (by simpa using hpw.symm))
      have hnb1 : 1 ≤ h.nb := by omega
      have hlmap : ∀ b, l.map (upd h.heap a b) = l.map h.heap := fun b => map_upd_of_not_mem hal
      by_cases hmore : bf'.hasMore = true
      · simp only [hmore, if_true]
        refine exitCheck_agree (h := HSt.repair _ i a (a :: l)) 
          (o := { o with ck := h.ck, dict := h.dict, out := o.out ++ m.toList, stages := o.stages.set i (w.set k bf'), pool := o.pool, tick := o.tick + 1 })
          ?_ ?_ ?_ ?_ rfl
        all_goals simp only [HSt.repair, upd_same, hmore, if_true, hl']
        · refine ⟨r.file, r.good, rfl, rfl, ?_, ?_, r.nb, r.must, r.mode, ?_⟩
          · show o.pool = _
            rw [r.pool]; exact (map_upd_of_not_mem haf).symm
          · refine r.stages.setUpd hoth (fun x hx => upd_other _ _ hx) ?_
            have p1 := (pushHeap_spec (key := tsOf (upd h.heap a bf')) (a := a) hheap').2.map (upd h.heap a bf')
            refine p1.trans ?_
            simp only [List.map_cons, upd_same]
            refine .trans ?_ (List.set_perm_cons_eraseIdx hkl bf').symm
            refine .cons _ (.trans (hpl.map _) ?_)
            rw [hlmap]; exact herase.symm
          · show o.out ++ _ = _
            rw [r.out]
        · refine ⟨?_, by simp [inv.three], inv.nb, fun _ st hst => ?_, inv.atEof, ?_⟩
          · refine List.Perm.trans (.cons _ (.append_left _ (.append_left _ ?_))) inv.own
            refine (q2 _).trans (.trans (.append_right _ ?_) q1.symm)
            exact (pushHeap_spec (key := tsOf (upd h.heap a bf')) (a := a) hheap').2.trans (.cons _ hpl)
          · obtain ⟨j, hj⟩ := List.mem_iff_getElem?.1 hst
            rw [List.getElem?_set] at hj
            by_cases hij : i = j
            · subst hij
              simp only [if_true] at hj
              split at hj
              · simp only [Option.some.injEq] at hj
                subst hj
                exact (pushHeap_spec (key := tsOf (upd h.heap a bf')) (a := a) hheap').1
              · simp at hj
            · rw [if_neg hij] at hj
              refine (inv.heaps hm st (List.mem_of_getElem? hj)).congr fun x hx => ?_
              show (upd h.heap a bf' x).ts = (h.heap x).ts
              rw [upd_other _ _ fun (e : x = a) => hoth j st (fun e => hij e.symm) hj (e ▸ hx)]
          · intro he
            rcases he with he | he <;> exact absurd (hm.symm.trans he) (by simp)
        · exact hm
        · exact hnb1
      · simp only [Bool.not_eq_true] at hmore
        simp only [hmore, Bool.false_eq_true, if_false]
        refine exitCheck_agree (h := HSt.repair _ i a (a :: l)) 
          (o := { o with ck := h.ck, dict := h.dict, out := o.out ++ m.toList, stages := o.stages.set i (w.eraseIdx k), pool := o.pool ++ [bf'.reset], tick := o.tick + 1 })
          ?_ ?_ ?_ ?_ rfl
        all_goals simp only [HSt.repair, upd_same, hmore, Bool.false_eq_true, if_false, hl', List.dropLast_concat]
        · refine ⟨r.file, r.good, rfl, rfl, ?_, ?_, r.nb, r.must, r.mode, ?_⟩
          · show o.pool ++ _ = (h.free ++ [a]).map (upd (upd h.heap a bf') a bf'.reset)
            rw [r.pool, List.map_append, List.map_singleton, upd_same, map_upd_of_not_mem haf, map_upd_of_not_mem haf]
          · refine r.stages.setUpd hoth (fun x hx => (upd_other _ _ hx).trans (upd_other _ _ hx)) ?_
            show (l'.map (upd (upd h.heap a bf') a bf'.reset)).Perm _
            rw [map_upd_of_not_mem hal', map_upd_of_not_mem hal']
            exact (hpl.map _).trans herase.symm
          · show o.out ++ _ = _
            rw [r.out]
        · refine ⟨?_, by simp [inv.three], inv.nb, fun _ st hst => ?_, inv.atEof, ?_⟩
          · refine List.Perm.trans (.cons _ ?_) inv.own
            simp only [List.append_assoc]
            refine .append_left _ ?_
            show (a :: (h.lost ++ _)).Perm _
            refine .trans ?_ (.append_left _ q1.symm)
            refine .trans ?_ (List.perm_middle (a := a) (l₁ := h.lost) (l₂ := l ++ rest)).symm
            refine .cons _ (.append_left _ ?_)
            exact (q2 _).trans (.append_right _ hpl)
          · have hkey : ∀ x, x ≠ a → tsOf (upd (upd h.heap a bf') a bf'.reset) x = tsOf h.heap x := by
              intro x hx
              show (upd (upd h.heap a bf') a bf'.reset x).ts = (h.heap x).ts
              rw [upd_other _ _ hx, upd_other _ _ hx]
            obtain ⟨j, hj⟩ := List.mem_iff_getElem?.1 hst
            rw [List.getElem?_set] at hj
            by_cases hij : i = j
            · subst hij
              simp only [if_true] at hj
              split at hj
              · simp only [Option.some.injEq] at hj
                subst hj
                refine hheap'.congr fun x hx => ?_
                rw [hkey x fun e => hal' (e ▸ hx)]
                show (h.heap x).ts = (upd h.heap a bf' x).ts
                rw [upd_other _ _ fun (e : x = a) => hal' (e ▸ hx)]
              · simp at hj
            · rw [if_neg hij] at hj
              refine (inv.heaps hm st (List.mem_of_getElem? hj)).congr fun x hx => ?_
              exact hkey x fun e => hoth j st (fun e => hij e.symm) hj (e ▸ hx)
          · intro he
            rcases he with he | he <;> exact absurd (hm.symm.trans he) (by simp)
        · exact hm
        · exact hnb1

/-! ## Whole runs -/

theorem tick_endRead {s s' : OSt} {np : Bool} (h : s.endRead np = some s') : s'.tick = s.tick := by
  unfold OSt.endRead at h
  simp only at h
  split at h
  · simp at h
  · simp only [Option.some.injEq] at h; subst h; rfl

/-- The step depends on the oracle only at the present tick, which does not decrease. -/
theorem ostep_congr {cap : Nat} {p p' : Nat → List BufFrag → Nat} {s : OSt} (h : p s.tick = p' s.tick) :
    s.step cap p = s.step cap p' := by
  unfold OSt.step OSt.depleteStep
  rw [h]

theorem ostep_tick {cap : Nat} {p : Nat → List BufFrag → Nat} {s s' : OSt} (h : s.step cap p = some s') :
    s.tick ≤ s'.tick := by
  unfold OSt.step at h
  split at h
  · simp only [Option.some.injEq] at h; subst h; exact Nat.le_refl _
  · split at h <;> (simp only [Option.some.injEq] at h; subst h; exact Nat.le_refl _)
  · split at h
    · simp only [Option.some.injEq] at h; subst h; exact Nat.le_refl _
    · unfold OSt.readStep at h
      simp only at h
      split at h
      · split at h
        · simp at h
        · split at h
          · simp at h
          · rw [tick_endRead h]; exact Nat.le_refl _
      · split at h
        · simp at h
        · rw [tick_endRead h]; exact Nat.le_refl _
        · split at h
          · simp at h
          · rw [tick_endRead h]; exact Nat.le_refl _
      · split at h
        · simp at h
        · rw [tick_endRead h]; exact Nat.le_refl _
      · rw [tick_endRead h]; exact Nat.le_refl _
  · unfold OSt.depleteStep at h
    split at h
    · simp only [Option.some.injEq] at h; subst h; exact Nat.le_refl _
    · split at h
      · simp only at h
        split at h
        · simp at h
        · simp only [Option.some.injEq] at h; subst h; exact Nat.le_succ _
        · simp only [Option.some.injEq] at h; subst h; exact Nat.le_succ _
      · simp at h

theorem oloop_congr {cap : Nat} {p p' : Nat → List BufFrag → Nat} (n : Nat) {s : OSt}
    (h : ∀ t, s.tick ≤ t → p t = p' t) : OSt.loop cap p n s = OSt.loop cap p' n s := by
  induction n generalizing s with
  | zero => rfl
  | succ n ih =>
    simp only [OSt.loop]
    rw [ostep_congr (h _ (Nat.le_refl _))]
    cases hs : s.step cap p' with
    | none => rfl
    | some s' =>
      simp only
      rw [ih fun t ht => h t (Nat.le_trans (ostep_tick hs) ht)]

/-- One step. -/
theorem hstep_agree {cap : Nat} {h : HSt} {o : OSt} (r : HRel h o) (inv : h.Inv) :
    (∃ res, (∀ pick, Picks pick → o.step cap pick = res) ∧ Agree (h.step cap) res o.tick) ∨
    ∃ p res, (Picks fun _ => p) ∧ (∀ pick, pick o.tick = p → o.step cap pick = res) ∧
      Agree (h.step cap) res (o.tick + 1) := by
  unfold HSt.step OSt.step
  rw [r.mode]
  cases hm : h.mode with
  | done => exact .inl ⟨_, fun _ _ => rfl, r, inv, rfl⟩
  | outer =>
    by_cases hc : h.file.eof = true ∨ h.good = false
    · refine .inl ⟨_, fun _ _ => if_pos (by rw [r.file, r.good]; exact hc), ?_⟩
      simp only [if_pos hc]
      exact ⟨⟨r.file, r.good, r.ck, r.dict, r.pool, r.stages, r.nb, r.must, rfl, r.out⟩,
        ⟨inv.own, inv.three, inv.nb, fun he => by simp at he, fun he => by simp at he,
          fun _ he => inv.atEnd (.inl hm) he⟩, rfl⟩
    · refine .inl ⟨_, fun _ _ => if_neg (by rw [r.file, r.good]; exact hc), ?_⟩
      simp only [if_neg hc]
      refine ⟨⟨r.file, r.good, r.ck, r.dict, r.pool, r.stages, r.nb, rfl, rfl, r.out⟩,
        ⟨inv.own, inv.three, inv.nb, fun he => by simp at he, fun _ he => ?_, fun he => by simp at he⟩, rfl⟩
      exact absurd (.inl he) hc
  | read =>
    by_cases hc : h.file.eof = true ∨ h.good = false ∨ h.must = true
    · refine .inl ⟨_, fun _ _ => if_pos (by rw [r.file, r.good, r.must]; exact hc), ?_⟩
      simp only [if_pos hc]
      refine ⟨⟨r.file, r.good, r.ck, r.dict, r.pool, r.stages.map fun l => (makeHeap_spec l).2, r.nb, r.must, rfl, r.out⟩,
        ⟨inv.own.heapify _, by simp [HSt.heapify, inv.three], inv.nb, fun _ st hst => ?_,
          fun _ he => inv.atEof (.inl hm) he, fun he => by simp [HSt.heapify] at he⟩, rfl⟩
      obtain ⟨l, -, rfl⟩ := List.mem_map.1 hst
      exact (makeHeap_spec l).1
    · refine .inl ⟨_, fun _ _ => if_neg (by rw [r.file, r.good, r.must]; exact hc), ?_⟩
      simp only [if_neg hc]
      exact readStep_agree r inv hm
  | deplete => exact deplete_agree r inv hm

/-- Results of a run agree. -/
def AgreeEnd (h : Option HSt) (o : Option OSt) : Prop :=
  match h, o with
  | none, none => True
  | some h, some o => HRel h o ∧ h.Inv
  | _, _ => False

theorem hloop_agree {cap : Nat} {dflt : Nat → List BufFrag → Nat} (hd : Picks dflt) (n : Nat) {h : HSt} {o : OSt}
    (r : HRel h o) (inv : h.Inv) :
    ∃ pick, Picks pick ∧ AgreeEnd (HSt.loop cap n h) (OSt.loop cap pick n o) := by
  induction n generalizing h o with
  | zero => exact ⟨dflt, hd, r, inv⟩
  | succ n ih =>
    simp only [HSt.loop, OSt.loop]
    by_cases hm : h.mode = .done
    · exact ⟨dflt, hd, by simpa [hm, r.mode] using show AgreeEnd (some h) (some o) from ⟨r, inv⟩⟩
    · simp only [hm, r.mode, if_false]
      rcases hstep_agree (cap := cap) r inv with ⟨res, e1, e2⟩ | ⟨p, res, hp, e1, e2⟩
      · cases hs : h.step cap with
        | none =>
          rw [hs] at e2
          cases res with
          | none => exact ⟨dflt, hd, by rw [e1 _ hd]; trivial⟩
          | some _ => exact absurd e2 (by simp [Agree])
        | some h' =>
          rw [hs] at e2
          cases res with
          | none => exact absurd e2 (by simp [Agree])
          | some o' =>
            obtain ⟨r', inv', -⟩ := e2
            obtain ⟨pick, hpk, ha⟩ := ih r' inv'
            exact ⟨pick, hpk, by rw [e1 _ hpk]; exact ha⟩
      · cases hs : h.step cap with
        | none =>
          rw [hs] at e2
          cases res with
          | none => exact ⟨fun _ => p, hp, by rw [e1 _ rfl]; trivial⟩
          | some _ => exact absurd e2 (by simp [Agree])
        | some h' =>
          rw [hs] at e2
          cases res with
          | none => exact absurd e2 (by simp [Agree])
          | some o' =>
            obtain ⟨r', inv', ht⟩ := e2
            obtain ⟨pick, hpk, ha⟩ := ih r' inv'
            refine ⟨fun t => if t = o.tick then p else pick t, fun t l hl => ?_, ?_⟩
            · by_cases ht : t = o.tick
              · simpa [ht] using hp t l hl
              · simpa [ht] using hpk t l hl
            · rw [e1 _ (by simp)]
              simp only
              rw [oloop_congr n (p' := pick) fun t htt => ?_]
              · exact ha
              · have : t ≠ o.tick := by omega
                simp [this]

/-- The fragments of a decoder between calls: one place each. -/
def Objs.Own (o : Objs) : Prop := (0 :: (o.free ++ o.lost)).Perm (List.range o.next)

theorem startHeap_rel {s : Dec} {o : Objs} (h : o.Own) :
    HRel (s.startHeap o) (s.startOrdered (o.free.map o.heap)) ∧ (s.startHeap o).Inv := by
  refine ⟨⟨rfl, rfl, rfl, rfl, rfl, ⟨rfl, fun i st st' h1 h2 => by
    have h1 := List.mem_of_getElem? h1
    have h2 := List.mem_of_getElem? h2
    simp only [Dec.startHeap, Dec.startOrdered, List.mem_cons, List.not_mem_nil, or_false, or_self] at h1 h2
    subst h1 h2; exact .refl _⟩, rfl, rfl, rfl, rfl⟩,
    ⟨by simpa [Owned, Dec.startHeap, Objs.Own] using h, rfl, Nat.zero_le _, fun he => by simp [Dec.startHeap] at he,
      fun he => by simp [Dec.startHeap] at he, fun _ _ => rfl⟩⟩

end NanoLog
