import Verif.DecHeapLemmas
import Verif.Props.Ordered

/-!
# C70 Ordered decompression with pointers and heaps

`Verif.DecHeap` models `decompressTo` with fragments as objects, vectors of pointers, the free
list, and the heap functions of the library.  It prints what C25-C27 promise, and no fragment
is ever in two places.
-/

namespace NanoLog

/-! ## Frame of a step -/

/-- Every object has storage of `cap` bytes. -/
def Full (cap : Nat) (heap : Nat → BufFrag) (next : Nat) : Prop := ∀ a < next, (heap a).stor.length = cap

/-- What a step may change. -/
structure Frame (cap : Nat) (h h' : HSt) : Prop where
  zero : h'.heap 0 = h.heap 0
  full : Full cap h.heap h.next → Full cap h'.heap h'.next
  lost : h'.good = true → h.good = true ∧ h'.lost = h.lost

theorem overlay_within {new old : List Byte} (h : new.length ≤ old.length) : (overlay new old).length = old.length := by
  unfold overlay; simp; omega

theorem readBufferExtent_stor {bf bf' : BufFrag} {f f' : FileSt} {ok np : Bool} (h5 : 5 ≤ bf.stor.length)
    (h : readBufferExtent bf f = some (ok, np, bf', f')) : bf'.stor.length = bf.stor.length := by
  unfold readBufferExtent at h
  rcases hr : f.read 5 with ⟨hdr, f1⟩
  have hl5 : hdr.length ≤ 5 := by have := read_length_le 5 f; rwa [hr] at this
  rw [hr] at h
  simp only at h
  cases hdr with
  | nil =>
    simp only [Option.some.injEq, Prod.mk.injEq] at h
    obtain ⟨-, -, rfl, -⟩ := h; rfl
  | cons b lenB =>
    simp only at h
    split at h
    · simp only [Option.some.injEq, Prod.mk.injEq] at h
      obtain ⟨-, -, rfl, -⟩ := h
      exact overlay_within (by omega)
    · rename_i hc
      simp only [not_or, Nat.not_lt] at hc
      split at h
      · simp at h
      · rcases hr2 : f1.read (unle lenB - 5) with ⟨body, f2⟩
        have hl : body.length ≤ unle lenB - 5 := by have := read_length_le (unle lenB - 5) f1; rwa [hr2] at this
        rw [hr2] at h
        simp only at h
        have htot : (b :: lenB ++ body).length ≤ bf.stor.length := by
          rw [List.length_append]; omega
        split at h
        · simp only [Option.some.injEq, Prod.mk.injEq] at h
          obtain ⟨-, -, rfl, -⟩ := h
          exact overlay_within htot
        · split at h
          · simp at h
          · rename_i ok' bf'' hs
            simp only [Option.some.injEq, Prod.mk.injEq] at h
            obtain ⟨-, -, rfl, -⟩ := h
            unfold BufFrag.start at hs
            have hov := overlay_within htot
            revert hs
            simp only
            repeat' split
            all_goals intro hs
            all_goals first
              | (simp at hs; done)
              | (simp only [Option.some.injEq, Prod.mk.injEq] at hs
                 obtain ⟨-, rfl⟩ := hs
                 exact hov)

theorem decompressNext_stor {ck : Checkpoint} {d : Dict} {bf bf' : BufFrag} {m : Option OutMsg}
    (h : decompressNext ck d bf = some (m, bf')) : bf'.stor = bf.stor := by
  unfold decompressNext at h
  revert h
  simp only
  repeat' split
  all_goals intro h
  all_goals first
    | (simp at h; done)
    | (simp only [Option.some.injEq, Prod.mk.injEq] at h
       obtain ⟨-, rfl⟩ := h; rfl)

theorem endRead_frame {h h' : HSt} {np : Bool} (e : h.endRead np = some h') :
    h'.heap = h.heap ∧ h'.next = h.next ∧ h'.lost = h.lost ∧ h'.good = h.good := by
  unfold HSt.endRead at e
  simp only at e
  split at e
  · simp at e
  · simp only [Option.some.injEq] at e
    subst e
    split <;> split <;> exact ⟨rfl, rfl, rfl, rfl⟩

theorem Full.upd {cap : Nat} {heap : Nat → BufFrag} {next : Nat} (h : Full cap heap next) {a : Nat} {b : BufFrag}
    (hb : b.stor.length = cap) : Full cap (upd heap a b) next := by
  intro x hx
  by_cases hxa : x = a
  · subst hxa; rw [upd_same]; exact hb
  · rw [upd_other _ _ hxa]; exact h x hx

theorem readStep_frame {cap : Nat} (h5 : 5 ≤ cap) {h h' : HSt} (inv : h.Inv) (hg : h.good = true)
    (e : h.readStep cap = some h') : Frame cap h h' := by
  unfold HSt.readStep at e
  rcases hpk : h.file.peek with ⟨ty, f⟩
  rw [hpk] at e
  simp only at e
  cases ty with
  | extent =>
    simp only at e
    rcases ha : h.alloc cap with ⟨a, h1⟩
    obtain ⟨e1, -, e3, -, -, e6⟩ := alloc_spec ha inv.own
    rw [ha] at e
    simp only at e
    have e1l : h1.lost = h.lost := by rw [e1]
    have halt : a < h1.next := List.mem_range.1 (e3.mem_iff.1 (by simp))
    have ha0 : (0 : Nat) ≠ a := by
      have nd := (List.nodup_cons.1 (e3.nodup_iff.2 List.nodup_range)).1
      rintro rfl; exact nd (by simp)
    have hfull : Full cap h.heap h.next → Full cap h1.heap h1.next := by
      intro hf
      unfold HSt.alloc at ha
      split at ha
      · simp only [Prod.mk.injEq] at ha
        obtain ⟨-, rfl⟩ := ha; exact hf
      · simp only [Prod.mk.injEq] at ha
        obtain ⟨-, rfl⟩ := ha
        intro x hx
        show (NanoLog.upd h.heap h.next _ x).stor.length = cap
        by_cases hxn : x = h.next
        · rw [hxn, upd_same]; simp [BufFrag.init]
        · rw [upd_other _ _ hxn]
          have hx : x < h.next + 1 := hx
          exact hf x (by omega)
    cases hr : readBufferExtent (h1.heap a) f with
    | none => rw [hr] at e; simp at e
    | some v =>
      obtain ⟨ok, np, bf, f1⟩ := v
      rw [hr] at e
      simp only at e
      have hst : Full cap h.heap h.next → Full cap (upd h1.heap a bf) h1.next := fun hf => by
        have hs := hfull hf a halt
        exact (hfull hf).upd (by rw [readBufferExtent_stor (by omega) hr, hs])
      have hz : upd h1.heap a bf 0 = h.heap 0 := by rw [upd_other _ _ ha0, e6]
      cases ok with
      | true =>
        simp only [if_true] at e
        split at e
        · simp at e
        · obtain ⟨g1, g2, g3, g4⟩ := endRead_frame e
          simp only at g1 g2 g3
          exact ⟨by rw [g1]; exact hz, by rw [g1, g2]; exact hst, fun _ => ⟨hg, g3.trans e1l⟩⟩
      | false =>
        simp only [Bool.false_eq_true, if_false] at e
        obtain ⟨g1, g2, g3, g4⟩ := endRead_frame e
        simp only at g1 g2 g4
        exact ⟨by rw [g1]; exact hz, by rw [g1, g2]; exact hst, fun hx => by rw [g4] at hx; simp at hx⟩
  | checkpoint =>
    simp only at e
    split at e
    · simp at e
    · obtain ⟨g1, g2, g3, -⟩ := endRead_frame e
      exact ⟨by rw [g1], by rw [g1, g2]; exact id, fun _ => ⟨hg, g3⟩⟩
    · split at e
      · simp at e
      · obtain ⟨g1, g2, g3, -⟩ := endRead_frame e
        exact ⟨by rw [g1], by rw [g1, g2]; exact id, fun _ => ⟨hg, g3⟩⟩
  | dict =>
    simp only at e
    split at e
    · simp at e
    · obtain ⟨g1, g2, g3, -⟩ := endRead_frame e
      exact ⟨by rw [g1], by rw [g1, g2]; exact id, fun _ => ⟨hg, g3⟩⟩
  | invalid =>
    obtain ⟨g1, g2, g3, -⟩ := endRead_frame e
    exact ⟨by rw [g1], by rw [g1, g2]; exact id, fun _ => ⟨hg, g3⟩⟩

theorem exitCheck_frame {h h' : HSt} (e : h.exitCheck = some h') :
    h'.heap = h.heap ∧ h'.next = h.next ∧ h'.lost = h.lost ∧ h'.good = h.good := by
  unfold HSt.exitCheck at e
  split at e
  · simp at e
  · simp only [Option.some.injEq] at e; subst e; exact ⟨rfl, rfl, rfl, rfl⟩
  · split at e
    · simp at e
    · simp only [Option.some.injEq] at e; subst e; exact ⟨rfl, rfl, rfl, rfl⟩

theorem hstep_frame {cap : Nat} (h5 : 5 ≤ cap) {h h' : HSt} (inv : h.Inv) (e : h.step cap = some h') :
    Frame cap h h' := by
  unfold HSt.step at e
  cases hm : h.mode with
  | done =>
    rw [hm] at e
    simp only [Option.some.injEq] at e; subst e
    exact ⟨rfl, id, fun hg => ⟨hg, rfl⟩⟩
  | outer =>
    rw [hm] at e
    simp only at e
    split at e <;> (simp only [Option.some.injEq] at e; subst e; exact ⟨rfl, id, fun hg => ⟨hg, rfl⟩⟩)
  | read =>
    rw [hm] at e
    simp only at e
    split at e
    · simp only [Option.some.injEq] at e; subst e
      exact ⟨rfl, id, fun hg => ⟨hg, rfl⟩⟩
    · rename_i hc
      simp only [not_or, Bool.not_eq_false] at hc
      exact readStep_frame h5 inv hc.2.1 e
  | deplete =>
    rw [hm] at e
    simp only at e
    unfold HSt.depleteStep at e
    have hgo := minFront_go [] (h.stages.take h.nb) none
      (fun st hst => inv.heaps hm st (List.mem_of_mem_take hst)) (by simp)
    simp only [List.length_nil, List.nil_append] at hgo
    split at e
    · simp only [Option.some.injEq] at e; subst e
      exact ⟨rfl, id, fun hg => ⟨hg, rfl⟩⟩
    · rename_i i a hmf
      rw [hmf] at hgo
      obtain ⟨⟨l, hl⟩, -⟩ := hgo
      have ha0 : (0 : Nat) ≠ a := by
        have nd := (List.nodup_cons.1 inv.own.nodup).1
        rintro rfl
        refine nd ?_
        simp only [List.mem_append]
        exact .inr (.inr (List.mem_flatten.2 ⟨_, List.mem_of_mem_take (List.mem_of_getElem? hl), by simp⟩))
      have halt : a < h.next := by
        refine List.mem_range.1 (inv.own.mem_iff.1 ?_)
        simp only [List.mem_cons, List.mem_append]
        exact .inr (.inr (.inr (List.mem_flatten.2 ⟨_, List.mem_of_mem_take (List.mem_of_getElem? hl), by simp⟩)))
      split at e
      · rename_i m bf' st hd hst
        have hs := decompressNext_stor hd
        obtain ⟨g1, g2, g3, g4⟩ := exitCheck_frame e
        unfold HSt.repair at g1 g2 g3 g4
        simp only [upd_same] at g1 g2 g3 g4
        split at g1
        · rename_i hmore
          rw [if_pos hmore] at g2 g3 g4
          simp only at g1 g2 g3 g4
          refine ⟨by rw [g1, upd_other _ _ ha0], fun hf => ?_, fun hg => ⟨g4 ▸ hg, g3⟩⟩
          rw [g1, g2]
          exact hf.upd (by rw [hs]; exact hf a halt)
        · rename_i hmore
          rw [if_neg hmore] at g2 g3 g4
          simp only at g1 g2 g3 g4
          refine ⟨by rw [g1, upd_other _ _ ha0, upd_other _ _ ha0], fun hf => ?_, fun hg => ⟨g4 ▸ hg, g3⟩⟩
          rw [g1, g2]
          exact (hf.upd (by rw [hs]; exact hf a halt)).upd (by
            show bf'.stor.length = cap
            rw [hs]; exact hf a halt)
      · simp at e

theorem hstep_inv {cap : Nat} {h h' : HSt} {o : OSt} (r : HRel h o) (inv : h.Inv) (e : h.step cap = some h') :
    h'.Inv ∧ ∃ o', HRel h' o' := by
  rcases hstep_agree (cap := cap) r inv with ⟨res, -, e2⟩ | ⟨p, res, -, -, e2⟩
  all_goals
    rw [e] at e2
    cases res with
    | none => exact absurd e2 (by simp [Agree])
    | some o' => exact ⟨e2.2.1, o', e2.1⟩

theorem hloop_frame {cap : Nat} (h5 : 5 ≤ cap) (n : Nat) {h h' : HSt} {o : OSt} (r : HRel h o) (inv : h.Inv)
    (e : HSt.loop cap n h = some h') : Frame cap h h' := by
  induction n generalizing h o with
  | zero =>
    simp only [HSt.loop, Option.some.injEq] at e
    subst e
    exact ⟨rfl, id, fun hg => ⟨hg, rfl⟩⟩
  | succ n ih =>
    simp only [HSt.loop] at e
    split at e
    · simp only [Option.some.injEq] at e
      subst e
      exact ⟨rfl, id, fun hg => ⟨hg, rfl⟩⟩
    · split at e
      · simp at e
      · rename_i h1 hs
        obtain ⟨i1, o1, r1⟩ := hstep_inv r inv hs
        have f1 := hstep_frame h5 inv hs
        have f2 := ih r1 i1 e
        exact ⟨f2.zero.trans f1.zero, fun hf => f2.full (f1.full hf), fun hg => by
          obtain ⟨q1, q2⟩ := f2.lost hg
          obtain ⟨q3, q4⟩ := f1.lost q1
          exact ⟨q3, q2.trans q4⟩⟩

theorem mode_endRead {s s' : OSt} {np : Bool} (h : s.endRead np = some s') : s'.mode ≠ .done := by
  unfold OSt.endRead at h
  simp only at h
  split at h
  · simp at h
  · simp only [Option.some.injEq] at h
    subst h
    show (if _ then OMode.deplete else OMode.read) ≠ _
    split <;> split <;> simp

/-- The loop ends only at the end of the file or after an error. -/
theorem ostep_done {cap : Nat} {p : Nat → List BufFrag → Nat} {s s' : OSt} (hd : s.mode ≠ .done)
    (h : s.step cap p = some s') (hm : s'.mode = .done) : s'.terminal := by
  unfold OSt.step at h
  split at h
  · rename_i hx; exact absurd hx hd
  · split at h
    · rename_i hc
      simp only [Option.some.injEq] at h; subst h; exact hc
    · simp only [Option.some.injEq] at h; subst h; simp at hm
  · split at h
    · simp only [Option.some.injEq] at h; subst h; simp at hm
    · unfold OSt.readStep at h
      simp only at h
      split at h
      · split at h
        · simp at h
        · split at h
          · simp at h
          · exact absurd hm (mode_endRead h)
      · split at h
        · simp at h
        · exact absurd hm (mode_endRead h)
        · split at h
          · simp at h
          · exact absurd hm (mode_endRead h)
      · split at h
        · simp at h
        · exact absurd hm (mode_endRead h)
      · exact absurd hm (mode_endRead h)
  · unfold OSt.depleteStep at h
    split at h
    · simp only [Option.some.injEq] at h; subst h; simp at hm
    · split at h
      · simp only at h
        split at h
        · simp at h
        · simp only [Option.some.injEq] at h; subst h; exact absurd hm hd
        · simp only [Option.some.injEq] at h; subst h
          exact absurd hm (by show (if _ then OMode.deplete else OMode.outer) ≠ _; split <;> simp)
      · simp at h

theorem oloop_ok {cap : Nat} {p : Nat → List BufFrag → Nat} (hp : Picks p) (n : Nat) {s s' : OSt} (hi : s.Ok cap)
    (ht : s.mode = .done → s.terminal) (h : OSt.loop cap p n s = some s') :
    s'.Ok cap ∧ (s'.mode = .done → s'.terminal) := by
  induction n generalizing s with
  | zero =>
    simp only [OSt.loop, Option.some.injEq] at h
    subst h; exact ⟨hi, ht⟩
  | succ n ih =>
    rw [OSt.loop] at h
    split at h
    · simp only [Option.some.injEq] at h
      subst h; exact ⟨hi, ht⟩
    · rename_i hd
      split at h
      · simp at h
      · rename_i s1 hs
        exact ih (ostep_ok hp hi hd hs).1 (ostep_done hd hs) h

/-! ## Decoders in use -/

/-- The objects of a decoder after any number of decompressions of any files: a new decoder
(runtime/Log.cc:600-632); ordered decompression (`decompressTo`, 1816-1967, for any decoder
state); unordered decompression, which takes a fragment from the free list or allocates one,
leaves some contents in it and puts it back (`internalDecompressUnordered`, 1733 and 1780);
iteration, which uses `bufferFragment` (1976-2055).  `open` (643-708) does not touch fragments. -/
inductive Used (cap : Nat) : Objs → Prop
  | new : Used cap (Objs.new cap)
  | ordered {o : Objs} {h : HSt} (hu : Used cap o) (s : Dec) (e : s.orderedHeap cap o = some h) :
      Used cap h.objs
  | reuse {o : Objs} {fs : List Nat} {a : Nat} {bf : BufFrag} (hu : Used cap o) (hf : o.free = fs ++ [a])
      (hb : bf.stor.length = cap) : Used cap { o with heap := upd o.heap a bf }
  | alloc {o : Objs} {bf : BufFrag} (hu : Used cap o) (hf : o.free = []) (hb : bf.stor.length = cap) :
      Used cap { o with heap := upd o.heap o.next bf, next := o.next + 1, free := [o.next] }
  | iter {o : Objs} {bf : BufFrag} (hu : Used cap o) (hb : bf.stor.length = cap) :
      Used cap { o with heap := upd o.heap 0 bf }

theorem picks_exist : ∃ p : Nat → List BufFrag → Nat, Picks p := ⟨_, firstMin_picks⟩

/-- What the simulation gives for a whole call. -/
theorem ordered_agree {cap : Nat} (s : Dec) {o : Objs} (ho : o.Own) :
    ∃ pick, Picks pick ∧ AgreeEnd (s.orderedHeap cap o) (s.ordered cap (o.free.map o.heap) pick) := by
  obtain ⟨r, inv⟩ := startHeap_rel (s := s) ho
  exact hloop_agree firstMin_picks _ r inv

theorem Used.ok {cap : Nat} (h5 : 5 ≤ cap) {o : Objs} (hu : Used cap o) : o.Own ∧ Full cap o.heap o.next := by
  induction hu with
  | new =>
    refine ⟨by simp [Objs.Own, Objs.new, List.range_succ], fun a _ => ?_⟩
    simp [Objs.new, BufFrag.init]
  | @ordered o h hu s e ih =>
    obtain ⟨r, inv⟩ := startHeap_rel (s := s) ih.1
    obtain ⟨pick, hp, ha⟩ := ordered_agree (cap := cap) s ih.1
    rw [e] at ha
    cases ho : s.ordered cap (o.free.map o.heap) pick with
    | none => rw [ho] at ha; exact ha.elim
    | some o' =>
      rw [ho] at ha
      exact ⟨ha.2.own, (hloop_frame h5 _ r inv e).full ih.2⟩
  | reuse hu hf hb ih => exact ⟨ih.1, ih.2.upd hb⟩
  | @alloc o bf hu hf hb ih =>
    refine ⟨?_, fun a ha => ?_⟩
    · have h1 := ih.1
      rw [Objs.Own, hf] at h1
      have := h1.append_right [o.next]
      rw [Objs.Own, List.range_succ]
      refine List.Perm.trans ?_ this
      simp only [List.nil_append, List.cons_append]
      exact .cons _ (List.perm_append_comm (l₁ := [o.next]))
    · have ha : a < o.next + 1 := ha
      show (upd o.heap o.next bf a).stor.length = cap
      by_cases hx : a = o.next
      · rw [hx, upd_same]; exact hb
      · rw [upd_other _ _ hx]; exact ih.2 a (by omega)
  | iter hu hb ih => exact ⟨ih.1, ih.2.upd hb⟩

theorem Used.pool {cap : Nat} (h5 : 5 ≤ cap) {o : Objs} (hu : Used cap o) :
    ∀ bf ∈ o.free.map o.heap, bf.stor.length = cap := by
  intro bf hbf
  obtain ⟨a, ha, rfl⟩ := List.mem_map.1 hbf
  refine (hu.ok h5).2 a (List.mem_range.1 ((hu.ok h5).1.mem_iff.1 ?_))
  simp [ha]

/-! ## C70 -/

/-- **C70**, refinement: for every file and every used decoder, `decompressTo` with pointers,
free list and the library's heaps prints the same messages and ends in the same way as
`decompressTo` with vectors of fragments and an oracle that always picks a fragment with the
smallest time stamp (so every theorem about all oracles applies). -/
theorem C70_heaps {cap : Nat} (h5 : 5 ≤ cap) {o : Objs} (hu : Used cap o) (s : Dec) :
    ∃ pick, Picks pick ∧
      ((s.orderedHeap cap o = none ∧ s.ordered cap (o.free.map o.heap) pick = none) ∨
        ∃ h t, s.orderedHeap cap o = some h ∧ s.ordered cap (o.free.map o.heap) pick = some t ∧
          h.out = t.out ∧ h.good = t.good ∧ h.mode = .done ∧ t.mode = .done) := by
  obtain ⟨pick, hp, ha⟩ := ordered_agree (cap := cap) s (hu.ok h5).1
  refine ⟨pick, hp, ?_⟩
  cases h1 : s.orderedHeap cap o with
  | none =>
    cases h2 : s.ordered cap (o.free.map o.heap) pick with
    | none => exact .inl ⟨rfl, rfl⟩
    | some t => rw [h1, h2] at ha; exact ha.elim
  | some h =>
    cases h2 : s.ordered cap (o.free.map o.heap) pick with
    | none => rw [h1, h2] at ha; exact ha.elim
    | some t =>
      rw [h1, h2] at ha
      have hd := (C29_ordered_terminates_partial hp s (hu.pool h5) 0).2 t h2
      exact .inr ⟨h, t, rfl, rfl, ha.1.out.symm, ha.1.good.symm, ha.1.mode ▸ hd, hd⟩

/-- **C70**, messages (C25 with pointers and heaps): whatever the decoder was used for before,
ordered decompression of a file with one execution ends normally and prints each message
exactly once, those of an extent in order.  For files with several executions see
`C25_appended_false`. -/
theorem C70_messages_partial {cfg c all ops st ns ms} (h : FileRun cfg c all ops st ns ms)
    (hno : ∀ op ∈ ops.tail, ∀ jk c all, op ≠ .start jk c all)
    {o : Objs} (hu : Used (cfg.staging + 9) o) (s0 : Dec) :
    ∃ s r F, s0.openFile st.contents = some (true, s) ∧
      s.orderedHeap (cfg.staging + 9) o = some r ∧ r.mode = .done ∧ r.good = true ∧
      ExecExts cfg c all ops F ∧ Merge (F.map Prod.snd) r.out ∧ r.out.Perm ms := by
  have hs := (C25_ordered_partial h hno firstMin_picks (hu.pool (by omega)) s0)
  obtain ⟨s, -, -, q1, -⟩ := hs
  obtain ⟨pick, hp, hr⟩ := C70_heaps (by omega) hu s
  obtain ⟨s', t, F, p1, p2, p3, p4, p5, p6, p7⟩ := C25_ordered_partial h hno hp (hu.pool (by omega)) s0
  rw [q1] at p1
  simp only [Option.some.injEq, Prod.mk.injEq, true_and] at p1
  subst p1
  rcases hr with ⟨-, e⟩ | ⟨r, t', e1, e2, e3, e4, e5, -⟩
  · rw [p2] at e; simp at e
  · rw [p2] at e2
    simp only [Option.some.injEq] at e2
    subst e2
    exact ⟨s, r, F, q1, e1, e5, e4.trans p4, p5, e3 ▸ p6, e3 ▸ p7⟩

/-- **C70**, order (C26 with pointers and heaps): under the conditions of
`C26_chronological_partial` the messages come out in time order.  Without them the claim is
false of the code (`C26_false`). -/
theorem C70_chronological_partial {cfg c all ops st ns ms F}
    (h : FileRun cfg c all ops st ns ms) (hF : ExecExts cfg c all ops F)
    (hc : ∀ e ∈ F, Chrono e.2) (ha : Apart 3 (stagesOf [] F)) (hpr : Progress (stagesOf [] F))
    (hne : ∀ e ∈ F, e.2 ≠ []) {o : Objs} (hu : Used (cfg.staging + 9) o) (s0 : Dec) :
    ∃ s r, s0.openFile st.contents = some (true, s) ∧
      s.orderedHeap (cfg.staging + 9) o = some r ∧ r.mode = .done ∧ r.good = true ∧
      r.out.Perm ms ∧ Chrono r.out := by
  have hs := C26_chronological_partial h hF hc ha hpr firstMin_picks (hu.pool (by omega)) (.inr hne) s0
  obtain ⟨s, -, q1, -⟩ := hs
  obtain ⟨pick, hp, hr⟩ := C70_heaps (by omega) hu s
  obtain ⟨s', t, p1, p2, p3, p4, p5, p6⟩ :=
    C26_chronological_partial h hF hc ha hpr hp (hu.pool (by omega)) (.inr hne) s0
  rw [q1] at p1
  simp only [Option.some.injEq, Prod.mk.injEq, true_and] at p1
  subst p1
  rcases hr with ⟨-, e⟩ | ⟨r, t', e1, e2, e3, e4, e5, -⟩
  · rw [p2] at e; simp at e
  · rw [p2] at e2
    simp only [Option.some.injEq] at e2
    subst e2
    exact ⟨s, r, q1, e1, e5, e4.trans p4, e3 ▸ p5, e3 ▸ p6⟩

/-- **C70**, ownership: whatever the decoder was used for (any files, also damaged ones), the
destructor deletes no fragment twice, it deletes only fragments that were allocated, and never
`bufferFragment`, which the iteration uses. -/
theorem C70_deleted_once {cap : Nat} (h5 : 5 ≤ cap) {o : Objs} (hu : Used cap o) :
    o.deleted.Nodup ∧ (∀ a ∈ o.deleted, a < o.next) ∧ 0 ∉ o.deleted := by
  have ho := (hu.ok h5).1
  have nd : (0 :: (o.free ++ o.lost)).Nodup := ho.nodup_iff.2 List.nodup_range
  obtain ⟨n0, n1⟩ := List.nodup_cons.1 nd
  exact ⟨(List.nodup_append.1 n1).1, fun a ha => List.mem_range.1 (ho.mem_iff.1 (by
    have : a ∈ o.free := ha
    simp [this])), fun h => n0 (by have : 0 ∈ o.free := h; simp [this])⟩

/-- **C70**: at every moment of ordered decompression each fragment is in one place: it is
`bufferFragment`, or once in the free list, or once in one stage, or lost; and ordered
decompression does not change `bufferFragment`. -/
theorem C70_one_place {cap : Nat} (h5 : 5 ≤ cap) {o : Objs} (hu : Used cap o) (s : Dec) (n : Nat) {h : HSt}
    (e : HSt.loop cap n (s.startHeap o) = some h) :
    (0 :: (h.free ++ (h.lost ++ h.stages.flatten))).Nodup ∧
      (∀ a, a ∈ 0 :: (h.free ++ (h.lost ++ h.stages.flatten)) ↔ a < h.next) ∧ h.heap 0 = o.heap 0 := by
  obtain ⟨r, inv⟩ := startHeap_rel (s := s) (hu.ok h5).1
  obtain ⟨pick, hp, ha⟩ := hloop_agree (cap := cap) firstMin_picks n r inv
  rw [e] at ha
  cases ho : OSt.loop cap pick n (s.startOrdered (o.free.map o.heap)) with
  | none => rw [ho] at ha; exact ha.elim
  | some o' =>
    rw [ho] at ha
    exact ⟨ha.2.own.nodup, fun a => by rw [ha.2.own.mem_iff, List.mem_range],
      (hloop_frame h5 n r inv e).zero⟩

/-- **C70**, all returned: if the file was read to its end without error, all fragments taken by
`decompressTo` are in the free list when it returns.  Missing: damaged files, for which it is
false (`C70_damaged_false`). -/
theorem C70_returned_partial {cap : Nat} (h5 : 5 ≤ cap) {o : Objs} (hu : Used cap o) {s : Dec} {h : HSt}
    (e : s.orderedHeap cap o = some h) (hg : h.good = true) :
    h.objs.lost = o.lost ∧ (0 :: (h.free ++ o.lost)).Perm (List.range h.next) := by
  obtain ⟨r, inv⟩ := startHeap_rel (s := s) (hu.ok h5).1
  obtain ⟨pick, hp, ha⟩ := ordered_agree (cap := cap) s (hu.ok h5).1
  have hl := ((hloop_frame h5 _ r inv e).lost hg).2
  rw [e] at ha
  cases ho : s.ordered cap (o.free.map o.heap) pick with
  | none => rw [ho] at ha; exact ha.elim
  | some t =>
    rw [ho] at ha
    obtain ⟨hr, hi⟩ := ha
    have hd := (C29_ordered_terminates_partial hp s (hu.pool h5) 0).2 t ho
    have hok : t.Ok cap ∧ (t.file.eof = true ∨ t.good = false) := by
      obtain ⟨k1, -⟩ := startOrdered_ok (cap := cap) s (room_of_stor (hu.pool h5))
      obtain ⟨k3, k4⟩ := oloop_ok hp _ k1 (by simp [Dec.startOrdered]) ho
      exact ⟨k3, k4 hd⟩
    have he : h.file.eof = true := by
      rcases hok.2 with hx | hx
      · rw [← hr.file]; exact hx
      · rw [hr.good, hg] at hx; simp at hx
    have hnb := hi.atEnd (.inr (hr.mode ▸ hd)) he
    have hemp := hok.1.beyond' (by simp [hd])
    rw [hr.nb, hnb] at hemp
    have hst : h.stages.flatten = [] := by
      rw [List.flatten_eq_nil_iff]
      intro st hst
      obtain ⟨j, hj⟩ := List.mem_iff_getElem?.1 hst
      obtain ⟨st', h1, h2⟩ := hr.stages.get hj
      have := hemp j st' (Nat.zero_le _) h1
      subst this
      simpa using h2
    have hl : h.lost = o.lost := hl
    have hlost : h.objs.lost = o.lost := by simp [HSt.objs, hst, hl]
    refine ⟨hlost, ?_⟩
    have := hi.own
    rw [Owned, hst, List.append_nil, hl] at this
    exact this

/-! ## The conditions are met -/

/-- Ordered decompression of a file by a decoder with given objects: the times printed, `good`,
the free list, the lost fragments, the fragments left in the stages with the times of their
next messages, and the next address. -/
def heapRun (cfg : Config) (o : Objs) (file : List Byte) :
    Option (Bool × List (List Nat)) :=
  match (Dec.new (cfg.staging + 9)).openFile file with
  | some (true, s) =>
    match s.orderedHeap (cfg.staging + 9) o with
    | some h => if h.mode = .done then
        some (h.good, [h.out.map OutMsg.ts, h.free, h.lost, h.stages.flatten,
          h.stages.flatten.map (tsOf h.heap), [h.next]]) else none
    | none => none
  | _ => none

/-- The contents written in the examples. -/
def exContents (gs : List (Bool × List Nat)) : List Byte :=
  match EncSt.init.run exCfg (exTsOps exCk gs) with
  | some (st, _) => st.contents
  | none => []

/-- Five extents in one pass, with equal and unordered times, and one of the next pass. -/
def exHeapGs : List (Bool × List Nat) :=
  [(false, [30, 31]), (false, [10, 12]), (false, [10, 40]), (false, [5]), (true, [12, 13, 14]), (true, [11])]

/-- Six fragments are allocated and come back in the order in which they were depleted. -/
example : heapRun exCfg (Objs.new (exCfg.staging + 9)) (exContents exHeapGs) =
    some (true, [[5, 10, 10, 11, 12, 12, 13, 14, 30, 31, 40], [4, 6, 2, 5, 1, 3], [], [], [], [7]]) := by decide +kernel

/-- The objects after that. -/
def exHeapObjs : Objs :=
  match (Dec.new (exCfg.staging + 9)).openFile (exContents exHeapGs) with
  | some (true, s) =>
    match s.orderedHeap (exCfg.staging + 9) (Objs.new (exCfg.staging + 9)) with
    | some h => h.objs
    | none => Objs.new (exCfg.staging + 9)
  | _ => Objs.new (exCfg.staging + 9)

theorem exHeapObjs_used : Used (exCfg.staging + 9) exHeapObjs := by
  unfold exHeapObjs
  split
  · split
    · rename_i e; exact .ordered .new _ e
    · exact .new
  · exact .new

/-- The hypotheses of the theorems above are met by a decoder with six fragments in its free
list, and a file with six extents; fragments are used again. -/
example : Used (exCfg.staging + 9) exHeapObjs ∧ exHeapObjs.deleted = [4, 6, 2, 5, 1, 3] ∧
    (∃ st ns ms, FileRun exCfg exCk exSites (exTsOps exCk exGs) st ns ms) ∧
    heapRun exCfg exHeapObjs (exContents exGs) =
      some (true, [[10, 11, 12, 30, 31, 40], [4, 6, 2, 1, 3, 5], [], [], [], [7]]) :=
  ⟨exHeapObjs_used, by decide +kernel, exTsRun exCk_plain (by decide : ExTs exGs), by decide +kernel⟩

/-- `C70_chronological_partial` applies: its conditions on the log are those of
`C26_chronological_partial`. -/
example : ∃ st ns ms F, FileRun exCfg exCk exSites (exTsOps exCk exGoodGs) st ns ms ∧
    ExecExts exCfg exCk exSites (exTsOps exCk exGoodGs) F ∧ (∀ e ∈ F, Chrono e.2) ∧
    Apart 3 (stagesOf [] F) ∧ Progress (stagesOf [] F) ∧ (∀ e ∈ F, e.2 ≠ []) ∧
    Used (exCfg.staging + 9) exHeapObjs := by
  obtain ⟨st, ns, ms, h⟩ := exTsRun exCk_plain (by decide : ExTs exGoodGs)
  have hF := exTsExecExts (ck := exCk) (by decide : ExTs exGoodGs) (by decide +kernel)
  have ha : Apart 2 (passesOf [] (exTsExts exCk exGoodGs)) := .of_bounded (by decide +kernel)
  exact ⟨st, ns, ms, _, h, hF, by unfold Chrono; decide +kernel, apart_stages ha,
    .of_bounded (by decide +kernel) (by decide +kernel), by decide +kernel, exHeapObjs_used⟩

/-! ## What the destructor leaves -/

/-- **C70 is false of the code** in this respect: the destructor of a decoder never deletes
`bufferFragment` (runtime/Log.cc:1109-1121), whatever the decoder was used for: at least one
fragment (of about 1 MB) is leaked by every decoder. -/
theorem C70_leak_false {cap : Nat} (h5 : 5 ≤ cap) {o : Objs} (hu : Used cap o) :
    ∃ a < o.next, a ∉ o.deleted := by
  refine ⟨0, ?_, (C70_deleted_once h5 hu).2.2⟩
  exact List.mem_range.1 ((hu.ok h5).1.mem_iff.1 (by simp))

/-- A valid file with two extents, then the header of an extent with a length that is too large. -/
def exDamaged : List Byte := exContents [(true, [10]), (true, [20])] ++ [2, 255, 255, 255, 127]

/-- **C70 is false of the code** for damaged files: after an extent that cannot be read, the
loop ends when the first stage is depleted, because `mustDepleteAllStages` is set only at the
end of the file (runtime/Log.cc:1895-1896, 1958-1959).  The message of time 20 was read
correctly and is not printed; its fragment 2, and the fragment 3 of the damaged extent
(1855-1863), are neither freed nor reachable. -/
theorem C70_damaged_false :
    ∃ s h, (Dec.new (exCfg.staging + 9)).openFile exDamaged = some (true, s) ∧
      s.orderedHeap (exCfg.staging + 9) (Objs.new (exCfg.staging + 9)) = some h ∧ h.mode = .done ∧
      h.out.map OutMsg.ts = [10] ∧ h.stages.flatten.map (tsOf h.heap) = [20] ∧ h.good = false ∧
      h.objs.deleted = [1] ∧ h.objs.lost = [3, 2] ∧ h.objs.next = 4 := by
  have hr : heapRun exCfg (Objs.new (exCfg.staging + 9)) exDamaged =
      some (false, [[10], [1], [3], [2], [20], [4]]) := by
    decide +kernel
  unfold heapRun at hr
  split at hr
  · rename_i s h1
    split at hr
    · rename_i h h2
      split at hr
      · rename_i h3
        simp only [Option.some.injEq, Prod.mk.injEq, List.cons.injEq, and_true] at hr
        obtain ⟨e2, e1, e3, e4, e5, e6, e7⟩ := hr
        exact ⟨s, h, h1, h2, h3, e1, e6, e2, e3, by simp [HSt.objs, e4, e5], e7⟩
      · simp at hr
    · simp at hr
  · simp at hr

end NanoLog
