import Verif.MemTerm
import Verif.Props.PreMode

/-!
# C29 Decoding terminates, with the decoder's memory and in both modes

The decoder of `Verif.MicroMem` reads dictionaries attached to checkpoints (preprocessor mode) as well as
dictionary fragments (C++17 mode).  As in `Verif.Props.File`: the bounds on the number of iterations in the
model never end a loop, for every file and every content of the memory.  The iterator and
ordered decoding are in `Verif.Props.MemIter`.  With
generated functions instead of the dictionary the claim is false (`C50_unknown_id_false`).
-/

namespace NanoLog

/-- The loop over the records of a file. -/
theorem C29_memory_terminates_partial (s : PDec) (k : Nat) :
    loopM (s.file.inp.length + 1 + k) s = loopM (s.file.inp.length + 1) s ∧
    ∀ s', loopM (s.file.inp.length + 1) s = some s' → ¬ (s'.file.eof = false ∧ s'.good = true) :=
  loopM_fuel _ s (by unfold FileSt.measure; split <;> omega) k

/-- It has no infinite execution. -/
theorem C29_no_infinite_memory_partial (f : Nat → PDec) :
    ¬ ∀ i, (f i).file.eof = false ∧ (f i).good = true ∧ stepM (f i) = some (f (i + 1)) := by
  intro h
  have : ∀ i, (f i).file.measure + i ≤ (f 0).file.measure := by
    intro i
    induction i with
    | zero => simp
    | succ i ih =>
      have := stepM_measure (h i).1 (h i).2.2
      omega
  have := this ((f 0).file.measure + 1)
  omega

/-- The loop over the messages of an extent. -/
theorem C29_memory_extent_partial (ck : Checkpoint) (d : PDict) (bf : BufFrag) (out : List OutMsg) (k : Nat) :
    drainP ck d (bf.mem.length + 1 + k) bf out = drainP ck d (bf.mem.length + 1) bf out ∧
    ∀ bf' out', drainP ck d (bf.mem.length + 1) bf out = some (bf', out') → bf'.hasMore = false :=
  drainP_fuel ck d _ bf out (Nat.le_refl _) k

/-- The loop that builds the index of a dictionary attached to a checkpoint, over any bytes. -/
theorem C29_memory_index_partial (raw : List Byte) (newEnd k : Nat) :
    indexLoop raw newEnd (newEnd + 1 + k) 0 [] = indexLoop raw newEnd (newEnd + 1) 0 [] ∧
    ∀ pos ptrs, indexLoop raw newEnd (newEnd + 1) 0 [] = some (pos, ptrs) → newEnd ≤ pos :=
  indexLoop_fuel raw newEnd _ k 0 [] (by omega)

/-- The loop over the entries of a dictionary fragment. -/
theorem C29_memory_dictionary_partial (done total : Nat) (d : PDict) (f : FileSt) (k : Nat) :
    readDictLoopM (f.inp.length + 1 + k) done total d f = readDictLoopM (f.inp.length + 1) done total d f :=
  readDictLoopM_fuel _ done total d f (Nat.le_refl _) k

/-- A damaged dictionary (an entry with 200 fragments of which none is there) in a memory of 64 bytes: the
index loop leaves the memory, which ends it, or passes the end of the dictionary. -/
example : indexLoop ([1, 200, 0, 0, 0, 0, 0, 1, 0] ++ List.replicate 55 255) 20 21 0 [] = none ∧
    indexLoop ([1, 200] ++ List.replicate 62 255) 20 21 0 [] = some (65544, [0]) ∧
    indexLoop ([1, 200] ++ List.replicate 62 0) 20 21 0 [] = some (21, [0]) := by decide +kernel

/-- A file that is not empty and a decoder that continues. -/
example : ∃ s : PDec, s.file.eof = false ∧ s.good = true ∧ ∃ s', stepM s = some s' ∧ s'.good = true ∧
    s'.file.inp = [] :=
  ⟨⟨⟨[0, 0], false⟩, true, ⟨0, 0, [], 0, 0⟩, ⟨[], 0, []⟩, BufFrag.init 20, []⟩, rfl, rfl,
    _, rfl, rfl, by decide⟩

end NanoLog
