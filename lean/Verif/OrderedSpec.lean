import Verif.FileSpec
import Mathlib.Data.List.Perm.Basic

/-!
# Specification of ordered decompression

The contents of an execution are its extents in file order, each with the flag "first extent
of a new pass of the background thread" and its messages.
-/

namespace NanoLog

/-- `Merge ls out`: `out` is an interleaving of the lists `ls`, each kept in its own order. -/
inductive Merge {α : Type} : List (List α) → List α → Prop where
  | nil {ls} (h : ∀ l ∈ ls, l = []) : Merge ls []
  | pop {ls x l ls' out} (hp : ls.Perm ((x :: l) :: ls')) (h : Merge (l :: ls') out) :
      Merge ls (x :: out)

/-- Non-decreasing time stamps. -/
def Chrono (ms : List OutMsg) : Prop := ms.Pairwise (fun a b => a.ts ≤ b.ts)

/-- The extents of an execution. -/
abbrev Exts := List (Bool × List OutMsg)

/-- `RunExts cfg ck st ops F`: the operations of one execution (no further start), begun in
state `st`, write the extents `F`: of every batch that puts anything into the output buffer
(`encodeLogMsgs` writes nothing if there is no room for the extent header) the flag and the
messages that make up the bytes reported as consumed. -/
inductive RunExts (cfg : Config) (ck : Checkpoint) : EncSt → List EncOp → Exts → Prop where
  | nil {st} : RunExts cfg ck st [] []
  | dict {st k st1 n ops F} (hs : st.step cfg (.dict k) = some (st1, n))
      (h : RunExts cfg ck st1 ops F) : RunExts cfg ck st (.dict k :: ops) F
  | flush {st st1 n ops F} (hs : st.step cfg .flush = some (st1, n))
      (h : RunExts cfg ck st1 ops F) : RunExts cfg ck st (.flush :: ops) F
  | batch {st junk cs mem nbytes tid np st1 ops F ms k}
      (hb : BatchOK cfg st.all tid ck cs mem nbytes ms) (hk : k ≤ cs.length)
      (hs : st.step cfg (.batch junk cs mem nbytes tid np) =
        some (st1, some (queueSize st.all (cs.take k) : Int)))
      (hw : st1.buf ≠ st.buf) (h : RunExts cfg ck st1 ops F) :
      RunExts cfg ck st (.batch junk cs mem nbytes tid np :: ops) ((np, ms.take k) :: F)
  | skip {st junk cs mem nbytes tid np st1 n ops F}
      (hs : st.step cfg (.batch junk cs mem nbytes tid np) = some (st1, n))
      (hw : st1.buf = st.buf) (h : RunExts cfg ck st1 ops F) :
      RunExts cfg ck st (.batch junk cs mem nbytes tid np :: ops) F

/-- The extents of an execution started on an empty file. -/
def ExecExts (cfg : Config) (c : Checkpoint) (all : List Site) (ops : List EncOp) (F : Exts) : Prop :=
  ∃ jk ops' st1 n, ops = .start jk c all :: ops' ∧
    EncSt.init.step cfg (.start jk c all) = some (st1, n) ∧ RunExts cfg c st1 ops' F

/-- The messages of each pass: a pass begins with a flagged extent
(runtime/RuntimeLogger.cc:452-465, runtime/Log.h:281-285). `acc` is the current pass. -/
def passesOf (acc : List OutMsg) : Exts → List (List OutMsg)
  | [] => [acc]
  | (np, ms) :: es => if np then acc :: passesOf ms es else passesOf (acc ++ ms) es

/-- The messages of each stage: a stage ends with a flagged extent (this is how the decoder
groups the extents, runtime/Log.cc:1855-1906). -/
def stagesOf (acc : List (List OutMsg)) : Exts → List (List OutMsg)
  | [] => if acc = [] then [] else [acc.flatten]
  | (np, ms) :: es =>
    if np then (acc ++ [ms]).flatten :: stagesOf [] es else stagesOf (acc ++ [ms]) es

/-- Messages at least `n` groups apart are in time order. -/
def Apart (n : Nat) (gs : List (List OutMsg)) : Prop :=
  ∀ i j x y gi gj, i + n ≤ j → gs[i]? = some gi → gs[j]? = some gj → x ∈ gi → y ∈ gj → x.ts ≤ y.ts

/-- No group is empty, and none ends before its predecessor ends. -/
def Progress (gs : List (List OutMsg)) : Prop :=
  (∀ g ∈ gs, g ≠ []) ∧
  ∀ i x gi gj, gs[i]? = some gi → gs[i + 1]? = some gj → x ∈ gi → ∃ y ∈ gj, x.ts ≤ y.ts

/-! ## Basic facts about interleavings -/

theorem Merge.perm_left {α : Type} {ls ls' : List (List α)} {out : List α} (hp : ls.Perm ls')
    (h : Merge ls out) : Merge ls' out := by
  cases h with
  | nil h => exact .nil fun l hl => h l (hp.mem_iff.2 hl)
  | pop hq h => exact .pop (hp.symm.trans hq) h

/-- Each element exactly once. -/
theorem Merge.perm {α : Type} {ls : List (List α)} {out : List α} (h : Merge ls out) :
    out.Perm ls.flatten := by
  induction h with
  | nil h => rw [List.flatten_eq_nil_iff.2 h]
  | @pop ls x l ls' out hp h ih =>
    refine List.Perm.trans ?_ hp.flatten.symm
    simpa using ih

/-- Each list in its own order. -/
theorem Merge.sublist {α : Type} {ls : List (List α)} {out : List α} (h : Merge ls out)
    {l : List α} (hl : l ∈ ls) : l.Sublist out := by
  induction h generalizing l with
  | nil h => rw [h l hl]
  | @pop ls x l' ls' out hp h ih =>
    have := hp.mem_iff.1 hl
    rcases List.mem_cons.1 this with rfl | h2
    · exact (ih (by simp)).cons_cons x
    · exact (ih (by simp [h2])).cons x

theorem Merge.drop_nil {α : Type} {ls : List (List α)} {out : List α} (h : Merge ls out) :
    Merge ([] :: ls) out := by
  induction h with
  | nil h => exact .nil (by simpa using h)
  | @pop ls x l ls' out hp h ih =>
    refine .pop ((hp.cons []).trans (List.Perm.swap _ _ _)) (ih.perm_left (List.Perm.swap _ _ _))

end NanoLog
