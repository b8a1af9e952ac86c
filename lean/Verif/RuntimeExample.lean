import Verif.RuntimeSpec
import Verif.Props.File

/-!
# Concrete executions of the runtime used to show that hypotheses of theorems can be met
-/

namespace NanoLog

theorem exProgOK : ProgOK exCfg exSites :=
  ⟨by decide, by decide, by decide, by decide, exSites_ok, by decide⟩

theorem exArgs_int (n : Int) (hn : ITy.i32.InRange n) : ArgsOK exCfg exSite0 [.int .i32 n] := by
  refine ⟨rfl, by simpa [Arg.Valid] using hn, ?_, (by decide : (20 : Nat) < 128)⟩
  refine ⟨exItems0, [⟨[120, 61, 37, 100, 10], none, none, some (.scalar (.int n))⟩],
    exSite0_supported, ?_⟩
  refine .conv (as := [.int .i32 n]) (as' := []) (.mk _ (ws := []) (ps := []) .absent .absent
    (.scalar _ rfl ?_)) .nil
  have h := ITy.cast_of_inRange hn
  have := Reads.int .i32 .i32 n (.inl (by decide))
  rw [h] at this
  exact this

theorem exArgs_str : ArgsOK exCfg exSite1 [.cstr 4096 [104, 105]] :=
  ⟨rfl, (by decide : ∀ a ∈ [Arg.cstr 4096 [104, 105]], a.Valid),
    ⟨exItems1, _, exSite1_supported, .conv (as := [.cstr 4096 [104, 105]]) (as' := [])
      (.mk _ (ws := []) (ps := []) .absent .absent (.str _ _ _)) .nil⟩,
    (by decide : (22 : Nat) < 128)⟩

/-- A label of the examples: calls have the arguments `n` (first statement) or `"hi"`. -/
def exLbl : Lbl → Bool
  | .call _ k args => match k, args with
    | 0, [.int .i32 n] => decide (-1000 ≤ n ∧ n ≤ 100000)
    | 1, [.cstr p bs] => decide (p = 4096 ∧ bs = [104, 105])
    | _, _ => false
  | .stamp _ ts => decide (ts < 2 ^ 64)
  | .join _ jk c => decide (jk = 0 ∧ c = exCk)
  | _ => true

theorem exLbl_ok {l : Lbl} (h : exLbl l = true) : l.OK exCfg exSites := by
  cases l <;> simp only [Lbl.OK]
  case call t k args =>
    simp only [exLbl] at h
    split at h
    · rename_i n
      have hn : -1000 ≤ n ∧ n ≤ 100000 := by simpa using h
      intro site hs
      simp only [exSites, List.getElem?_cons_zero, Option.some.injEq] at hs
      subst hs
      exact exArgs_int n (by simp [ITy.InRange, ITy.lo, ITy.hi, ITy.signed, ITy.bytes]; omega)
    · rename_i p bs
      have hp : p = 4096 ∧ bs = [104, 105] := by simpa using h
      intro site hs
      simp [exSites] at hs
      subst hs
      rw [hp.1, hp.2]
      exact exArgs_str
    · cases h
  case stamp => simpa [exLbl] using h
  case join t jk c =>
    simp only [exLbl, decide_eq_true_eq] at h
    rw [h.1, h.2]
    exact ⟨exCk_plain, by decide⟩

/-- Run the labels from the start and test the final state. -/
def exCheck (ls : List Lbl) (p : Rt → Bool) : Bool :=
  match Rt.init exCfg 0 exCk with
  | some s0 =>
    match s0.run exCfg exSites ls with
    | .ok s => p s
    | _ => false
  | none => false

theorem exExec {ls : List Lbl} {p : Rt → Bool} (hl : ls.all exLbl = true)
    (h : exCheck ls p = true) : ∃ s, RtExec exCfg exSites ls s ∧ p s = true := by
  unfold exCheck at h
  split at h
  · rename_i s0 hs0
    split at h
    · rename_i s hs
      refine ⟨s, ⟨0, exCk, s0, exCk_plain, by decide, hs0, ?_, hs⟩, h⟩
      intro l hm
      exact exLbl_ok (List.all_eq_true.1 hl l hm)
    · cases h
  · cases h

/-- Thread `t` logs with statement `k` for the first time in the process and has no buffer yet. -/
def exFirst (t k ts : Nat) (args : List Arg) : List Lbl :=
  [.call t k args, .readId t false, .register t, .stamp t ts, .reserve t, .takeId t, .push t,
   .commit t]

/-- Thread `t` logs with a registered statement and has a buffer. -/
def exNext (t k ts : Nat) (args : List Arg) : List Lbl :=
  [.call t k args, .readId t false, .stamp t ts, .reserve t, .commit t]

/-- Two threads log three messages; a fourth call is below the level and not recorded. -/
def exThreads : List Lbl :=
  exFirst 1 0 1000 [.int .i32 (-5)] ++ exFirst 2 1 1010 [.cstr 4096 [104, 105]] ++
  exNext 2 0 1020 [.int .i32 70000] ++ [.setLevel 2, .call 1 0 [.int .i32 8]]

/-- The background thread scans two buffers that hold one and two messages. -/
def exScan : List Lbl :=
  [.top, .dict false, .peek 1, .encode (fun _ => 0) [], .peek 2, .encode (fun _ => 0) [],
   .scanned none, .aio, .write]

/-- Everything is written. -/
def exWritten : List Lbl :=
  exThreads ++ exScan ++ [.disk 100, .disk 15, .top, .dict false, .peek 0, .check, .peek 0, .check,
    .scanned none, .aio, .aioDone none, .write]

end NanoLog
