import Verif.OpsLemmas

/-!
# A small concrete program used to show that hypotheses of theorems can be met

Two log statements `NANO_LOG(NOTICE, "x=%d\n", n)` and `NANO_LOG(WARNING, "%s", str)` and
three calls of them.
-/

namespace NanoLog

/-- `"x=%d\n"`. -/
def exItems0 : List FItem :=
  [.text 120, .text 61, .conv ⟨[], .none, .none, .none, (ch 'd', .signed), .int⟩, .text 10]

/-- `"%s"`. -/
def exItems1 : List FItem := [.conv ⟨[], .none, .none, .none, (ch 's', .str), .charPtr⟩]

/-- First statement: file "a.cc", line 7, severity 3. -/
def exSite0 : Site := ⟨⟨[97, 46, 99, 99], 7, 3, [120, 61, 37, 100, 10]⟩, [.nonString], [.int .i32]⟩

/-- Second statement: file "b.cc", line 9, severity 2. -/
def exSite1 : Site := ⟨⟨[98, 46, 99, 99], 9, 2, [37, 115]⟩, [.strNo], [.cstr]⟩

/-- Both statements. -/
def exSites : List Site := [exSite0, exSite1]

theorem exItems0_wf : ∀ i ∈ exItems0, i.WF := by
  intro i hi
  simp only [exItems0, List.mem_cons, List.not_mem_nil, or_false] at hi
  rcases hi with rfl | rfl | rfl | rfl
  · exact ⟨by decide, by decide, by decide⟩
  · exact ⟨by decide, by decide, by decide⟩
  · exact ⟨by simp, by simp, by simp, by decide, by decide⟩
  · exact ⟨by decide, by decide, by decide⟩

theorem exItems1_wf : ∀ i ∈ exItems1, i.WF := by
  intro i hi
  simp only [exItems1, List.mem_cons, List.not_mem_nil, or_false] at hi
  subst hi
  exact ⟨by simp, by simp, by simp, by decide, by decide⟩

theorem exSite0_supported : exSite0.Supported exItems0 :=
  ⟨exItems0_wf, by decide, by decide, by decide, by decide, by decide, by decide, by decide,
    by decide, by decide, by decide⟩

theorem exSite1_supported : exSite1.Supported exItems1 :=
  ⟨exItems1_wf, by decide, by decide, by decide, by decide, by decide, by decide, by decide,
    by decide, by decide, by decide⟩

theorem exSites_ok : SitesOK exSites := by
  intro s hs
  simp only [exSites, List.mem_cons, List.not_mem_nil, or_false] at hs
  rcases hs with rfl | rfl
  · exact ⟨_, exSite0_supported⟩
  · exact ⟨_, exSite1_supported⟩

/-- `n = -5` at time 1000. -/
def exCall0 : LogCall := ⟨0, 1000, [.int .i32 (-5)]⟩
/-- `str = "hi"` at time 1010. -/
def exCall1 : LogCall := ⟨1, 1010, [.cstr 4096 [104, 105]]⟩
/-- `n = 70000` at time 1020. -/
def exCall2 : LogCall := ⟨0, 1020, [.int .i32 70000]⟩

/-- The three calls. -/
def exCalls : List LogCall := [exCall0, exCall1, exCall2]

/-- A checkpoint. -/
def exCk : Checkpoint := ⟨900, 1600000000, [0, 0, 0, 0, 0, 0, 224, 65], 0, 0⟩

theorem exCk_plain : exCk.Plain := ⟨by decide, rfl, rfl⟩

/-- What must be printed for the three calls of thread `tid`. -/
def exMsgs (tid : Nat) (ck : Checkpoint) : List OutMsg :=
  [⟨tid, 0, 1000, ck, [97, 46, 99, 99], 7, 3,
     [⟨[120, 61, 37, 100, 10], none, none, some (.scalar (.int (-5)))⟩]⟩,
   ⟨tid, 1, 1010, ck, [98, 46, 99, 99], 9, 2,
     [⟨[37, 115], none, none, some (.str [104, 105])⟩]⟩,
   ⟨tid, 0, 1020, ck, [97, 46, 99, 99], 7, 3,
     [⟨[120, 61, 37, 100, 10], none, none, some (.scalar (.int 70000))⟩]⟩]

theorem exCall_int (n : Int) (hn : ITy.i32.InRange n) (ts : Nat) (hts : ts < 2 ^ 64) (tid : Nat)
    (ck : Checkpoint) :
    Prints exSites tid ck ⟨0, ts, [.int .i32 n]⟩
      ⟨tid, 0, ts, ck, [97, 46, 99, 99], 7, 3,
        [⟨[120, 61, 37, 100, 10], none, none, some (.scalar (.int n))⟩]⟩ := by
  refine Prints.mk (s := exSite0) (is := exItems0)
    ⟨rfl, rfl, by simpa [Arg.Valid] using hn, (by decide : (0 : Nat) < 2 ^ 32), hts,
      (by decide : (20 : Nat) < 2 ^ 31 - 16)⟩ exSite0_supported ?_
  have h := ITy.cast_of_inRange hn
  refine .conv (as := [.int .i32 n]) (as' := []) (.mk _ (ws := []) (ps := []) .absent .absent
    (.scalar _ rfl ?_)) .nil
  have := Reads.int .i32 .i32 n (.inl (by decide))
  rw [h] at this
  exact this

theorem exCall_str (ts : Nat) (hts : ts < 2 ^ 64) (tid : Nat) (ck : Checkpoint) :
    Prints exSites tid ck ⟨1, ts, [.cstr 4096 [104, 105]]⟩
      ⟨tid, 1, ts, ck, [98, 46, 99, 99], 9, 2,
        [⟨[37, 115], none, none, some (.str [104, 105])⟩]⟩ := by
  refine Prints.mk (s := exSite1) (is := exItems1)
    ⟨rfl, rfl, (by decide : ∀ a ∈ [Arg.cstr 4096 [104, 105]], a.Valid),
      (by decide : (1 : Nat) < 2 ^ 32), hts, (by decide : (22 : Nat) < 2 ^ 31 - 16)⟩ exSite1_supported ?_
  exact .conv (as := [.cstr 4096 [104, 105]]) (as' := []) (.mk _ (ws := []) (ps := []) .absent
    .absent (.str _ _ _)) .nil

theorem exPrints (tid : Nat) (ck : Checkpoint) :
    List.Forall₂ (Prints exSites tid ck) exCalls (exMsgs tid ck) :=
  .cons (exCall_int _ (by decide) _ (by decide) _ _) (.cons (exCall_str _ (by decide) _ _)
    (.cons (exCall_int _ (by decide) _ (by decide) _ _) .nil))

end NanoLog
