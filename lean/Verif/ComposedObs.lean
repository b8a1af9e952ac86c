import Verif.ComposedRel
import Verif.Props.Runtime

/-! The runtime with its staging buffers byte by byte: calls that have been made there but not yet in the runtime with
queues of messages. -/

namespace NanoLog

/-! ## Observations -/

/-- What is recorded for thread `t` because of a step. -/
def recOf (prog : List Site) (t : Nat) (lv : Int) (l : Lbl) : List (Nat × List Arg) := (recordStep prog t (lv, []) l).2

theorem recordStep_app (prog : List Site) (t : Nat) (lv : Int) (x : List (Nat × List Arg)) (l : Lbl) :
    (recordStep prog t (lv, x) l).2 = x ++ recOf prog t lv l := by
  cases l <;> simp only [recOf, recordStep, List.append_nil]
  split
  · split <;> simp
  · simp

theorem mustRecord_snoc (prog : List Site) (t : Nat) (ls : List Lbl) (l : Lbl) :
    mustRecord prog t (ls ++ [l]) = mustRecord prog t ls ++ recOf prog t (levelAfter ls) l := by
  simp only [mustRecord, List.foldl_append, List.foldl_cons, List.foldl_nil]
  have := record_level prog t ls (3, [])
  rw [levelAfter_eq, ← this, ← recordStep_app]

theorem levelAfter_snoc (ls : List Lbl) (l : Lbl) : levelAfter (ls ++ [l]) = lvStep (levelAfter ls) l := by
  simp only [levelAfter_eq, List.foldl_append, List.foldl_cons, List.foldl_nil]

theorem levelAfter_range (ls : List Lbl) : 0 ≤ levelAfter ls ∧ levelAfter ls ≤ 4 := by
  rw [levelAfter_eq]
  have : ∀ (ls : List Lbl) (lv : Int), 0 ≤ lv → lv ≤ 4 → 0 ≤ ls.foldl lvStep lv ∧ ls.foldl lvStep lv ≤ 4 := by
    intro ls
    induction ls with
    | nil => intro lv h1 h2; exact ⟨h1, h2⟩
    | cons l ls ih =>
      intro lv h1 h2
      rw [List.foldl_cons]
      cases l <;> simp only [lvStep] <;> apply ih <;> omega
  exact this ls 3 (by decide) (by decide)

def isCommit (t : Nat) : Lbl → Bool
  | .commit u => u == t
  | _ => false

theorem returned_snoc (t : Nat) (ls : List Lbl) (l : Lbl) :
    returned t (ls ++ [l]) = returned t ls + if isCommit t l then 1 else 0 := by
  simp only [returned, List.filter_append, List.length_append]
  congr 1
  cases l <;> try rfl
  rename_i u
  simp only [isCommit, List.filter_cons, List.filter_nil]
  split <;> rename_i h <;> simp [h]

theorem calls_snoc_rt (cls : List CLbl) (l : Lbl) : calls (cls ++ [.rt l]) = calls cls ++ [l] := by
  simp [calls]

theorem finished_snoc_rt (t : Nat) (cls : List CLbl) (l : Lbl) : finished t (cls ++ [.rt l]) = finished t cls := by
  simp [finished]

theorem calls_snoc_other (cls : List CLbl) {l : CLbl} (h : ∀ k, l ≠ .rt k) : calls (cls ++ [l]) = calls cls := by
  cases l <;> simp [calls] at h ⊢

theorem finished_snoc (t : Nat) (cls : List CLbl) (l : CLbl) :
    finished t (cls ++ [l]) = finished t cls + match l with | .finish u => if u = t then 1 else 0 | _ => 0 := by
  simp only [finished, List.filter_append, List.length_append]
  congr 1
  cases l <;> try rfl
  rename_i u
  simp only [List.filter_cons, List.filter_nil]
  by_cases hu : u = t <;> simp [hu]

/-- What a list of steps adds to the observations about every thread. -/
structure Adds (prog : List Site) (bls : List Lbl) (lv lv' : Int) (r : Nat → List (Nat × List Arg)) (τ : Nat → List Nat)
    (n : Nat → Nat) (a : Nat) : Prop where
  obs : ∀ als, levelAfter als = lv → levelAfter (als ++ bls) = lv' ∧ allocs (als ++ bls) = allocs als + a ∧
    ∀ t, mustRecord prog t (als ++ bls) = mustRecord prog t als ++ r t ∧
      stamps t (als ++ bls) = stamps t als ++ τ t ∧ returned t (als ++ bls) = returned t als + n t

theorem Adds.nil (prog : List Site) (lv : Int) : Adds prog [] lv lv (fun _ => []) (fun _ => []) (fun _ => 0) 0 :=
  ⟨fun als h => by simp [h]⟩

theorem Adds.one (prog : List Site) (l : Lbl) (lv : Int) : Adds prog [l] lv (lvStep lv l) (fun t => recOf prog t lv l)
    (fun t => stampOf t l) (fun t => if isCommit t l then 1 else 0) (if isTake l then 1 else 0) :=
  ⟨fun als h => ⟨by rw [levelAfter_snoc, h], allocs_snoc als l, fun t =>
    ⟨by rw [mustRecord_snoc, h], stamps_snoc t als l, returned_snoc t als l⟩⟩⟩

theorem Adds.append {prog : List Site} {b1 b2 : List Lbl} {l1 l2 l3 : Int} {r1 r2 : Nat → List (Nat × List Arg)}
    {τ1 τ2 : Nat → List Nat} {n1 n2 : Nat → Nat} {a1 a2 : Nat} (h1 : Adds prog b1 l1 l2 r1 τ1 n1 a1)
    (h2 : Adds prog b2 l2 l3 r2 τ2 n2 a2) : Adds prog (b1 ++ b2) l1 l3 (fun t => r1 t ++ r2 t) (fun t => τ1 t ++ τ2 t)
      (fun t => n1 t + n2 t) (a1 + a2) := by
  refine ⟨fun als h => ?_⟩
  obtain ⟨e1, e2, e3⟩ := h1.obs als h
  obtain ⟨f1, f2, f3⟩ := h2.obs (als ++ b1) e1
  rw [← List.append_assoc]
  refine ⟨f1, by rw [f2, e2]; omega, fun t => ?_⟩
  obtain ⟨g1, g2, g3⟩ := e3 t
  obtain ⟨k1, k2, k3⟩ := f3 t
  exact ⟨by rw [k1, g1, List.append_assoc], by rw [k2, g2, List.append_assoc], by rw [k3, g3]; omega⟩

/-! ## The call a thread is working on -/

/-- `c` is the message of statement `k`. -/
def Known (cfg : Config) (prog : List Site) (ids : Nat → Option Nat) (sites : List Site) (k : Nat) (c : LogCall) : Prop :=
  ids k = some c.id ∧ c.ts < 2 ^ 64 ∧
    ∃ site, prog[k]? = some site ∧ sites[c.id]? = some site ∧ (site.info.sev : Int) ≤ 4 ∧ ArgsOK cfg site c.args

/-- `r`, `τ`: the call a thread is working on, and its time stamp if it has been taken. -/
def PcRec (cfg : Config) (prog : List Site) (ids : Nat → Option Nat) (sites : List Site) (pc : TPc)
    (r : List (Nat × List Arg)) (τ : List Nat) : Prop :=
  match pc with
  | .called k args | .reg k args => r = [(k, args)] ∧ τ = [] ∧
      ∃ site, prog[k]? = some site ∧ (site.info.sev : Int) ≤ 4 ∧ ArgsOK cfg site args
  | .known id args => ∃ k, r = [(k, args)] ∧ τ = [] ∧ ids k = some id ∧
      ∃ site, prog[k]? = some site ∧ sites[id]? = some site ∧ (site.info.sev : Int) ≤ 4 ∧ ArgsOK cfg site args
  | .stamped c | .write c | .take (some c) | .push (some c) =>
      ∃ k, r = [(k, c.args)] ∧ τ = [c.ts] ∧ Known cfg prog ids sites k c
  | _ => r = [] ∧ τ = []

/-- Statements registered later. -/
def Grows (ids ids' : Nat → Option Nat) (sites sites' : List Site) : Prop :=
  (∀ k i, ids k = some i → ids' k = some i) ∧ ∃ new, sites' = sites ++ new

theorem Grows.refl (ids : Nat → Option Nat) (sites : List Site) : Grows ids ids sites sites :=
  ⟨fun _ _ h => h, [], (List.append_nil _).symm⟩

theorem Grows.site {ids ids' : Nat → Option Nat} {sites sites' : List Site} (h : Grows ids ids' sites sites') {i : Nat}
    {s : Site} (hs : sites[i]? = some s) : sites'[i]? = some s := by
  obtain ⟨-, new, rfl⟩ := h
  rw [List.getElem?_append_left (by by_contra hc; rw [List.getElem?_eq_none (by omega)] at hs; cases hs)]
  exact hs

theorem Known.mono {cfg : Config} {prog : List Site} {ids ids' : Nat → Option Nat} {sites sites' : List Site}
    (h : Grows ids ids' sites sites') {k : Nat} {c : LogCall} (hk : Known cfg prog ids sites k c) :
    Known cfg prog ids' sites' k c := by
  obtain ⟨h1, h2, site, h3, h4, h5⟩ := hk
  exact ⟨h.1 _ _ h1, h2, site, h3, h.site h4, h5⟩

theorem PcRec.mono {cfg : Config} {prog : List Site} {ids ids' : Nat → Option Nat} {sites sites' : List Site}
    (h : Grows ids ids' sites sites') {pc : TPc} {r : List (Nat × List Arg)} {τ : List Nat}
    (hk : PcRec cfg prog ids sites pc r τ) : PcRec cfg prog ids' sites' pc r τ := by
  unfold PcRec at hk ⊢
  split at hk
  · exact hk
  · exact hk
  · obtain ⟨k, h1, h2, h3, site, h4, h5, h6⟩ := hk
    exact ⟨k, h1, h2, h.1 _ _ h3, site, h4, h.site h5, h6⟩
  all_goals first
    | (obtain ⟨k, h1, h2, h3⟩ := hk; exact ⟨k, h1, h2, h3.mono h⟩)
    | skip
  exact hk

theorem Known.callOK {cfg : Config} {prog : List Site} (hP : ProgOK cfg prog) {ids : Nat → Option Nat} {sites : List Site}
    (hn : sites.length < 2 ^ 31) {k : Nat} {c : LogCall} (h : Known cfg prog ids sites k c) : CallOK cfg sites c := by
  obtain ⟨-, h2, site, h3, h4, h5, h6⟩ := h
  exact argsOK_call hP.staging h4 hn h6 h2

/-- Threads in these states may have calls that are finished here but not yet in the other model. -/
def TPc.lags : TPc → Bool
  | .idle | .called .. | .reg .. | .known .. | .stamped _ | .write _ | .exited => true
  | _ => false

/-- A step of an application thread: the call it is working on. -/
theorem act_pcRec {cfg : Config} {prog : List Site} {s s' : Rt} {l : Lbl} {t : Nat} (hI : IdsInv prog s)
    (hl : l.ofThr = some t) (ho : l.OK cfg prog) (hlv : s.level ≤ 4) (ha : s.act cfg prog l = .ok s')
    {r : List (Nat × List Arg)} {τ : List Nat} (h : PcRec cfg prog s.ids s.sites (s.thr t).pc r τ) :
    (s.thr t).pc ≠ .exited ∧ (∀ c, (s.thr t).pc ≠ .write c) ∧ (s'.thr t).pc ≠ .exited ∧
    PcRec cfg prog s'.ids s'.sites (s'.thr t).pc (r ++ recOf prog t s.level l) (τ ++ stampOf t l) ∧
    Grows s.ids s'.ids s.sites s'.sites ∧ (∃ b, s'.bufs = s.bufs ++ b) ∧ s'.level = s.level ∧
    (l.locks ≠ some t → (s.thr t).bid ≠ none → (s.thr t).pc.lags = true →
      ∃ pc, s' = s.setThr t { s.thr t with pc := pc } ∧ pc.lags = true) := by
  have hrefl := Grows.refl s.ids s.sites
  have hb0 : ∃ b, s.bufs = s.bufs ++ b := ⟨[], (List.append_nil _).symm⟩
  have heta : s = s.setThr t { s.thr t with pc := (s.thr t).pc } := by
    have := thr_eta s.thr t
    simp only [Rt.setThr]
    rw [this]
  cases l <;> simp only [Lbl.ofThr] at hl
  case commit | exitThread | setLevel | join | top | dict | peek | check | encode | scanned | aio | aioDone | write | disk => cases hl
  case call t k args =>
    simp only [Option.some.injEq] at hl
    subst hl
    simp only [Rt.act, Rt.actLog] at ha
    split at ha <;> try cases ha
    rename_i hpc hk'
    rw [hpc] at h
    obtain ⟨rfl, rfl⟩ : r = [] ∧ τ = [] := h
    split at ha <;> cases ha
    · rename_i hsev
      rw [hpc] at heta ⊢
      refine ⟨by simp, by simp, by simp, ?_, hrefl, hb0, rfl, fun _ _ _ => ⟨_, heta, rfl⟩⟩
      simp only [recOf, recordStep, hk', stampOf, PcRec]
      rw [if_neg (by omega)]
      exact ⟨rfl, rfl⟩
    · rename_i hsev
      simp only [Rt.setThr, upd_same, hpc]
      refine ⟨by simp, by simp, by simp, ?_, hrefl, hb0, trivial, fun _ _ _ => ⟨_, rfl, rfl⟩⟩
      simp only [recOf, recordStep, hk', stampOf, PcRec]
      rw [if_pos ⟨trivial, by omega⟩]
      exact ⟨rfl, rfl, _, rfl, by omega, ho _ hk'⟩
  case readId t stale =>
    simp only [Option.some.injEq] at hl
    subst hl
    simp only [Rt.act, Rt.actLog] at ha
    split at ha <;> try cases ha
    rename_i k args hpc
    rw [hpc] at h
    obtain ⟨rfl, rfl, site, h1, h2, h3⟩ := h
    split at ha <;> cases ha
    · rename_i hid
      simp only [Rt.setThr, upd_same, hpc]
      exact ⟨by simp, by simp, by simp, ⟨rfl, rfl, site, h1, h2, h3⟩, hrefl, hb0, trivial, fun _ _ _ => ⟨_, rfl, rfl⟩⟩
    · rename_i id hid
      simp only [Rt.setThr, upd_same, hpc]
      cases stale with
      | true =>
        exact ⟨by simp, by simp, by simp, ⟨rfl, rfl, site, h1, h2, h3⟩, hrefl, hb0, trivial, fun _ _ _ => ⟨_, rfl, rfl⟩⟩
      | false =>
        obtain ⟨site', e1, e2⟩ := hI.site hid
        rw [h1] at e2; cases e2
        exact ⟨by simp, by simp, by simp, ⟨k, rfl, rfl, hid, site, h1, e1, h2, h3⟩, hrefl, hb0, trivial,
          fun _ _ _ => ⟨_, rfl, rfl⟩⟩
  case register t =>
    simp only [Option.some.injEq] at hl
    subst hl
    simp only [Rt.act, Rt.actLog] at ha
    split at ha <;> try cases ha
    rename_i k args hpc
    rw [hpc] at h
    obtain ⟨rfl, rfl, site, h1, h2, h3⟩ := h
    split at ha <;> cases ha
    · rename_i id hid
      simp only [Rt.setThr, upd_same, hpc]
      obtain ⟨site', e1, e2⟩ := hI.site hid
      rw [h1] at e2; cases e2
      exact ⟨by simp, by simp, by simp, ⟨k, rfl, rfl, hid, site, h1, e1, h2, h3⟩, hrefl, hb0, trivial,
        fun h => absurd rfl h⟩
    · rename_i site' hid hk'
      rw [h1] at hk'; cases hk'
      simp only [Rt.setThr, upd_same, hpc]
      refine ⟨by simp, by simp, by simp, ⟨k, rfl, rfl, by rw [upd_same], site, h1, by simp, h2, h3⟩, ⟨?_, _, rfl⟩, hb0,
        trivial, fun h => absurd rfl h⟩
      intro j i hj
      by_cases hjk : j = k
      · subst hjk; rw [hid] at hj; cases hj
      · rw [upd_other _ _ hjk]; exact hj
  case stamp t ts =>
    simp only [Option.some.injEq] at hl
    subst hl
    simp only [Rt.act, Rt.actLog] at ha
    split at ha <;> try cases ha
    rename_i id args hpc
    rw [hpc] at h
    obtain ⟨k, rfl, rfl, h1, site, h2, h3, h4, h5⟩ := h
    simp only [Rt.setThr, upd_same, hpc]
    refine ⟨by simp, by simp, by simp, ⟨k, rfl, ?_, h1, ho, site, h2, h3, h4, h5⟩, hrefl, hb0, trivial,
      fun _ _ _ => ⟨_, rfl, rfl⟩⟩
    simp [stampOf]
  case reserve t =>
    simp only [Option.some.injEq] at hl
    subst hl
    simp only [Rt.act, Rt.actLog] at ha
    split at ha <;> try cases ha
    rename_i c hpc
    rw [hpc] at h
    obtain ⟨k, rfl, rfl, h1⟩ := h
    simp only [Rt.setThr, upd_same, hpc]
    split
    · rename_i hn
      exact ⟨by simp, by simp, by simp, ⟨k, rfl, rfl, h1⟩, hrefl, hb0, trivial, fun _ hb => absurd hn hb⟩
    · exact ⟨by simp, by simp, by simp, ⟨k, rfl, rfl, h1⟩, hrefl, hb0, trivial, fun _ _ _ => ⟨_, rfl, rfl⟩⟩
  case preallocate t =>
    simp only [Option.some.injEq] at hl
    subst hl
    simp only [Rt.act, Rt.actBuf] at ha
    split at ha <;> try cases ha
    rename_i hpc
    rw [hpc] at h
    obtain ⟨rfl, rfl⟩ : r = [] ∧ τ = [] := h
    split at ha <;> cases ha
    · rename_i hn
      simp only [Rt.setThr, upd_same, hpc]
      exact ⟨by simp, by simp, by simp, ⟨rfl, rfl⟩, hrefl, hb0, trivial, fun _ hb => absurd hn hb⟩
    · rw [hpc] at heta ⊢
      exact ⟨by simp, by simp, by simp, ⟨rfl, rfl⟩, hrefl, hb0, rfl, fun _ _ _ => ⟨_, heta, rfl⟩⟩
  case takeId t =>
    simp only [Option.some.injEq] at hl
    subst hl
    simp only [Rt.act, Rt.actBuf] at ha
    split at ha <;> try cases ha
    rename_i c hpc
    rw [hpc] at h
    split at ha <;> cases ha
    simp only [Rt.setThr, upd_same, hpc]
    refine ⟨by simp, by simp, by simp, ?_, hrefl, hb0, trivial, fun h => absurd rfl h⟩
    rw [show r ++ recOf prog t s.level (.takeId t) = r from List.append_nil _,
      show τ ++ stampOf t (.takeId t) = τ from List.append_nil _]
    cases c <;> exact h
  case push t =>
    simp only [Option.some.injEq] at hl
    subst hl
    simp only [Rt.act, Rt.actBuf] at ha
    split at ha <;> try cases ha
    rename_i c hpc
    rw [hpc] at h
    split at ha <;> cases ha
    simp only [Rt.setThr, upd_same, hpc]
    refine ⟨by simp, by simp, by cases c <;> simp [afterAlloc], ?_, hrefl, ⟨_, rfl⟩, trivial, fun h => absurd rfl h⟩
    rw [show r ++ recOf prog t s.level (.push t) = r from List.append_nil _,
      show τ ++ stampOf t (.push t) = τ from List.append_nil _]
    cases c <;> exact h
  case sync t =>
    simp only [Option.some.injEq] at hl
    subst hl
    simp only [Rt.act, Rt.actCtl] at ha
    split at ha <;> try cases ha
    rename_i hpc
    rw [hpc] at h
    obtain ⟨rfl, rfl⟩ : r = [] ∧ τ = [] := h
    simp only [Rt.setThr, upd_same, hpc]
    exact ⟨by simp, by simp, by simp, ⟨rfl, rfl⟩, hrefl, hb0, trivial, fun h => absurd rfl h⟩
  case spurious t =>
    simp only [Option.some.injEq] at hl
    subst hl
    simp only [Rt.act, Rt.actCtl] at ha
    split at ha <;> try cases ha
    rename_i sw hpc
    rw [hpc] at h
    obtain ⟨rfl, rfl⟩ : r = [] ∧ τ = [] := h
    simp only [Rt.setThr, upd_same, hpc]
    exact ⟨by simp, by simp, by simp, ⟨rfl, rfl⟩, hrefl, hb0, trivial, fun _ _ h => by simp [TPc.lags] at h⟩
  case ret t =>
    simp only [Option.some.injEq] at hl
    subst hl
    simp only [Rt.act, Rt.actCtl] at ha
    split at ha <;> try cases ha
    rename_i sw hpc
    rw [hpc] at h
    obtain ⟨rfl, rfl⟩ : r = [] ∧ τ = [] := h
    simp only [Rt.setThr, upd_same, hpc]
    refine ⟨by simp, by simp, by cases sw <;> simp, ?_, hrefl, hb0, trivial, fun _ _ h => by simp [TPc.lags] at h⟩
    cases sw <;> exact ⟨rfl, rfl⟩
  case setFile t ok =>
    simp only [Option.some.injEq] at hl
    subst hl
    simp only [Rt.act, Rt.actCtl] at ha
    split at ha <;> try cases ha
    rename_i hpc
    rw [hpc] at h
    obtain ⟨rfl, rfl⟩ : r = [] ∧ τ = [] := h
    split at ha <;> cases ha
    · rename_i hok
      subst hok
      simp only [Rt.setThr, upd_same, hpc]
      exact ⟨by simp, by simp, by simp, ⟨rfl, rfl⟩, hrefl, hb0, trivial, fun h => absurd rfl h⟩
    · rw [hpc] at heta ⊢
      exact ⟨by simp, by simp, by simp, ⟨rfl, rfl⟩, hrefl, hb0, rfl, fun _ _ _ => ⟨_, heta, rfl⟩⟩
  case stop t =>
    simp only [Option.some.injEq] at hl
    subst hl
    simp only [Rt.act, Rt.actCtl] at ha
    split at ha <;> try cases ha
    rename_i hpc
    rw [hpc] at h
    obtain ⟨rfl, rfl⟩ : r = [] ∧ τ = [] := h
    simp only [Rt.setThr, upd_same, hpc]
    exact ⟨by simp, by simp, by simp, ⟨rfl, rfl⟩, hrefl, hb0, trivial, fun h => absurd rfl h⟩

/-- Steps that neither give the runtime new work nor end a call other than a log call. -/
def Lbl.calm : Lbl → Bool
  | .ret _ => false
  | l => l.quiet

/-- Steps in the other model by which an idle thread comes to where it is here. -/
theorem catchUp {cfg : Config} {prog : List Site} {a : Rt} {t : Nat} {pc : TPc} {r : List (Nat × List Arg)} {τ : List Nat}
    (hi : (a.thr t).pc = .idle) (hb : (a.thr t).bid ≠ none) (hl0 : 0 ≤ a.level) (hl4 : a.level ≤ 4)
    (h : PcRec cfg prog a.ids a.sites pc r τ) (hlag : pc.lags = true) (hx : pc ≠ .exited) :
    ∃ bls, a.run cfg prog bls = .ok (a.setThr t { a.thr t with pc := pc }) ∧ (∀ l ∈ bls, l.OK cfg prog) ∧
      (bls.length ≤ 6 ∧ ∀ l ∈ bls, (∀ u, l ≠ .spurious u) ∧ (∀ u, l ≠ .exitThread u) ∧ (∀ u, l ≠ .push u) ∧ l.ofBg = false ∧
        (∀ u, l ≠ .register u) ∧ l.calm = true) ∧
      Adds prog bls a.level a.level (fun u => if u = t then r else []) (fun u => if u = t then τ else []) (fun _ => 0) 0 := by
  have hcl : clampLevel a.level = a.level := by simp [clampLevel]; omega
  have hcl4 : clampLevel 4 = 4 := by decide
  have hmm : max 0 (min 4 a.level) = a.level := by omega
  have hu : ∀ (f : Nat → Thr) x y, upd (upd f t x) t y = upd f t y := by
    intro f x y; funext v; simp only [upd]; split <;> rfl
  have hcall : ∀ k args site, prog[k]? = some site → (site.info.sev : Int) ≤ 4 →
      a.run cfg prog [.setLevel 4, .call t k args, .setLevel a.level] =
        .ok (a.setThr t { a.thr t with pc := .called k args }) := by
    intro k args site h1 h2
    simp only [Rt.run, Rt.act, Rt.actCtl, Rt.actLog, hi, h1, hcl4]
    rw [if_neg (by omega)]
    dsimp only
    rw [hcl]
    rfl
  have hadd : ∀ k args site, prog[k]? = some site → (site.info.sev : Int) ≤ 4 →
      Adds prog [.setLevel 4, .call t k args, .setLevel a.level] a.level a.level
        (fun u => if u = t then [(k, args)] else []) (fun _ => []) (fun _ => 0) 0 := by
    intro k args site h1 h2
    have := ((Adds.one prog (.setLevel 4) a.level).append (Adds.one prog (.call t k args) 4)).append
      (Adds.one prog (.setLevel a.level) 4)
    refine ⟨fun als hl => ?_⟩
    obtain ⟨e1, e2, e3⟩ := this.obs als hl
    refine ⟨by simpa [lvStep, hmm] using e1, by simpa [isTake] using e2, fun u => ?_⟩
    obtain ⟨e4, e5, e6⟩ := e3 u
    refine ⟨?_, by simpa [stampOf] using e5, by simpa [isCommit] using e6⟩
    rw [show als ++ [Lbl.setLevel 4, .call t k args, .setLevel a.level] =
      als ++ ([Lbl.setLevel 4] ++ [.call t k args] ++ [.setLevel a.level]) from rfl, e4]
    simp only [recOf, recordStep, h1, List.nil_append, List.append_nil]
    by_cases hut : u = t
    · subst hut; rw [if_pos ⟨rfl, h2⟩, if_pos rfl]
    · rw [if_neg (by rintro ⟨h, -⟩; exact hut h.symm), if_neg hut]
  have hok : ∀ k args site, prog[k]? = some site → ArgsOK cfg site args →
      ∀ l ∈ [Lbl.setLevel 4, .call t k args, .setLevel a.level], l.OK cfg prog := by
    intro k args site h1 h2 l hm
    simp only [List.mem_cons, List.not_mem_nil, or_false] at hm
    rcases hm with rfl | rfl | rfl
    · trivial
    · intro s' hs'; rw [h1] at hs'; cases hs'; exact h2
    · trivial
  have addOne : ∀ {b r' τ'} l, Adds prog b a.level a.level r' τ' (fun _ => 0) 0 → (∀ lv, lvStep lv l = lv) →
      (∀ u, recOf prog u a.level l = []) → (∀ u, isCommit u l = false) → isTake l = false →
      Adds prog (b ++ [l]) a.level a.level r' (fun u => τ' u ++ stampOf u l) (fun _ => 0) 0 := by
    intro b r' τ' l hb h1 h2 h3 h4
    have := hb.append (Adds.one prog l a.level)
    simpa only [h1, h2, h3, h4, List.append_nil, Bool.false_eq_true, if_false, Nat.add_zero] using this
  have runOne : ∀ {b : List Lbl} {a1 a2 : Rt} {l : Lbl}, a.run cfg prog b = .ok a1 → a1.act cfg prog l = .ok a2 →
      a.run cfg prog (b ++ [l]) = .ok a2 := by
    intro b a1 a2 l h1 h2
    rw [rtRun_append, h1]
    simp only [Rt.run, h2]
  -- the steps up to `stamped`
  have toKnown : ∀ id args k site, a.ids k = some id → prog[k]? = some site → (site.info.sev : Int) ≤ 4 →
      a.run cfg prog ([.setLevel 4, .call t k args, .setLevel a.level] ++ [.readId t false]) =
        .ok (a.setThr t { a.thr t with pc := .known id args }) := by
    intro id args k site h1 h2 h3
    refine runOne (hcall k args site h2 h3) ?_
    simp only [Rt.act, Rt.actLog, Rt.setThr, upd_same, h1, hu, Bool.false_eq_true, if_false]
  have toStamped : ∀ (c : LogCall) k site, a.ids k = some c.id → prog[k]? = some site → (site.info.sev : Int) ≤ 4 →
      a.run cfg prog ([.setLevel 4, .call t k c.args, .setLevel a.level] ++ [.readId t false] ++ [.stamp t c.ts]) =
        .ok (a.setThr t { a.thr t with pc := .stamped c }) := by
    intro c k site h1 h2 h3
    refine runOne (toKnown c.id c.args k site h1 h2 h3) ?_
    simp only [Rt.act, Rt.actLog, Rt.setThr, upd_same, hu]
  cases pc <;> simp only [TPc.lags, Bool.false_eq_true] at hlag
  case exited => exact absurd rfl hx
  case idle =>
    obtain ⟨rfl, rfl⟩ : r = [] ∧ τ = [] := h
    refine ⟨[], ?_, by simp, by simp, ?_⟩
    · have := thr_eta a.thr t
      simp only [Rt.run, Rt.setThr]
      rw [← hi, this]
    · have := Adds.nil prog a.level
      simpa using this
  case called k args =>
    obtain ⟨rfl, rfl, site, h1, h2, h3⟩ := h
    exact ⟨_, hcall k args site h1 h2, hok k args site h1 h3, by simp [Lbl.ofBg, Lbl.calm, Lbl.quiet], by simpa using hadd k args site h1 h2⟩
  case reg k args =>
    obtain ⟨rfl, rfl, site, h1, h2, h3⟩ := h
    refine ⟨[.setLevel 4, .call t k args, .setLevel a.level] ++ [.readId t true], runOne (hcall k args site h1 h2) ?_, ?_,
      by simp [Lbl.ofBg, Lbl.calm, Lbl.quiet], ?_⟩
    · simp only [Rt.act, Rt.actLog, Rt.setThr, upd_same]
      cases a.ids k <;> simp only [hu, if_true]
    · intro l hm
      rcases List.mem_append.1 hm with hm | hm
      · exact hok k args site h1 h3 l hm
      · simp only [List.mem_singleton] at hm; subst hm; trivial
    · have := addOne (.readId t true) (hadd k args site h1 h2) (fun _ => rfl) (fun _ => rfl) (fun _ => rfl) rfl
      simpa [stampOf] using this
  case known id args =>
    obtain ⟨k, rfl, rfl, h0, site, h1, h2, h3, h4⟩ := h
    refine ⟨_, toKnown id args k site h0 h1 h3, ?_, by simp [Lbl.ofBg, Lbl.calm, Lbl.quiet], ?_⟩
    · intro l hm
      rcases List.mem_append.1 hm with hm | hm
      · exact hok k args site h1 h4 l hm
      · simp only [List.mem_singleton] at hm; subst hm; trivial
    · have := addOne (.readId t false) (hadd k args site h1 h3) (fun _ => rfl) (fun _ => rfl) (fun _ => rfl) rfl
      simpa [stampOf] using this
  case stamped c =>
    obtain ⟨k, rfl, rfl, h0, hts, site, h1, h2, h3, h4⟩ := h
    refine ⟨_, toStamped c k site h0 h1 h3, ?_, by simp [Lbl.ofBg, Lbl.calm, Lbl.quiet], ?_⟩
    · intro l hm
      rcases List.mem_append.1 hm with hm | hm
      · rcases List.mem_append.1 hm with hm | hm
        · exact hok k c.args site h1 h4 l hm
        · simp only [List.mem_singleton] at hm; subst hm; trivial
      · simp only [List.mem_singleton] at hm; subst hm; exact hts
    · have := addOne (.stamp t c.ts) (addOne (.readId t false) (hadd k c.args site h1 h3) (fun _ => rfl) (fun _ => rfl)
        (fun _ => rfl) rfl) (fun _ => rfl) (fun _ => rfl) (fun _ => rfl) rfl
      simpa [stampOf, eq_comm] using this
  case write c =>
    obtain ⟨k, rfl, rfl, h0, hts, site, h1, h2, h3, h4⟩ := h
    refine ⟨_, runOne (l := .reserve t) (toStamped c k site h0 h1 h3) ?_, ?_, by simp [Lbl.ofBg, Lbl.calm, Lbl.quiet], ?_⟩
    · simp only [Rt.act, Rt.actLog, Rt.setThr, upd_same, hu, if_neg hb]
    · intro l hm
      rcases List.mem_append.1 hm with hm | hm
      · rcases List.mem_append.1 hm with hm | hm
        · rcases List.mem_append.1 hm with hm | hm
          · exact hok k c.args site h1 h4 l hm
          · simp only [List.mem_singleton] at hm; subst hm; trivial
        · simp only [List.mem_singleton] at hm; subst hm; exact hts
      · simp only [List.mem_singleton] at hm; subst hm; trivial
    · have := addOne (.reserve t) (addOne (.stamp t c.ts) (addOne (.readId t false) (hadd k c.args site h1 h3) (fun _ => rfl)
        (fun _ => rfl) (fun _ => rfl) rfl) (fun _ => rfl) (fun _ => rfl) (fun _ => rfl) rfl) (fun _ => rfl) (fun _ => rfl)
        (fun _ => rfl) rfl
      simpa [stampOf, eq_comm] using this

end NanoLog
