import Verif.ComposedLasso
import Verif.Props.StagingLive

/-! With the staging buffers byte by byte: the stores and loads in one staging buffer, as an execution of
`Staging.lean`, and what a waiting log call can rely on. -/

namespace NanoLog

section
variable {cfg : Config} {prog : List Site}

/-- The thread is in `log` (runtime/NanoLogCpp17.h:1015-1047). -/
def TPc.inCall : TPc → Bool
  | .called .. | .reg .. | .known .. | .stamped _ | .take (some _) | .push (some _) | .write _ => true
  | _ => false

/-- How far `log` is from the staging buffer. -/
def TPc.ahead : TPc → Nat
  | .called .. => 6
  | .reg .. => 5
  | .known .. => 4
  | .stamped _ => 3
  | .take _ => 2
  | .push _ => 1
  | _ => 0

/-- Steps of thread `t` (not of its store buffer). -/
def CLbl.own (t : Nat) : CLbl → Bool
  | .rt l => l.who == some t
  | .write u _ | .finish u | .exit u => u == t
  | _ => false

/-- What may be expected of threads in a log statement, and of the memory:
* `storeC`: the oldest pending store of the background thread into a buffer reaches memory at some time;
* `goes`: a thread in a log statement (runtime/NanoLogCpp17.h:1015-1047) goes on; in particular it gets the mutexes it
  locks for its first message (runtime/RuntimeLogger.h:51-70, 172-185), which `std::mutex` does not promise;
* `once`: it stores each byte of its message once (1028-1043). -/
structure CrRun.Runs (r : CrRun cfg prog) : Prop where
  storeC : ∀ k t, ((r.σ k).sb t).cbuf ≠ [] → ∃ j ≥ k, r.lbl j = some (.storeC t)
  goes : ∀ k t, ((r.σ k).rt.thr t).pc.inCall = true → ∃ j ≥ k, ∃ l, r.lbl j = some l ∧ l.own t = true
  once : ∀ k t i b n f, r.lbl k = some (.write t (.put i b)) → ((r.σ k).sb t).pc = .reserved n f → f i = none

/-- Steps of the logging thread in its buffer. -/
def Act.ofLogger : Act → Bool
  | .reserve _ | .pstep | .put .. | .finish _ | .exit => true
  | _ => false

/-- One step or none. -/
def SB.stepO (N : Nat) (s : SB) (a : Option Act) (s' : SB) : Prop :=
  match a with
  | none => s' = s
  | some a => s.act .tso N a = some s'

/-- What a step is in the staging buffer of `t`: `a`, then `b`, which at most ends the visit of the background thread. -/
structure Proj (t : Nat) (c c' : Cr) (l : CLbl) (a b : Option Act) : Prop where
  last : b = none ∨ b = some .release
  store : l = .store t → a = some (.commit 0)
  storeC : l = .storeC t → a = some .commitC
  write : ∀ x, l = .write t x → a = some x
  peek : l = .peek → c'.tgt = some t → a = some .peek
  own : ∀ x, a = some x → x.ofLogger = true → l = .write t x ∨ l = .finish t ∨ l = .exit t
  ownC : a = some .commitC → l = .storeC t

theorem act_proj {c c' : Cr} {l : CLbl} (ha : c.act cfg prog l = .ok c') (t : Nat) :
    ∃ a mid b, (c.sb t).stepO cfg.staging a mid ∧ mid.stepO cfg.staging b (c'.sb t) ∧ Proj t c c' l a b := by
  have hlift : ∀ {c1 : Cr} {o : Out}, c1.lift o = .ok c' → c'.sb = c1.sb ∧ c'.tgt = c1.tgt := by
    intro c1 o h
    cases o <;> simp only [Cr.lift] at h <;> cases h
    exact ⟨rfl, rfl⟩
  have same : c'.sb t = c.sb t → Proj t c c' l none none →
      ∃ a mid b, (c.sb t).stepO cfg.staging a mid ∧ mid.stepO cfg.staging b (c'.sb t) ∧ Proj t c c' l a b :=
    fun h hp => ⟨none, c.sb t, none, rfl, h, hp⟩
  have one : ∀ {u : Nat} {s : SB} {a : Act}, (c.sb u).act .tso cfg.staging a = some s → c'.sb = upd c.sb u s →
      (u = t → Proj t c c' l (some a) none) → (u ≠ t → Proj t c c' l none none) →
      ∃ a mid b, (c.sb t).stepO cfg.staging a mid ∧ mid.stepO cfg.staging b (c'.sb t) ∧ Proj t c c' l a b := by
    intro u s a ha hb h1 h2
    by_cases hu : u = t
    · subst hu; exact ⟨some a, s, none, ha, by rw [hb, upd_same]; rfl, h1 rfl⟩
    · exact same (by rw [hb, upd_other _ _ (Ne.symm hu)]) (h2 hu)
  cases l with
  | rt l =>
    refine same (by rw [(cr_rt ha).2]) ⟨.inl rfl, ?_, ?_, ?_, ?_, ?_, ?_⟩ <;> simp
  | write u a =>
    simp only [Cr.act, Cr.actThr] at ha
    (repeat' split at ha) <;> try cases ha
    rename_i s hs
    refine one hs rfl (fun hu => ⟨.inl rfl, ?_, ?_, ?_, ?_, ?_, ?_⟩) (fun hu => ⟨.inl rfl, ?_, ?_, ?_, ?_, ?_, ?_⟩) <;>
      (clear one same hlift; simp_all [Act.ofLogger] <;> (rintro rfl; contradiction))
  | finish u =>
    simp only [Cr.act, Cr.actThr] at ha
    (repeat' split at ha) <;> try cases ha
    rename_i s hs
    refine one hs rfl (fun hu => ⟨.inl rfl, ?_, ?_, ?_, ?_, ?_, ?_⟩) (fun hu => ⟨.inl rfl, ?_, ?_, ?_, ?_, ?_, ?_⟩) <;>
      (clear one same hlift; simp_all [Act.ofLogger])
  | exit u =>
    simp only [Cr.act, Cr.actThr] at ha
    (repeat' split at ha) <;> try cases ha
    · refine same rfl ⟨.inl rfl, ?_, ?_, ?_, ?_, ?_, ?_⟩ <;> simp
    · rename_i s hs
      refine one hs rfl (fun hu => ⟨.inl rfl, ?_, ?_, ?_, ?_, ?_, ?_⟩) (fun hu => ⟨.inl rfl, ?_, ?_, ?_, ?_, ?_, ?_⟩) <;>
      (clear one same hlift; simp_all [Act.ofLogger])
  | store u =>
    simp only [Cr.act, Cr.actThr] at ha
    (repeat' split at ha) <;> try cases ha
    rename_i s hs _
    refine one hs rfl (fun hu => ⟨.inl rfl, ?_, ?_, ?_, ?_, ?_, ?_⟩) (fun hu => ⟨.inl rfl, ?_, ?_, ?_, ?_, ?_, ?_⟩) <;>
      (clear one same hlift; simp_all [Act.ofLogger])
  | storeC u =>
    simp only [Cr.act, Cr.actThr] at ha
    (repeat' split at ha) <;> try cases ha
    rename_i s hs
    refine one hs rfl (fun hu => ⟨.inl rfl, ?_, ?_, ?_, ?_, ?_, ?_⟩) (fun hu => ⟨.inl rfl, ?_, ?_, ?_, ?_, ?_, ?_⟩) <;>
      (clear one same hlift; simp_all [Act.ofLogger])
  | peek =>
    simp only [Cr.act, Cr.actBg] at ha
    (repeat' split at ha) <;> try cases ha
    · refine same rfl ⟨.inl rfl, ?_, ?_, ?_, ?_, ?_, ?_⟩ <;>
      (clear one same hlift; simp_all [Act.ofLogger])
    · rename_i s hs
      refine one hs rfl (fun hu => ⟨.inl rfl, ?_, ?_, ?_, ?_, ?_, ?_⟩) (fun hu => ⟨.inl rfl, ?_, ?_, ?_, ?_, ?_, ?_⟩) <;>
      (clear one same hlift; simp_all [Act.ofLogger])
  | follow =>
    simp only [Cr.act, Cr.actBg] at ha
    (repeat' split at ha) <;> try cases ha
    all_goals
      refine one (by assumption) rfl (fun hu => ⟨.inl rfl, ?_, ?_, ?_, ?_, ?_, ?_⟩) (fun hu => ⟨.inl rfl, ?_, ?_, ?_, ?_, ?_, ?_⟩) <;>
      (clear one same hlift; simp_all [Act.ofLogger])
  | look i =>
    simp only [Cr.act, Cr.actBg] at ha
    (repeat' split at ha) <;> try cases ha
    refine one (by assumption) rfl (fun hu => ⟨.inl rfl, ?_, ?_, ?_, ?_, ?_, ?_⟩) (fun hu => ⟨.inl rfl, ?_, ?_, ?_, ?_, ?_, ?_⟩) <;>
      (clear one same hlift; simp_all [Act.ofLogger])
  | check =>
    simp only [Cr.act, Cr.actBg, Cr.next] at ha
    (repeat' split at ha) <;> try cases ha
    · refine one (by assumption) (hlift ha).1 (fun hu => ⟨.inl rfl, ?_, ?_, ?_, ?_, ?_, ?_⟩) (fun hu => ⟨.inl rfl, ?_, ?_, ?_, ?_, ?_, ?_⟩) <;>
        simp [Act.ofLogger]
    · refine one (by assumption) (hlift ha).1 (fun hu => ⟨.inl rfl, ?_, ?_, ?_, ?_, ?_, ?_⟩) (fun hu => ⟨.inl rfl, ?_, ?_, ?_, ?_, ?_, ?_⟩) <;>
        simp [Act.ofLogger]
    · refine one (by assumption) rfl (fun hu => ⟨.inl rfl, ?_, ?_, ?_, ?_, ?_, ?_⟩) (fun hu => ⟨.inl rfl, ?_, ?_, ?_, ?_, ?_, ?_⟩) <;>
        simp [Act.ofLogger]
  | encode j m =>
    simp only [Cr.act, Cr.actBg, Cr.next] at ha
    (repeat' split at ha) <;> try cases ha
    · refine one (by assumption) (hlift ha).1 (fun hu => ⟨.inl rfl, ?_, ?_, ?_, ?_, ?_, ?_⟩) (fun hu => ⟨.inl rfl, ?_, ?_, ?_, ?_, ?_, ?_⟩) <;>
        simp [Act.ofLogger]
    · rename_i s1 hs _ _ s2 hs2
      have hsb : c'.sb = upd (upd c.sb c.rt.cur s1) c.rt.cur s2 := (hlift ha).1
      have hs2 : (upd c.sb c.rt.cur s1 c.rt.cur).act .tso cfg.staging .release = some s2 := hs2
      rw [upd_same] at hs2
      by_cases hu : c.rt.cur = t
      · subst hu
        refine ⟨some (.consume _), s1, some .release, hs, ?_, .inr rfl, ?_, ?_, ?_, ?_, ?_, ?_⟩
        · rw [hsb, upd_same]; exact hs2
        all_goals simp [Act.ofLogger]
      · refine same (by rw [hsb, upd_other _ _ (Ne.symm hu), upd_other _ _ (Ne.symm hu)]) ⟨.inl rfl, ?_, ?_, ?_, ?_, ?_, ?_⟩ <;> simp
    · refine one (by assumption) rfl (fun hu => ⟨.inl rfl, ?_, ?_, ?_, ?_, ?_, ?_⟩) (fun hu => ⟨.inl rfl, ?_, ?_, ?_, ?_, ?_, ?_⟩) <;>
        simp [Act.ofLogger]

theorem sbpc_same {N : Nat} {s s' : SB} {a : Act} (ha : s.act .tso N a = some s') (hb : a.ofLogger = false) : s'.pc = s.pc := by
  refine (act_pc ha).1 ⟨?_, ?_, ?_, ?_, ?_⟩
  all_goals (intros; rintro rfl; cases hb)

/-- The stores and loads in the buffer of one thread. -/
theorem CrRun.sbExec (r : CrRun cfg prog) (t : Nat) : ∃ (e : Exec .tso cfg.staging),
    (∀ k, e.σ (2 * k) = (r.σ k).sb t) ∧
    (∀ k, (r.lbl k = none ∧ e.α (2 * k) = none ∧ e.α (2 * k + 1) = none) ∨
      ∃ l, r.lbl k = some l ∧ Proj t (r.σ k) (r.σ (k + 1)) l (e.α (2 * k)) (e.α (2 * k + 1))) := by
  have hex : ∀ k, ∃ a mid b, ((r.σ k).sb t).stepO cfg.staging a mid ∧ mid.stepO cfg.staging b ((r.σ (k + 1)).sb t) ∧
      ((r.lbl k = none ∧ a = none ∧ b = none) ∨ ∃ l, r.lbl k = some l ∧ Proj t (r.σ k) (r.σ (k + 1)) l a b) := by
    intro k
    have hs := r.step k
    cases hl : r.lbl k with
    | none =>
      rw [hl] at hs; simp only at hs
      exact ⟨none, _, none, rfl, by rw [hs]; rfl, .inl ⟨rfl, rfl, rfl⟩⟩
    | some l =>
      rw [hl] at hs; simp only at hs
      obtain ⟨a, mid, b, h1, h2, h3⟩ := act_proj hs t
      exact ⟨a, mid, b, h1, h2, .inr ⟨l, rfl, h3⟩⟩
  choose A M B h1 h2 h3 using hex
  refine ⟨⟨fun n => if n % 2 = 0 then (r.σ (n / 2)).sb t else M (n / 2), fun n => if n % 2 = 0 then A (n / 2) else B (n / 2),
    ?_, ?_⟩, ?_, ?_⟩
  · obtain ⟨jk, k, -, -, h⟩ := r.start
    simp only [Cr.init, Option.map_eq_some_iff] at h
    obtain ⟨s, -, h⟩ := h
    simp only [Nat.zero_mod, if_true, Nat.zero_div]
    rw [← h]
  · intro n
    by_cases hn : n % 2 = 0
    · have e1 : (n + 1) % 2 ≠ 0 := by omega
      have e2 : (n + 1) / 2 = n / 2 := by omega
      simp only [hn, if_true, e1, if_false, e2]
      have := h1 (n / 2)
      unfold SB.stepO at this
      exact this
    · have e1 : (n + 1) % 2 = 0 := by omega
      have e2 : (n + 1) / 2 = n / 2 + 1 := by omega
      simp only [hn, if_true, e1, if_false, e2]
      have := h2 (n / 2)
      unfold SB.stepO at this
      exact this
  · intro k
    simp only [Nat.mul_mod_right, if_true]
    rw [Nat.mul_div_cancel_left _ (by omega)]
  · intro k
    have e1 : (2 * k + 1) % 2 ≠ 0 := by omega
    have e2 : (2 * k + 1) / 2 = k := by omega
    simp only [Nat.mul_mod_right, if_true, e1, if_false, e2]
    rw [Nat.mul_div_cancel_left _ (by omega)]
    exact h3 k

/-- A thread writing a message goes on writing it. -/
theorem act_write {s s' : Rt} {l : Lbl} (ha : s.act cfg prog l = .ok s') (hr : l.replaced = false) {u : Nat} {m : LogCall}
    (h : (s.thr u).pc = .write m) : (s'.thr u).pc = .write m := by
  have hset : ∀ (t : Nat) (th : Thr), (t = u → th.pc = (s.thr u).pc) → (upd s.thr t th u).pc = .write m := by
    intro t th h'
    by_cases ht : u = t
    · subst ht; rw [upd_same, h' rfl, h]
    · rw [upd_other _ _ ht, h]
  have hbg : BgStep s s' → (s'.thr u).pc = .write m := by
    intro hb
    rcases hb.pc u with h1 | ⟨sw', h1, h2⟩
    · rw [h1, h]
    · rw [h1] at h; cases h
  cases l
  case top | dict | peek | check | encode => simp only [Rt.act] at ha; exact hbg (actScan_bg ha)
  case scanned | aio | aioDone | write | disk => simp only [Rt.act] at ha; exact hbg (actIo_bg ha)
  case commit | exitThread => cases hr
  all_goals
    simp only [Rt.act, Rt.actLog, Rt.actBuf, Rt.actCtl] at ha
    repeat' split at ha
    all_goals first
      | (cases ha; exact h)
      | (cases ha
         refine hset _ _ fun hx => ?_
         subst hx
         exfalso
         simp_all)
      | cases ha

theorem cr_write {c c' : Cr} {l : CLbl} (ha : c.act cfg prog l = .ok c') {u : Nat} {m : LogCall}
    (h : (c.rt.thr u).pc = .write m) (hl : l ≠ .finish u) : (c'.rt.thr u).pc = .write m ∧ l ≠ .exit u := by
  refine ⟨?_, ?_⟩
  · by_cases hr : ∃ m, l = .rt m
    · obtain ⟨b, rfl⟩ := hr
      refine act_write (cr_rt ha).1 ?_ h
      simp only [Cr.act, Cr.actRt] at ha
      split at ha
      · cases ha
      · rename_i hb; simpa using hb
    · rcases cr_pc ha (fun m e => hr ⟨m, e⟩) u with h1 | ⟨h1, -⟩ | ⟨-, h1⟩
      · rw [h1, h]
      · exact absurd h1 hl
      · rw [h1] at h; cases h
  · rintro rfl
    simp [Cr.act, Cr.actThr, h] at ha

theorem cr_sbpc {c c' : Cr} {l : CLbl} (ha : c.act cfg prog l = .ok c') {t : Nat} (h1 : ∀ a, l ≠ .write t a)
    (h2 : l ≠ .finish t) (h3 : l ≠ .exit t) : (c'.sb t).pc = (c.sb t).pc := by
  obtain ⟨a, mid, b, ha, hb, hp⟩ := act_proj ha t
  have hm : mid.pc = (c.sb t).pc := by
    cases a with
    | none => rw [show mid = c.sb t from ha]
    | some x =>
      refine sbpc_same ha ?_
      cases hx : x.ofLogger with
      | false => rfl
      | true =>
        rcases hp.own x rfl hx with h | h | h
        · exact absurd h (h1 x)
        · exact absurd h h2
        · exact absurd h h3
  rw [← hm]
  rcases hp.last with rfl | rfl
  · rw [show c'.sb t = mid from hb]
  · exact sbpc_same hb rfl

/-- Steps in `log` before the staging buffer. -/
theorem act_ahead {s s' : Rt} {l : Lbl} (ha : s.act cfg prog l = .ok s') (hr : l.replaced = false) {u : Nat}
    (h : (s.thr u).pc.inCall = true) : (l.who ≠ some u ∧ (s'.thr u).pc = (s.thr u).pc) ∨
      (s'.thr u).pc.inCall = true ∧ (s'.thr u).pc.ahead < (s.thr u).pc.ahead := by
  have hset : ∀ (t : Nat) (th : Thr), l.who = some t → (t = u → th.pc.inCall = true ∧ th.pc.ahead < (s.thr u).pc.ahead) →
      (l.who ≠ some u ∧ (upd s.thr t th u).pc = (s.thr u).pc) ∨
      (upd s.thr t th u).pc.inCall = true ∧ (upd s.thr t th u).pc.ahead < (s.thr u).pc.ahead := by
    intro t th hw h'
    by_cases ht : u = t
    · subst ht; rw [upd_same]; exact .inr (h' rfl)
    · rw [upd_other _ _ ht, hw]; exact .inl ⟨by simp; omega, rfl⟩
  have hbg : BgStep s s' → (s'.thr u).pc = (s.thr u).pc := by
    intro hb
    rcases hb.pc u with h1 | ⟨sw', h1, h2⟩
    · exact h1
    · rw [h1] at h; cases h
  cases l
  case top | dict | peek | check | encode => simp only [Rt.act] at ha; exact .inl ⟨by simp [Lbl.who], hbg (actScan_bg ha)⟩
  case scanned | aio | aioDone | write | disk => simp only [Rt.act] at ha; exact .inl ⟨by simp [Lbl.who], hbg (actIo_bg ha)⟩
  case commit | exitThread => cases hr
  all_goals
    simp only [Rt.act, Rt.actLog, Rt.actBuf, Rt.actCtl] at ha
    (repeat' split at ha) <;> try cases ha
  all_goals first
    | (refine .inl ⟨?_, rfl⟩
       intro hx
       cases hx
       done)
    | (refine hset _ _ rfl fun hx => ?_
       subst hx
       simp_all [TPc.inCall, TPc.ahead]
       done)
    | (refine hset _ _ rfl fun hx => ?_
       subst hx
       rename Option LogCall => c
       cases c <;> simp_all [TPc.inCall, TPc.ahead, afterAlloc]
       done)
    | (refine hset _ _ rfl fun hx => ?_
       subst hx
       split <;> simp_all [TPc.inCall, TPc.ahead]
       done)
    | (refine .inl ⟨fun hx => ?_, rfl⟩
       simp only [Lbl.who, Option.some.injEq] at hx
       subst hx
       simp_all [TPc.inCall]
       done)
    | skip

/-- A thread in `log` stays where it is while others act. -/
theorem act_alien {s s' : Rt} {l : Lbl} (ha : s.act cfg prog l = .ok s') {u : Nat} (hw : l.who ≠ some u)
    (h : (s.thr u).pc.inCall = true) : (s'.thr u).pc = (s.thr u).pc := by
  have hset : ∀ (t : Nat) (th : Thr), l.who = some t → (upd s.thr t th u).pc = (s.thr u).pc := by
    intro t th hx
    rw [upd_other _ _ (fun e => hw (by rw [hx, e]))]
  have hbg : BgStep s s' → (s'.thr u).pc = (s.thr u).pc := by
    intro hb
    rcases hb.pc u with h1 | ⟨sw', h1, h2⟩
    · exact h1
    · rw [h1] at h; cases h
  cases l
  case top | dict | peek | check | encode => simp only [Rt.act] at ha; exact hbg (actScan_bg ha)
  case scanned | aio | aioDone | write | disk => simp only [Rt.act] at ha; exact hbg (actIo_bg ha)
  all_goals
    simp only [Rt.act, Rt.actLog, Rt.actBuf, Rt.actCtl] at ha
    (repeat' split at ha) <;> try cases ha
  all_goals first
    | rfl
    | exact hset _ _ rfl

theorem cr_ahead {c c' : Cr} {l : CLbl} (ha : c.act cfg prog l = .ok c') {u : Nat} (h : (c.rt.thr u).pc.inCall = true) :
    (∃ m, (c.rt.thr u).pc = .write m) ∨ (l.own u = false ∧ (c'.rt.thr u).pc = (c.rt.thr u).pc) ∨
      (c'.rt.thr u).pc.inCall = true ∧ (c'.rt.thr u).pc.ahead < (c.rt.thr u).pc.ahead := by
  by_cases hw : ∃ m, (c.rt.thr u).pc = .write m
  · exact .inl hw
  refine .inr ?_
  by_cases hr : ∃ m, l = .rt m
  · obtain ⟨b, rfl⟩ := hr
    have hr : b.replaced = false := by
      simp only [Cr.act, Cr.actRt] at ha
      split at ha
      · cases ha
      · rename_i hb; simpa using hb
    rcases act_ahead (cr_rt ha).1 hr h with h1 | h1
    · exact .inl ⟨by simpa [CLbl.own] using h1.1, h1.2⟩
    · exact .inr h1
  · have hno : l.own u = false := by
      cases l <;> first | rfl | skip
      case rt l => exact absurd ⟨l, rfl⟩ hr
      all_goals
        simp only [CLbl.own, beq_eq_false_iff_ne, ne_eq]
        rintro rfl
        simp only [Cr.act, Cr.actThr] at ha
        split at ha
        · first
            | exact hw ⟨_, by assumption⟩
            | (rename_i hp; rw [hp] at h; cases h)
        · cases ha
    refine .inl ⟨hno, ?_⟩
    rcases cr_pc ha (fun m e => hr ⟨m, e⟩) u with h1 | ⟨h1, -⟩ | ⟨h1, -⟩
    · exact h1
    · rw [h1] at hno; simp [CLbl.own] at hno
    · rw [h1] at hno; simp [CLbl.own] at hno

/-- Steps of others. -/
theorem cr_others {c c' : Cr} {l : CLbl} (ha : c.act cfg prog l = .ok c') {u : Nat} (h : (c.rt.thr u).pc.inCall = true)
    (hl : l.own u = false) : (c'.rt.thr u).pc = (c.rt.thr u).pc := by
  by_cases hr : ∃ m, l = .rt m
  · obtain ⟨b, rfl⟩ := hr
    have hr : b.replaced = false := by
      simp only [Cr.act, Cr.actRt] at ha
      split at ha
      · cases ha
      · rename_i hb; simpa using hb
    exact act_alien (cr_rt ha).1 (by simpa [CLbl.own] using hl) h
  · rcases cr_pc ha (fun m e => hr ⟨m, e⟩) u with h1 | ⟨h1, -⟩ | ⟨h1, -⟩
    · exact h1
    · rw [h1] at hl; simp [CLbl.own] at hl
    · rw [h1] at hl; simp [CLbl.own] at hl

/-- The steps of a thread that writes a message. -/
theorem own_write {c c' : Cr} {l : CLbl} (ha : c.act cfg prog l = .ok c') {u : Nat} {m : LogCall}
    (h : (c.rt.thr u).pc = .write m) (hl : l.own u = true) : l = .finish u ∨ ∃ a, l = .write u a := by
  cases l <;> simp only [CLbl.own, Bool.false_eq_true, beq_iff_eq] at hl
  case rt l =>
    have hr : l.replaced = false := by
      simp only [Cr.act, Cr.actRt] at ha
      split at ha
      · cases ha
      · rename_i hb; simpa using hb
    rcases act_ahead (cr_rt ha).1 hr (u := u) (by rw [h]; rfl) with h1 | h1
    · exact absurd hl h1.1
    · rw [h] at h1; exact absurd h1.2 (by simp [TPc.ahead])
  case write t a => subst hl; exact .inr ⟨a, rfl⟩
  case finish t => subst hl; exact .inl rfl
  case exit t => subst hl; exact absurd rfl (cr_write ha h (by simp)).2

/-- The next step of a thread that writes a message. -/
theorem CrRun.next_own {r : CrRun cfg prog} (hR : r.Runs) {k t : Nat} {m : LogCall}
    (hw : ((r.σ k).rt.thr t).pc = .write m) :
    ∃ j ≥ k, (r.lbl j = some (.finish t) ∨ ∃ a, r.lbl j = some (.write t a)) ∧
      ((r.σ j).sb t).pc = ((r.σ k).sb t).pc ∧ ((r.σ j).rt.thr t).pc = .write m := by
  obtain ⟨j0, hj0, l0, hl0, ho0⟩ := hR.goes k t (by rw [hw]; rfl)
  have key : ∀ d, (∃ j ≥ k, (r.lbl j = some (.finish t) ∨ ∃ a, r.lbl j = some (.write t a)) ∧
      ((r.σ j).sb t).pc = ((r.σ k).sb t).pc ∧ ((r.σ j).rt.thr t).pc = .write m) ∨
      ((r.σ (k + d)).sb t).pc = ((r.σ k).sb t).pc ∧ ((r.σ (k + d)).rt.thr t).pc = .write m := by
    intro d
    induction d with
    | zero => exact .inr ⟨rfl, hw⟩
    | succ d ih =>
      rcases ih with ih | ⟨h1, h2⟩
      · exact .inl ih
      by_cases hx : r.lbl (k + d) = some (.finish t) ∨ ∃ a, r.lbl (k + d) = some (.write t a)
      · exact .inl ⟨k + d, by omega, hx, h1, h2⟩
      have hs := r.step (k + d)
      cases hl : r.lbl (k + d) with
      | none =>
        rw [hl] at hs; simp only at hs
        rw [← Nat.add_assoc, hs]; exact .inr ⟨h1, h2⟩
      | some l =>
        rw [hl] at hs hx; simp only at hs
        have hf : l ≠ .finish t := fun e => hx (.inl (by rw [e]))
        obtain ⟨h3, h4⟩ := cr_write hs h2 hf
        refine .inr ⟨?_, h3⟩
        rw [← Nat.add_assoc, cr_sbpc hs (fun a e => hx (.inr ⟨a, by rw [e]⟩)) hf h4, h1]
  rcases key (j0 - k) with h | ⟨h1, h2⟩
  · exact h
  · rw [show k + (j0 - k) = j0 by omega] at h1 h2
    have hs := r.step j0
    rw [hl0] at hs
    refine ⟨j0, hj0, ?_, h1, h2⟩
    rw [hl0]
    rcases own_write hs h2 ho0 with h3 | ⟨a, h3⟩
    · exact .inl (by rw [h3])
    · exact .inr ⟨a, by rw [h3]⟩

/-- A thread that waits is writing a message, and cannot finish it. -/
theorem waiting_finish {c : Cr} {t n : Nat} (hw : (c.sb t).pc.waiting n) (c' : Cr) :
    c.act cfg prog (.finish t) ≠ .ok c' := by
  intro ha
  simp only [Cr.act, Cr.actThr] at ha
  (repeat' split at ha) <;> try cases ha
  rename_i s hs
  cases hp : (c.sb t).pc <;> simp [PPc.waiting, hp] at hw <;> simp [SB.act, hp] at hs

theorem waiting_write {c c' : Cr} {t n : Nat} (hw : (c.sb t).pc.waiting n) {a : Act}
    (ha : c.act cfg prog (.write t a) = .ok c') : a = .pstep := by
  simp only [Cr.act, Cr.actThr] at ha
  (repeat' split at ha) <;> try cases ha
  rename_i hok _ s hs
  cases hp : (c.sb t).pc <;> simp [PPc.waiting, hp] at hw <;> cases a <;> simp [okWrite] at hok <;>
    first | rfl | simp [SB.act, hp] at hs

/-- Half-steps: what the end of a visit leaves. -/
theorem half {e : Exec .tso cfg.staging} {r : CrRun cfg prog} {t : Nat}
    (hα : ∀ k, (r.lbl k = none ∧ e.α (2 * k) = none ∧ e.α (2 * k + 1) = none) ∨
      ∃ l, r.lbl k = some l ∧ Proj t (r.σ k) (r.σ (k + 1)) l (e.α (2 * k)) (e.α (2 * k + 1))) (i : Nat) :
    (e.σ (2 * ((i + 1) / 2))).pc = (e.σ i).pc ∧ (e.σ (2 * ((i + 1) / 2))).buf = (e.σ i).buf ∧
      (e.σ (2 * ((i + 1) / 2))).cbuf = (e.σ i).cbuf := by
  by_cases hi : i % 2 = 0
  · rw [show 2 * ((i + 1) / 2) = i by omega]; exact ⟨rfl, rfl, rfl⟩
  · rw [show 2 * ((i + 1) / 2) = i + 1 by omega]
    have hs := e.step i
    have hlast : e.α i = none ∨ e.α i = some .release := by
      rcases hα (i / 2) with ⟨-, -, h⟩ | ⟨l, -, h⟩
      · rw [show 2 * (i / 2) + 1 = i by omega] at h; exact .inl h
      · have := h.last
        rwa [show 2 * (i / 2) + 1 = i by omega] at this
    rcases hlast with h | h
    · rw [h] at hs; simp only at hs; rw [hs]; exact ⟨rfl, rfl, rfl⟩
    · rw [h] at hs
      simp only [SB.act] at hs
      (repeat' split at hs) <;> simp only [Option.some.injEq, reduceCtorEq] at hs <;> rw [← hs] <;> exact ⟨rfl, rfl, rfl⟩

/-- The only step that finds a buffer empty. -/
theorem empty_peek {s s' : Rt} {l : Lbl} (ha : s.act cfg prog l = .ok s') (h1 : s.pc = .scan) (h2 : s'.pc = .check) :
    l = .peek 0 := by
  cases hb : l.ofBg with
  | false =>
    rcases act_bgpc ha hb with ⟨h, -⟩ | ⟨h, -⟩
    · rw [h1, h2] at h; cases h
    · rw [h1] at h; cases h
  | true =>
    cases l <;> simp only [Lbl.ofBg, Bool.false_eq_true] at hb
    case peek n =>
      simp only [Rt.act, Rt.actScan] at ha
      (repeat' split at ha) <;> cases ha
      all_goals first | (cases h2; done) | simp_all
    all_goals (simp [Rt.act, Rt.actScan, Rt.actIo, h1] at ha)

/-- Threads only add buffers. -/
theorem act_bufs_mem {s s' : Rt} {l : Lbl} (ha : s.act cfg prog l = .ok s') (hl : l.ofBg = false) {t : Nat}
    (h : t ∈ s.bufs) : t ∈ s'.bufs := by
  cases l <;> simp only [Lbl.ofBg, Bool.true_eq_false] at hl
  all_goals
    simp only [Rt.act, Rt.actLog, Rt.actBuf, Rt.actCtl, Rt.actIo] at ha
    repeat' split at ha
    all_goals first
      | (cases ha; exact h)
      | (cases ha; exact List.mem_append_left _ h)
      | cases ha

section
variable {r : CrRun cfg prog} {als bls : Nat → List Lbl} {r' : RtRun cfg prog}

/-- Nothing happens in the rest of a block of one step. -/
theorem RunOf.rest (h : RunOf r als bls r') {k : Nat} (hb : (bls k).length ≤ 1) (d : Nat) (hd : d ≤ 7) :
    r'.σ (8 * k + 8) = r'.σ (8 * k + 8 - d) := by
  induction d with
  | zero => rfl
  | succ d ih =>
    rw [ih (by omega)]
    have hs := r'.step (8 * k + 8 - (d + 1))
    rw [h.lbl, show (8 * k + 8 - (d + 1)) / 8 = k by omega, List.getElem?_eq_none (by omega)] at hs
    simp only at hs
    rw [← hs]
    congr 1
    omega

theorem RunOf.bufs_mid (h : RunOf r als bls r') {t k : Nat} (hm : ∀ j ≥ k, t ∈ (r.σ j).rt.bufs) (n : Nat) (hn : 8 * k ≤ n) :
    t ∈ (r'.σ n).bufs := by
  have hmul : ∀ j ≥ k, t ∈ (r'.σ (8 * j)).bufs := by
    intro j hj
    obtain ⟨G, kls, rr, τ, held, hR, hs⟩ := h.rel j
    rw [hs]; exact hm j hj
  by_cases hz : n % 8 = 0
  · rw [show n = 8 * (n / 8) by omega]; exact hmul _ (by omega)
  have hone : (bls (n / 8)).length ≤ 1 ∨ ∀ b ∈ bls (n / 8), b.ofBg = false := by
    cases hl : r.lbl (n / 8) with
    | none => rw [h.flat.none _ hl]; exact .inl (by simp)
    | some l =>
      rcases (h.flat.some _ l hl).one with h1 | h1
      · exact .inl h1
      · exact .inr fun b hb => (h1 b hb).1
  rcases hone with h1 | h1
  · have := h.rest h1 (8 * (n / 8) + 8 - n) (by omega)
    rw [show 8 * (n / 8) + 8 - (8 * (n / 8) + 8 - n) = n by omega] at this
    rw [← this, show 8 * (n / 8) + 8 = 8 * (n / 8 + 1) by omega]
    exact hmul _ (by omega)
  · have run : ∀ d, d ≤ 7 → t ∈ (r'.σ (8 * (n / 8) + d)).bufs := by
      intro d
      induction d with
      | zero => intro _; exact hmul _ (by omega)
      | succ d ih =>
        intro hd
        have hs := r'.step (8 * (n / 8) + d)
        cases hl : r'.lbl (8 * (n / 8) + d) with
        | none => rw [hl] at hs; simp only at hs; rw [← Nat.add_assoc, hs]; exact ih (by omega)
        | some b =>
          rw [hl] at hs; simp only at hs
          refine act_bufs_mem hs (h1 b ?_) (ih (by omega))
          rw [h.lbl, show (8 * (n / 8) + d) / 8 = n / 8 by omega] at hl
          exact List.mem_of_getElem? hl
    have := run (n % 8) (by omega)
    rwa [show 8 * (n / 8) + n % 8 = n by omega] at this

/-- A thread that waits for space in its staging buffer is writing a message, smaller than the buffer; its buffer is known
to the background thread. -/
theorem RunOf.writing (h : RunOf r als bls r') (hP : ProgOK cfg prog) {k t n : Nat} (hw : ((r.σ k).sb t).pc.waiting n) :
    ∃ m, ((r.σ k).rt.thr t).pc = .write m ∧ n < cfg.staging := by
  obtain ⟨G, kls, rr, τ, held, hR, -⟩ := h.rel k
  have hp := (hR.thr t).prel
  unfold PRel at hp
  have hc := (hR.thr t).pcr
  split at hp
  · rename_i m hm
    refine ⟨m, hm, ?_⟩
    rw [hm] at hc
    obtain ⟨κ, -, -, hk⟩ := hc
    have hok := hk.callOK hP (show (r.σ k).rt.sites.length < _ from
      Nat.lt_of_le_of_lt (hR.exec.inv hP).2.ids.count.1 hP.count)
    have h1 := (img_size hok).1
    have h2 := hok.size
    have h3 : n = (img (r.σ k).rt.sites m).length := by
      unfold PWr at hp
      cases he : ((r.σ k).sb t).pc <;> simp only [he, PPc.waiting] at hw hp
      · rw [← hw, hp]
      · rw [← hw, hp]
      · rw [← hw, hp]
    omega
  · split at hp <;> rw [hp] at hw <;> exact absurd hw (by simp [PPc.waiting])
  · rw [hp] at hw; exact absurd hw (by simp [PPc.waiting])

theorem RunOf.inBufs (h : RunOf r als bls r') (hP : ProgOK cfg prog) {k t : Nat} {m : LogCall}
    (hw : ((r.σ k).rt.thr t).pc = .write m) : t ∈ (r.σ k).rt.bufs := by
  obtain ⟨G, kls, rr, τ, held, hR, -⟩ := h.rel k
  have hI := (hR.exec.inv hP).1.thr t
  have ht := hR.thr t
  cases hk : kls t with
  | nil =>
    have := ht.sync hk
    rw [aim, if_neg (by rw [hw]; simp), hw] at this
    exact hI.write m this
  | cons p rest => exact hI.write p.2 (ht.lag p rest hk).1

/-- A thread that waits for space in its staging buffer obtains it. -/
theorem RunOf.obtains (h : RunOf r als bls r') (hP : ProgOK cfg prog) (hL : LiveOK cfg prog) (h0 : 0 < cfg.staging)
    (hF : r.Fair) (hR : r.Runs) {K : Nat} (hs : r.NoStartFrom K) (hroom : 3 * cfg.staging + 25 ≤ cfg.output) {k t n : Nat}
    (hw : ((r.σ k).sb t).pc.waiting n) : ∃ j ≥ k, ∃ f, ((r.σ j).sb t).pc = .reserved n f := by
  by_contra hno
  obtain ⟨e, hσ, hα⟩ := r.sbExec t
  have hlt : cfg.staging < 2 ^ 64 := by have := hP.staging; omega
  have hwe : (e.σ (2 * k)).pc.waiting n := by rw [hσ]; exact hw
  have hne : ¬ ∃ j f, 2 * k ≤ j ∧ (e.σ j).pc = .reserved n f := by
    rintro ⟨j, f, hj, hf⟩
    refine hno ⟨(j + 1) / 2, by omega, f, ?_⟩
    rw [← hσ, (half hα j).1, hf]
  have hwait : ∀ j ≥ k, ((r.σ j).sb t).pc.waiting n := by
    intro j hj
    rw [← hσ]
    exact e.waits hwe hne (2 * j) (by omega)
  have hpub : ∀ j, 2 * k ≤ j → (e.σ j).pub = (e.σ (2 * k)).pub := by
    apply e.always (P := fun s => s.pub = (e.σ (2 * k)).pub) rfl
    intro j a hj ha hs h
    rw [waiting_pub (e.waits hwe hne j hj) hs, h]
  -- no call of the thread returns
  have hfin : ∀ j ≥ k, finished t (r.labels j) = finished t (r.labels k) := by
    intro j hj
    induction j, hj using Nat.le_induction with
    | base => rfl
    | succ j hj ih =>
      rw [r.labels_succ]
      cases hl : r.lbl j with
      | none => simpa using ih
      | some l =>
        rw [Option.toList_some, finished_snoc, ih]
        have hst := r.step j
        rw [hl] at hst; simp only at hst
        cases l <;> simp only [Nat.add_zero]
        rename_i u
        by_cases hu : u = t
        · subst hu; exact absurd hst (waiting_finish (hwait j hj) _)
        · simp [hu]
  -- all of its messages are taken
  obtain ⟨j1, hj1, hd⟩ := h.drained hF t k
  have hret : ∀ j ≥ j1, returned t (als j) = finished t (r.labels k) := by
    intro j hj
    obtain ⟨G, kls, rr, τ, held, hRel, -⟩ := h.rel j
    have h1 := (hRel.obs t).ret
    have h2 := h.flat.returned_le t hj
    rw [hfin j (by omega)] at h1
    omega
  have hlog : ∀ i ≥ 8 * j1, ((r'.σ i).thr t).log.length = finished t (r.labels k) := by
    intro i hi
    have e1 := r'.log_grows hi t
    have e2 := r'.log_grows (show i ≤ 8 * (i / 8 + 1) by omega) t
    rw [returned_log (r'.exec _) t, h.labels, Flat.to_mul, hret _ (Nat.le_refl _)] at e1
    rw [returned_log (r'.exec (8 * (i / 8 + 1))) t, h.labels, Flat.to_mul, hret _ (by omega)] at e2
    omega
  obtain ⟨J, hJ, hdisk⟩ := RtRun.persisted_all hP hL (h.fair hF) (h.noStart hs) hroom (fun j _ t => h.fits hP j t) (8 * j1)
  have hq : ∀ i ≥ J, ((r'.σ i).thr t).q = [] := by
    intro i hi
    have hI := (((r'.exec i).inv hP).1.thr t).log
    have h1 : finished t (r.labels k) ≤ (byThr t (r'.σ i).encoded).length := by
      rw [← hlog (8 * j1) (Nat.le_refl _)]
      rcases hdisk i hi with hx | ⟨-, hx⟩
      · refine Nat.le_trans (hx t) (byThr_prefix ?_ t)
        unfold Rt.encoded Rt.persisted
        rw [List.append_assoc _ (r'.σ i).gO]
        exact List.prefix_append _ _
      · refine Nat.le_trans (hx t) (byThr_prefix ?_ t)
        unfold Rt.encoded Rt.persisted
        exact List.prefix_append _ _
    have h2 := congrArg List.length hI
    rw [hlog i (by omega), List.length_append] at h2
    exact List.length_eq_zero_iff.1 (by omega)
  have hgot : ∀ j ≥ J, ((r.σ j).sb t).got = ((r.σ j).sb t).pub := by
    intro j hj
    obtain ⟨G, kls, rr, τ, held, hRel, hs⟩ := h.rel j
    have h1 := hq (8 * j) (by omega)
    rw [hs] at h1
    have h2 : kls t = [] := by
      have e1 := (hRel.obs t).ret
      rw [hfin j (by omega), hret j (by omega)] at e1
      exact List.length_eq_zero_iff.1 (by omega)
    obtain ⟨g, done, hI, hQ⟩ := (hRel.thr t).buf
    rw [hQ.got, hQ.pub, h2]
    rw [show (G.thr t).q = [] from h1]
    simp
  have hcons : ∀ i, ∃ j, i ≤ j ∧ (e.σ i).pub <+: (e.σ j).got := by
    intro i
    refine ⟨2 * (i + J), by omega, ?_⟩
    rw [hσ, hgot _ (by omega), ← hσ]
    exact e.pub_mono (by omega)
  -- the background thread comes again and again
  have hmem := fun i (hi : 8 * k ≤ i) => h.bufs_mid (t := t) (k := k) (fun j hj => by
    obtain ⟨m, hm, -⟩ := h.writing hP (hwait j hj)
    exact h.inBufs hP hm) i hi
  have hscan : ∀ i, ∃ j, i ≤ j ∧ e.α j = some .peek := by
    intro i
    obtain ⟨n0, hn0, hv⟩ := RtRun.visited hP hL (h.fair hF) (h.noStart hs) hroom (fun j _ t => h.fits hP j t) (t := t)
      (k := 8 * (k + J + i)) (fun j hj => hmem j (by omega))
    rcases hv with ⟨htk, hcur⟩ | ⟨-, h1, h2, h3⟩
    · have := ((r'.exec n0).inv hP).1.rem htk.1
      rw [hcur, hq n0 (by omega)] at this
      simp at this
      omega
    have hst := r'.step n0
    cases hl : r'.lbl n0 with
    | none =>
      rw [hl] at hst; simp only at hst
      rw [hst, h1] at h2; cases h2
    | some b =>
      rw [hl] at hst; simp only at hst
      have hb := empty_peek hst h1 h2
      subst hb
      obtain ⟨l, e1, e2, e3⟩ := h.block hl
      have := e2.seen e3
      subst this
      have hsing : bls (n0 / 8) = [.peek 0] := by
        rcases e2.bg rfl with ⟨b, hb, -⟩ | ⟨hb, -⟩
        · rw [hb] at e3 ⊢; simp at e3; rw [e3]
        · rw [hb] at e3; cases e3
      obtain ⟨e4, -⟩ := h.only hl hsing
      have e5 := h.rest (k := n0 / 8) (by rw [hsing]; simp) 7 (by omega)
      rw [show 8 * (n0 / 8) + 8 - 7 = n0 + 1 by omega, show 8 * (n0 / 8) + 8 = 8 * (n0 / 8 + 1) by omega] at e5
      obtain ⟨G, kls, rr, τ, held, hRel, hs'⟩ := h.rel (n0 / 8 + 1)
      rw [← e5, hs'] at h2 h3
      have htg : (r.σ (n0 / 8 + 1)).tgt = some t := by
        cases ht : (r.σ (n0 / 8 + 1)).tgt with
        | none =>
          have h4 := (hRel.cc.none ht).1
          rw [show G.pc = .check from h2] at h4
          have hstep := r.step (n0 / 8)
          rw [e1] at hstep
          simp only [Cr.act, Cr.actBg] at hstep
          (repeat' split at hstep) <;> try cases hstep
          · simp only [COut.ok.injEq] at hstep
            rw [← hstep] at h4; cases h4
          · simp only [COut.ok.injEq] at hstep
            rw [← hstep] at ht; cases ht
        | some u =>
          obtain ⟨-, -, -, p, v, -, h5, h6⟩ := hRel.cc.tgt u ht
          by_cases hv : v = ((r.σ (n0 / 8 + 1)).sb u).got.length
          · rw [← (h5 hv).2]; rw [show G.cur = t from h3]
          · rw [show G.pc = .check from h2] at h6; cases h6 hv
      refine ⟨2 * (n0 / 8), by omega, ?_⟩
      rcases hα (n0 / 8) with ⟨hx, -⟩ | ⟨l, hx, hp⟩
      · rw [e1] at hx; cases hx
      · rw [e1] at hx
        simp only [Option.some.injEq] at hx
        subst hx
        exact hp.peek rfl htg
  have hlive : e.Live := by
    refine ⟨fun i hb => ?_, fun i hb => ?_, fun i n' hw' => ?_, hscan⟩
    · obtain ⟨j, hj, hl⟩ := hF.store ((i + 1) / 2) t (by rw [← hσ, (half hα i).2.1]; exact hb)
      refine ⟨2 * j, by omega, ?_⟩
      rcases hα j with ⟨hx, -⟩ | ⟨l, hx, hp⟩ <;> rw [hl] at hx
      · cases hx
      · simp only [Option.some.injEq] at hx; exact hp.store hx.symm
    · obtain ⟨j, hj, hl⟩ := hR.storeC ((i + 1) / 2) t (by rw [← hσ, (half hα i).2.2]; exact hb)
      refine ⟨2 * j, by omega, ?_⟩
      rcases hα j with ⟨hx, -⟩ | ⟨l, hx, hp⟩ <;> rw [hl] at hx
      · cases hx
      · simp only [Option.some.injEq] at hx; exact hp.storeC hx.symm
    · have hw2 : ((r.σ ((i + 1) / 2)).sb t).pc.waiting n' := by rw [← hσ, (half hα i).1]; exact hw'
      obtain ⟨m, hm, -⟩ := h.writing hP hw2
      obtain ⟨j, hj, hl, hpc, -⟩ := CrRun.next_own hR hm
      have hst := r.step j
      rw [← hpc] at hw2
      rcases hl with hl | ⟨a, hl⟩
      · rw [hl] at hst; exact absurd hst (waiting_finish hw2 _)
      · refine ⟨2 * j, by omega, ?_⟩
        rcases hα j with ⟨hx, -⟩ | ⟨l, hx, hp⟩ <;> rw [hl] at hx hst
        · cases hx
        · simp only [Option.some.injEq] at hx
          rw [hp.write a hx.symm, waiting_write hw2 hst]
  obtain ⟨m, -, hn⟩ := h.writing hP hw
  obtain ⟨j, f, hj, hf⟩ := e.obtains h0 hlt hlive hcons hn hwe
  exact hne ⟨j, f, hj, hf⟩

/-- Bytes of the message that have not been stored. -/
def missing (n : Nat) (f : Nat → Option Byte) : Nat := ((List.range n).filter fun i => (f i).isNone).length

theorem missing_put {n i : Nat} {b : Byte} {f : Nat → Option Byte} (hi : i < n) (hf : f i = none) :
    missing n (fun j => if j = i then some b else f j) < missing n f := by
  unfold missing
  have hsub : ((List.range n).filter fun j => ((if j = i then some b else f j : Option Byte)).isNone) =
      ((List.range n).filter fun j => (f j).isNone).filter fun j => j ≠ i := by
    rw [List.filter_filter]
    congr 1
    funext j
    by_cases hj : j = i <;> simp [hj]
  rw [hsub]
  refine List.length_filter_lt_length_iff_exists.2 ⟨i, ?_, by simp⟩
  rw [List.mem_filter]
  exact ⟨List.mem_range.2 hi, by rw [hf]; rfl⟩

/-- A log call that has come to its staging buffer returns. -/
theorem RunOf.returns (h : RunOf r als bls r') (hP : ProgOK cfg prog) (hL : LiveOK cfg prog) (h0 : 0 < cfg.staging)
    (hF : r.Fair) (hR : r.Runs) {K : Nat} (hs : r.NoStartFrom K) (hroom : 3 * cfg.staging + 25 ≤ cfg.output) {k t : Nat}
    {m : LogCall} (hw : ((r.σ k).rt.thr t).pc = .write m) : ∃ j ≥ k, r.lbl j = some (.finish t) := by
  by_contra hno
  have hwr : ∀ j ≥ k, ((r.σ j).rt.thr t).pc = .write m := by
    intro j hj
    induction j, hj using Nat.le_induction with
    | base => exact hw
    | succ j hj ih =>
      have hst := r.step j
      cases hl : r.lbl j with
      | none => rw [hl] at hst; simp only at hst; rw [hst, ih]
      | some l =>
        rw [hl] at hst; simp only at hst
        exact (cr_write hst ih (fun e => hno ⟨j, hj, by rw [hl, e]⟩)).1
  have hnext : ∀ j ≥ k, ∃ i ≥ j, ∃ a s, r.lbl i = some (.write t a) ∧ ((r.σ i).sb t).pc = ((r.σ j).sb t).pc ∧
      okWrite ((r.σ i).rt.msgSize m) ((r.σ i).rt.msgBytes [m]) a = true ∧
      ((r.σ i).sb t).act .tso cfg.staging a = some s ∧ (r.σ (i + 1)).sb t = s := by
    intro j hj
    obtain ⟨i, hi, hl, hpc, hwi⟩ := CrRun.next_own hR (hwr j hj)
    rcases hl with hl | ⟨a, hl⟩
    · exact absurd ⟨i, by omega, hl⟩ hno
    have hst := r.step i
    rw [hl] at hst
    simp only [Cr.act, Cr.actThr, hwi] at hst
    (repeat' split at hst) <;> try cases hst
    rename_i hok _ s hsb
    simp only [COut.ok.injEq] at hst
    exact ⟨i, hi, a, s, hl, hpc, hok, hsb, by rw [← hst]; simp [Cr.setSb]⟩
  -- while bytes are missing, one of them is stored
  have hres : ∀ c j n f, j ≥ k → ((r.σ j).sb t).pc = .reserved n f → missing n f = c → False := by
    intro c
    induction c using Nat.strongRecOn with
    | _ c ih =>
    intro j n f hj hpc hc
    obtain ⟨i, hi, a, s, hl, hpi, hok, hsb, hs1⟩ := hnext j hj
    rw [hpc] at hpi
    cases a <;> simp only [okWrite, Bool.false_eq_true] at hok <;> simp only [SB.act, hpi] at hsb <;> try cases hsb
    rename_i x b
    have hx := hR.once i t x b n f hl hpi
    split at hsb <;> cases hsb
    rename_i hxn
    refine ih _ ?_ (i + 1) n (fun j => if j = x then some b else f j) (by omega) (by rw [hs1]) rfl
    rw [← hc]
    exact missing_put hxn hx
  have hwaits : ∀ j ≥ k, ∀ n, ¬ ((r.σ j).sb t).pc.waiting n := by
    intro j hj n hwt
    obtain ⟨i, hi, f, hf⟩ := h.obtains hP hL h0 hF hR hs hroom hwt
    exact hres _ i n f (by omega) hf rfl
  cases hpc : ((r.σ k).sb t).pc with
  | reserved n f => exact hres _ k n f (Nat.le_refl _) hpc rfl
  | loop n => exact hwaits k (Nat.le_refl _) n (by rw [hpc]; rfl)
  | loaded n c => exact hwaits k (Nat.le_refl _) n (by rw [hpc]; rfl)
  | wrapping n c => exact hwaits k (Nat.le_refl _) n (by rw [hpc]; rfl)
  | exited =>
    obtain ⟨G, kls, rr, τ, held, hRel, -⟩ := h.rel k
    have hp := (hRel.thr t).prel
    rw [PRel, hw, hpc] at hp
    exact hp
  | idle =>
    obtain ⟨i, hi, a, s, hl, hpi, hok, hsb, hs1⟩ := hnext k (Nat.le_refl _)
    rw [hpc] at hpi
    cases a <;> simp only [okWrite, Bool.false_eq_true] at hok <;> simp only [SB.act, hpi] at hsb <;> try cases hsb
    rename_i n
    split at hsb <;> cases hsb
    · exact hres _ (i + 1) n _ (by omega) (by rw [hs1]) rfl
    · exact hwaits (i + 1) (by omega) n (by rw [hs1]; rfl)

/-- A thread in a log call comes to its staging buffer. -/
theorem CrRun.comes {r : CrRun cfg prog} (hR : r.Runs) {t : Nat} : ∀ (d k : Nat), ((r.σ k).rt.thr t).pc.inCall = true →
    ((r.σ k).rt.thr t).pc.ahead = d → ∃ j ≥ k, (∃ m, ((r.σ j).rt.thr t).pc = .write m) ∧
      ∀ i, k ≤ i → i < j → r.lbl i ≠ some (.finish t) := by
  intro d
  induction d using Nat.strongRecOn with
  | _ d ih =>
  intro k hc hd
  by_contra hno
  obtain ⟨j0, hj0, l0, hl0, ho0⟩ := hR.goes k t hc
  have key : ∀ i, ((r.σ (k + i)).rt.thr t).pc = ((r.σ k).rt.thr t).pc ∧
      (∀ x, k ≤ x → x < k + i → r.lbl x ≠ some (.finish t)) ∧ k + i ≤ j0 := by
    intro i
    induction i with
    | zero => exact ⟨rfl, fun x h1 h2 => by omega, hj0⟩
    | succ i ihi =>
      obtain ⟨h1, h2, h3⟩ := ihi
      · have hst := r.step (k + i)
        have hc1 : ((r.σ (k + i)).rt.thr t).pc.inCall = true := by rw [h1]; exact hc
        cases hl : r.lbl (k + i) with
        | none =>
          rw [hl] at hst; simp only at hst
          by_cases hji : k + i = j0
          · rw [hji, hl0] at hl; cases hl
          refine ⟨by rw [← Nat.add_assoc, hst]; exact h1, fun x hx1 hx2 => ?_, by omega⟩
          by_cases hx : x = k + i
          · subst hx; rw [hl]; simp
          · exact h2 x hx1 (by omega)
        | some l =>
          rw [hl] at hst; simp only at hst
          rcases cr_ahead hst hc1 with ⟨m, hm⟩ | ⟨h4, h5⟩ | ⟨h4, h5⟩
          · exact absurd ⟨k + i, by omega, ⟨m, hm⟩, h2⟩ hno
          · have hji : k + i ≠ j0 := by
              rintro e
              rw [← e, hl] at hl0
              cases hl0
              rw [h4] at ho0; cases ho0
            refine ⟨by rw [← Nat.add_assoc, h5]; exact h1, fun x hx1 hx2 => ?_, by omega⟩
            by_cases hx : x = k + i
            · subst hx; rw [hl]
              intro e
              cases e
              simp [CLbl.own] at h4
            · exact h2 x hx1 (by omega)
          · exfalso
            obtain ⟨j, hj, hm, hb⟩ := ih _ (by rw [← hd, ← h1]; exact h5) (k + i + 1) h4 rfl
            refine hno ⟨j, by omega, hm, fun x hx1 hx2 => ?_⟩
            by_cases hx : x < k + i
            · exact h2 x hx1 hx
            by_cases hx : x = k + i
            · subst hx; rw [hl]
              intro e
              cases e
              simp only [Cr.act, Cr.actThr] at hst
              split at hst
              · rename_i m hm'
                exact hno ⟨k + i, by omega, ⟨m, hm'⟩, h2⟩
              · cases hst
            · exact hb x (by omega) hx2
  have := (key (j0 + 1 - k)).2.2
  omega

end

end

/-! ## Infinite executions for examples -/

section
variable {cfg : Config} {prog : List Site}

theorem sb_cbuf {N : Nat} {s s' : SB} {a : Act} (ha : s.act .tso N a = some s') (hc : a ≠ .commitC) : s.cbuf <+: s'.cbuf := by
  cases a <;> simp only [SB.act] at ha <;> first | exact absurd rfl hc | skip
  all_goals (repeat' split at ha) <;> try cases ha
  all_goals first
    | exact List.prefix_rfl
    | exact List.prefix_append _ _
    | skip
  rename_i w _
  cases w <;> exact List.prefix_rfl

/-- A pending store of the background thread stays pending until it reaches memory. -/
theorem CrRun.cbuf_stays (r : CrRun cfg prog) {t k : Nat} (hn : ∀ j ≥ k, r.lbl j ≠ some (.storeC t)) (j : Nat) (hj : j ≥ k) :
    ((r.σ k).sb t).cbuf <+: ((r.σ j).sb t).cbuf := by
  induction j, hj using Nat.le_induction with
  | base => exact List.prefix_rfl
  | succ j hj ih =>
    refine ih.trans ?_
    have hst := r.step j
    cases hl : r.lbl j with
    | none => rw [hl] at hst; simp only at hst; rw [hst]; exact List.prefix_rfl
    | some l =>
      rw [hl] at hst; simp only at hst
      obtain ⟨a, mid, b, h1, h2, hp⟩ := act_proj hst t
      have e1 : ((r.σ j).sb t).cbuf <+: mid.cbuf := by
        cases a with
        | none => rw [SB.stepO] at h1; rw [h1]; exact List.prefix_rfl
        | some a =>
          refine sb_cbuf h1 ?_
          rintro rfl
          exact hn j hj (by rw [hl, hp.ownC rfl])
      have e2 : mid.cbuf <+: ((r.σ (j + 1)).sb t).cbuf := by
        rcases hp.last with rfl | rfl
        · rw [SB.stepO] at h2; rw [h2]; exact List.prefix_rfl
        · exact sb_cbuf h2 (by simp)
      exact e1.trans e2

end

theorem Cr.Idle.cbuf {c c' : Cr} (h : c.Idle) (ha : c.act exCfg exSites c.idleLbl = .ok c') (t : Nat) :
    (c'.sb t).cbuf = (c.sb t).cbuf := by
  have hset : ∀ {u : Nat} {s : SB}, s.cbuf = (c.sb u).cbuf → (upd c.sb u s t).cbuf = (c.sb t).cbuf := by
    intro u s hs
    by_cases hu : t = u
    · subst hu; rw [upd_same, hs]
    · rw [upd_other _ _ hu]
  by_cases n1 : c.rt.pc = .scan
  · cases ht : c.tgt with
    | none =>
      have hl : c.idleLbl = .peek := by unfold Cr.idleLbl; rw [n1, ht]
      rw [hl] at ha
      simp only [Cr.act, Cr.actBg] at ha
      (repeat' split at ha) <;> try cases ha
      · rfl
      · rename_i s hs
        refine hset ?_
        simp only [SB.act] at hs
        split at hs <;> cases hs
        rfl
    | some u =>
      obtain ⟨-, hm, hb, v, hc⟩ := h.tgt u ht
      have hl : c.idleLbl = .follow := by unfold Cr.idleLbl; rw [n1, ht]
      rw [hl] at ha
      simp only [Cr.act, Cr.actBg, ht, SB.act, hc, Nat.lt_irrefl, if_false] at ha
      cases ha
      exact hset rfl
  by_cases n2 : c.rt.pc = .check
  · obtain ⟨view, hc⟩ := h.chk n2
    have hl : c.idleLbl = .check := by unfold Cr.idleLbl; rw [n2]
    rw [hl] at ha
    obtain ⟨e1, e2⟩ := h.sb _ (h.rt.cur n2)
    simp only [Cr.act, Cr.actBg, n2, Cr.next, SB.act, hc, e2] at ha
    have hlift : ∀ {c1 : Cr} {o : Out}, c1.lift o = .ok c' → c'.sb = c1.sb := by
      intro c1 o h
      cases o <;> simp only [Cr.lift] at h <;> cases h
      rfl
    (repeat' split at ha) <;> try cases ha
    all_goals first
      | (simp_all; done)
      | (rw [hlift ha]; exact hset rfl)
  · have hl : c.idleLbl = .rt c.rt.idleLbl := by
      unfold Cr.idleLbl
      cases hp : c.rt.pc <;> simp_all
    rw [hl] at ha
    rw [(cr_rt ha).2]

/-- Steps in other buffers. -/
theorem cr_cbuf {cfg : Config} {prog : List Site} {c c' : Cr} {l : CLbl} (ha : c.act cfg prog l = .ok c') {t : Nat} (h1 : l ≠ .storeC t)
    (h2 : l = .follow → c.tgt ≠ some t) (h3 : ∀ j m, l = .encode j m → c.rt.cur ≠ t) :
    (c'.sb t).cbuf = (c.sb t).cbuf := by
  have hlift : ∀ {c1 : Cr} {o : Out}, c1.lift o = .ok c' → c'.sb = c1.sb := by
    intro c1 o h
    cases o <;> simp only [Cr.lift] at h <;> cases h
    rfl
  have hset : ∀ {u : Nat} {s : SB}, (u = t → s.cbuf = (c.sb u).cbuf) → (upd c.sb u s t).cbuf = (c.sb t).cbuf := by
    intro u s hs
    by_cases hu : t = u
    · subst hu; rw [upd_same, hs rfl]
    · rw [upd_other _ _ hu]
  have hsb : ∀ {a : Act} {u : Nat} {s : SB}, (c.sb u).act .tso cfg.staging a = some s →
      (a.ofLogger = true ∨ a = .commit 0 ∨ a = .peek ∨ (∃ i, a = .look i) ∨ a = .release ∨ a = .canDelete) →
      (upd c.sb u s t).cbuf = (c.sb t).cbuf := by
    intro a u s hs hx
    refine hset fun _ => ?_
    rcases hx with hx | rfl | rfl | ⟨i, rfl⟩ | rfl | rfl
    · cases a <;> simp only [Act.ofLogger, Bool.false_eq_true] at hx <;> simp only [SB.act] at hs <;>
        (repeat' split at hs) <;> cases hs <;> rfl
    all_goals
      simp only [SB.act] at hs
      (repeat' split at hs) <;> cases hs <;> try rfl
    rename_i w _
    cases w <;> rfl
  cases l with
  | rt l => rw [(cr_rt ha).2]
  | write u a =>
    simp only [Cr.act, Cr.actThr] at ha
    (repeat' split at ha) <;> try cases ha
    rename_i hok _ s hs
    refine hsb hs (.inl ?_)
    cases a <;> simp_all [okWrite, Act.ofLogger]
  | finish u | exit u =>
    simp only [Cr.act, Cr.actThr] at ha
    (repeat' split at ha) <;> try cases ha
    all_goals first | rfl | exact hsb (by assumption) (.inl (by rfl))
  | store u =>
    simp only [Cr.act, Cr.actThr] at ha
    (repeat' split at ha) <;> try cases ha
    exact hsb (by assumption) (.inr (.inl rfl))
  | storeC u =>
    simp only [Cr.act, Cr.actThr] at ha
    (repeat' split at ha) <;> try cases ha
    exact hset fun e => absurd (by rw [e]) h1
  | peek =>
    simp only [Cr.act, Cr.actBg] at ha
    (repeat' split at ha) <;> try cases ha
    · rfl
    · exact hsb (by assumption) (.inr (.inr (.inl rfl)))
  | follow =>
    simp only [Cr.act, Cr.actBg] at ha
    (repeat' split at ha) <;> try cases ha
    all_goals exact hset fun e => absurd (by rw [← e]; assumption) (h2 rfl)
  | look i =>
    simp only [Cr.act, Cr.actBg] at ha
    (repeat' split at ha) <;> try cases ha
    exact hsb (by assumption) (.inr (.inr (.inr (.inl ⟨_, rfl⟩))))
  | check =>
    simp only [Cr.act, Cr.actBg, Cr.next] at ha
    (repeat' split at ha) <;> try cases ha
    · rw [hlift ha]; exact hsb (by assumption) (.inr (.inr (.inr (.inr (.inl rfl)))))
    · rw [hlift ha]; exact hsb (by assumption) (.inr (.inr (.inr (.inr (.inr rfl)))))
    · exact hsb (by assumption) (.inr (.inr (.inr (.inr (.inr rfl)))))
  | encode j m =>
    have hne := h3 j m rfl
    simp only [Cr.act, Cr.actBg, Cr.next] at ha
    (repeat' split at ha) <;> try cases ha
    · rw [hlift ha]; exact hset fun e => absurd e hne
    · rw [hlift ha]
      show (upd (upd c.sb c.rt.cur _) c.rt.cur _ t).cbuf = _
      rw [upd_other _ _ (Ne.symm hne), upd_other _ _ (Ne.symm hne)]
    · exact hset fun e => absurd e hne

/-- Every byte is stored once; the background thread reads the buffers of threads 1 and 2 only. -/
def crOnce : Cr → List CLbl → Bool
  | _, [] => true
  | c, l :: ls =>
    (match l with
     | .write t (.put i _) => match (c.sb t).pc with | .reserved _ f => (f i).isNone | _ => true
     | .follow => c.tgt == some 1 || c.tgt == some 2
     | .encode .. => c.rt.cur == 1 || c.rt.cur == 2
     | _ => true) &&
    match c.act exCfg exSites l with
    | .ok c' => crOnce c' ls
    | _ => false

theorem crOnce_at {ls : List CLbl} {c0 c : Cr} (h : c0.run exCfg exSites ls = .ok c)
    (hn : crOnce c0 ls = true) (k : Nat) (hk : k < ls.length) {t i : Nat} {b : Byte} (hl : ls[k] = .write t (.put i b)) :
    ∃ c1, c0.run exCfg exSites (ls.take k) = .ok c1 ∧ ∀ n f, (c1.sb t).pc = .reserved n f → f i = none := by
  induction ls generalizing c0 k with
  | nil => simp at hk
  | cons l ls ih =>
    simp only [Cr.run] at h
    simp only [crOnce, Bool.and_eq_true] at hn
    cases ha : c0.act exCfg exSites l with
    | off => rw [ha] at h; cases h
    | ub => rw [ha] at h; cases h
    | ok c1 =>
      rw [ha] at h
      have hn2 := hn.2
      rw [ha] at hn2
      cases k with
      | zero =>
        simp only [List.getElem_cons_zero] at hl
        subst hl
        refine ⟨c0, rfl, fun n f hf => ?_⟩
        have := hn.1
        simp only [hf] at this
        exact Option.isNone_iff_eq_none.1 this
      | succ k =>
        obtain ⟨a, h1, h2⟩ := ih h hn2 k (by simpa using hk) (by simpa using hl)
        exact ⟨a, by simp only [List.take_succ_cons, Cr.run, ha, h1], h2⟩

theorem crOnce_cbuf {ls : List CLbl} {c0 c : Cr} (h : c0.run exCfg exSites ls = .ok c) (hn : crOnce c0 ls = true) {t : Nat}
    (h1 : t ≠ 1) (h2 : t ≠ 2) (hc : (c0.sb t).cbuf = []) : (c.sb t).cbuf = [] := by
  induction ls generalizing c0 with
  | nil => cases h; exact hc
  | cons l ls ih =>
    simp only [Cr.run] at h
    simp only [crOnce, Bool.and_eq_true] at hn
    cases ha : c0.act exCfg exSites l with
    | off => rw [ha] at h; cases h
    | ub => rw [ha] at h; cases h
    | ok c1 =>
      rw [ha] at h
      have hn2 := hn.2
      rw [ha] at hn2
      refine ih h hn2 ?_
      by_cases hl : l = .storeC t
      · subst hl
        simp [Cr.act, Cr.actThr, SB.act, hc] at ha
      rw [cr_cbuf ha hl ?_ ?_, hc]
      · rintro rfl e
        have := hn.1
        simp [e, h1, h2] at this
      · rintro j m rfl e
        have := hn.1
        simp [e, h1, h2] at this

theorem crLassoRun_runs {ls : List CLbl} {c0 c : Cr} (h0 : Cr.init exCfg 0 exCk = some c0)
    (hl : ls.all exCLbl = true) (h : c0.run exCfg exSites ls = .ok c) (hi : c.Idle)
    (hc : ∀ t, (c.sb t).cbuf = []) (ho : crOnce c0 ls = true) : (crLassoRun ls c0 c h0 hl h hi).Runs := by
  have hlen : (crLassoRun ls c0 c h0 hl h hi).σ ls.length = c := by
    have := crLasso_prefix h ls.length (Nat.le_refl _)
    rw [List.take_length, h] at this
    exact (COut.ok.inj this).symm
  have htl : ∀ k ≥ ls.length, (crLassoRun ls c0 c h0 hl h hi).lbl k = some (crLasso ls c0 k).idleLbl := by
    intro k hk
    simp [crLassoRun, crLassoLbl, List.getElem?_eq_none hk]
  have hcb : ∀ k ≥ ls.length, ∀ t, (((crLassoRun ls c0 c h0 hl h hi).σ k).sb t).cbuf = [] := by
    intro k hk t
    induction k, hk using Nat.le_induction with
    | base => rw [hlen]; exact hc t
    | succ k hk ih =>
      have hst := (crLassoRun ls c0 c h0 hl h hi).step k
      rw [htl k hk] at hst
      rw [(crLasso_tail h hi k hk).cbuf hst t]
      exact ih
  refine ⟨fun k t hne => ?_, fun k t hw => ?_, fun k t i b n f hk hp => ?_⟩
  · by_contra hno
    have := (crLassoRun ls c0 c h0 hl h hi).cbuf_stays (t := t) (k := k) (fun j hj e => hno ⟨j, hj, e⟩) (k + ls.length) (by omega)
    rw [hcb (k + ls.length) (by omega)] at this
    exact hne (List.prefix_nil.1 this)
  · by_contra hno
    have hwr : ∀ j ≥ k, (((crLassoRun ls c0 c h0 hl h hi).σ j).rt.thr t).pc.inCall = true := by
      intro j hj
      induction j, hj using Nat.le_induction with
      | base => exact hw
      | succ j hj ih =>
        have hst := (crLassoRun ls c0 c h0 hl h hi).step j
        cases hl' : (crLassoRun ls c0 c h0 hl h hi).lbl j with
        | none => rw [hl'] at hst; simp only at hst; rw [hst, ih]
        | some l =>
          rw [hl'] at hst; simp only at hst
          rw [cr_others hst ih, ih]
          cases ho : l.own t with
          | false => rfl
          | true => exact absurd ⟨j, hj, l, hl', ho⟩ hno
    have h1 := hwr (k + ls.length) (by omega)
    have h2 := (crLasso_tail h hi (k + ls.length) (by omega)).rt.pcs t
    rw [show ((crLassoRun ls c0 c h0 hl h hi).σ (k + ls.length)) = crLasso ls c0 (k + ls.length) from rfl, h2] at h1
    cases h1
  · by_cases hkl : k < ls.length
    · have e : ls[k] = .write t (.put i b) := by
        have : (crLassoRun ls c0 c h0 hl h hi).lbl k = some ls[k] := by
          simp [crLassoRun, crLassoLbl, List.getElem?_eq_getElem hkl]
        rw [this] at hk
        exact Option.some.inj hk
      obtain ⟨c1, h1, h2⟩ := crOnce_at h ho k hkl e
      have h3 := crLasso_prefix h k (by omega)
      rw [h1] at h3
      refine h2 n f ?_
      rw [COut.ok.inj h3]; exact hp
    · rw [htl k (by omega)] at hk
      have := (crLasso_tail h hi k (by omega)).lbl.1
      rw [Option.some.inj hk] at this
      cases this

end NanoLog
