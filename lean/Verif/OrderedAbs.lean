import Verif.OrderedSpec

/-!
# Ordered decompression on lists of messages

An abstraction of `OSt` used in proofs only: fragments become the lists of messages still to
be printed, the file becomes the list of extents still to be read.
-/

namespace NanoLog

/-- An extent in memory: its next time stamp (any value if nothing is left) and the messages
left. -/
structure AF where
  ts : Nat
  ms : List OutMsg

/-- The time stamp is that of the first message. -/
def AF.OK (a : AF) : Prop := ∀ m, a.ms.head? = some m → m.ts = a.ts

/-- After printing the first message; `none` if nothing is left. -/
def AF.next (a : AF) : Option AF :=
  match a.ms with
  | _ :: m :: ms => some ⟨m.ts, m :: ms⟩
  | _ => none

/-- Filling the stages; depleting the first stage; depleting all; all is done. -/
inductive AMode where
  | fill | one | all | fin
  deriving DecidableEq

/-- Closed stages, stage being filled, extents not yet read, bound on the time stamps of free
fragments. -/
structure ASt where
  W : List (List AF)
  cur : List AF
  F : Exts
  T : Nat
  mode : AMode

/-- `a` at position `k` of stage `i` has the smallest time stamp, the first such stage. -/
def AMin (W : List (List AF)) (i k : Nat) (a : AF) : Prop :=
  (∃ st, W[i]? = some st ∧ st[k]? = some a) ∧
  ∀ j st b, W[j]? = some st → b ∈ st → a.ts ≤ b.ts ∧ (j < i → a.ts < b.ts)

/-- The stages after printing from `a`. -/
def popped (W : List (List AF)) (i k : Nat) (a : AF) : List (List AF) :=
  W.modify i fun st =>
    match a.next with
    | some a' => st.set k a'
    | none => st.eraseIdx k

/-- Bound on the time stamps of free fragments after printing from `a`. -/
def freed (T : Nat) (a : AF) : Nat := if a.next.isSome then T else max T a.ts

/-- Steps of the abstraction, with the message printed. -/
inductive AStep : ASt → Option OutMsg → ASt → Prop where
  | read {W cur np ms F T} (a : AF) (hW : W.length ≤ 2) (hm : a.ms = ms) (ok : a.OK)
      (ht : ms = [] → a.ts ≤ T) :
      AStep ⟨W, cur, (np, ms) :: F, T, .fill⟩ none
        (if np then ⟨W ++ [cur ++ [a]], [], F, T, if W.length + 1 = 3 then .one else .fill⟩
         else ⟨W, cur ++ [a], F, T, .fill⟩)
  | flush {W cur T} : AStep ⟨W, cur, [], T, .fill⟩ none
      ⟨if cur = [] then W else W ++ [cur], [], [], T, .all⟩
  | pop {W F T mode i k a} (hm : mode = .one ∧ W.length = 3 ∨ mode = .all ∧ F = [])
      (h : AMin W i k a)
      (h0 : ∀ st, (popped W i k a)[0]? = some st → st ≠ []) :
      AStep ⟨W, [], F, T, mode⟩ a.ms.head? ⟨popped W i k a, [], F, freed T a, mode⟩
  | shift {W F T mode i k a} (hm : mode = .one ∧ W.length = 3 ∨ mode = .all ∧ F = [])
      (h : AMin W i k a)
      (h0 : (popped W i k a)[0]? = some []) :
      AStep ⟨W, [], F, T, mode⟩ a.ms.head?
        ⟨(popped W i k a).tail, [], F, freed T a, if mode = .one then .fill else .all⟩
  | clear {W F T mode} (hm : mode = .one ∧ W.length = 3 ∨ mode = .all ∧ F = [])
      (h : ∀ st ∈ W, st = []) :
      AStep ⟨W, [], F, T, mode⟩ none ⟨[], [], F, T, if mode = .one then .fill else .fin⟩

/-- Steps until everything is done, with the messages printed. -/
inductive ARun : ASt → List OutMsg → Prop where
  | fin {W cur F T} : ARun ⟨W, cur, F, T, .fin⟩ []
  | step {a b m o} (h : AStep a m b) (hr : ARun b o) : ARun a (m.toList ++ o)

/-! ## No message is lost or printed twice -/

theorem flatten_modify {α : Type} {W : List (List α)} {i : Nat} {st : List α}
    (h : W[i]? = some st) : ∃ rest, W.flatten.Perm (st ++ rest) ∧
      ∀ f : List α → List α, (W.modify i f).flatten.Perm (f st ++ rest) := by
  induction W generalizing i with
  | nil => simp at h
  | cons s W ih =>
    cases i with
    | zero =>
      simp at h; subst h
      exact ⟨W.flatten, by simp, fun f => by simp⟩
    | succ i =>
      obtain ⟨rest, h1, h2⟩ := ih (by simpa using h)
      have key : ∀ a b : List α, a.Perm (b ++ rest) → (s ++ a).Perm (b ++ (s ++ rest)) := by
        intro a b hab
        refine (hab.append_left s).trans ?_
        rw [← List.append_assoc, ← List.append_assoc]
        exact List.Perm.append_right rest List.perm_append_comm
      exact ⟨s ++ rest, by simpa using key _ _ h1, fun f => by simpa using key _ _ (h2 f)⟩

theorem perm_at {α : Type} {st : List α} {k : Nat} {a : α} (h : st[k]? = some a) :
    ∃ r, st.Perm (a :: r) ∧ (∀ a', (st.set k a').Perm (a' :: r)) ∧ (st.eraseIdx k).Perm r := by
  induction st generalizing k with
  | nil => simp at h
  | cons s st ih =>
    cases k with
    | zero =>
      simp at h; subst h
      exact ⟨st, List.Perm.refl _, fun a' => by simp, by simp⟩
    | succ k =>
      obtain ⟨r, h1, h2, h3⟩ := ih (by simpa using h)
      refine ⟨s :: r, (h1.cons s).trans (List.Perm.swap _ _ _), fun a' => ?_, ?_⟩
      · simpa using ((h2 a').cons s).trans (List.Perm.swap _ _ _)
      · simpa using h3.cons s

/-- Messages not yet printed, per extent. -/
def ASt.pend (a : ASt) : List (List OutMsg) := (a.W.flatten ++ a.cur).map AF.ms ++ a.F.map Prod.snd

theorem popped_pend {W : List (List AF)} {i k : Nat} {a : AF} (h : AMin W i k a) :
    ∃ rest, W.flatten.Perm (a :: rest) ∧
      (popped W i k a).flatten.Perm (a.next.toList ++ rest) := by
  obtain ⟨⟨st, h1, h2⟩, -⟩ := h
  obtain ⟨rest, p1, p2⟩ := flatten_modify h1
  obtain ⟨r, q1, q2, q3⟩ := perm_at h2
  refine ⟨r ++ rest, p1.trans (by simpa using q1.append_right rest), ?_⟩
  refine (p2 _).trans ?_
  cases hn : a.next with
  | none => simpa using q3.append_right rest
  | some a' => simpa using (q2 a').append_right rest

theorem merge_pop {a : AF} {rest ls : List (List OutMsg)} {o : List OutMsg}
    (hl : ls.Perm (a.ms :: rest)) (h : Merge (a.next.toList.map AF.ms ++ rest) o) :
    Merge ls (a.ms.head?.toList ++ o) := by
  rcases a with ⟨t, ms⟩
  match ms, h, hl with
  | [], h, hl => exact (Merge.drop_nil (by simpa [AF.next] using h)).perm_left hl.symm
  | [m], h, hl =>
    exact Merge.pop hl (Merge.drop_nil (by simpa [AF.next] using h))
  | m :: m2 :: ms, h, hl =>
    exact Merge.pop hl (by simpa [AF.next] using h)

theorem AStep.merge {a b : ASt} {m : Option OutMsg} {o : List OutMsg} (h : AStep a m b)
    (hm : Merge b.pend o) : Merge a.pend (m.toList ++ o) := by
  cases h with
  | @read W cur np ms F T a hW hms ok ht =>
    simp only [Option.toList_none, List.nil_append]
    refine hm.perm_left ?_
    subst hms
    cases np <;> simp [ASt.pend]
  | @flush W cur T =>
    simp only [Option.toList_none, List.nil_append]
    refine hm.perm_left ?_
    by_cases hc : cur = [] <;> simp [ASt.pend, hc]
  | @pop W F T mode i k a _ hmin h0 =>
    obtain ⟨rest, p1, p2⟩ := popped_pend hmin
    refine merge_pop (rest := rest.map AF.ms ++ F.map Prod.snd) ?_ (hm.perm_left ?_)
    · have := (p1.map AF.ms).append_right (F.map Prod.snd)
      simpa [ASt.pend] using this
    · have := (p2.map AF.ms).append_right (F.map Prod.snd)
      simpa [ASt.pend] using this
  | @shift W F T mode i k a _ hmin h0 =>
    obtain ⟨rest, p1, p2⟩ := popped_pend hmin
    refine merge_pop (rest := rest.map AF.ms ++ F.map Prod.snd) ?_ (hm.perm_left ?_)
    · have := (p1.map AF.ms).append_right (F.map Prod.snd)
      simpa [ASt.pend] using this
    · have := (p2.map AF.ms).append_right (F.map Prod.snd)
      have e : (popped W i k a).tail.flatten = (popped W i k a).flatten := by
        cases hp : popped W i k a with
        | nil => rfl
        | cons x xs => rw [hp] at h0; simp at h0; subst h0; simp
      simp only [ASt.pend, List.append_nil, e]
      simpa using this
  | @clear W F T mode _ h =>
    simp only [Option.toList_none, List.nil_append]
    refine hm.perm_left ?_
    have : W.flatten = [] := List.flatten_eq_nil_iff.2 h
    simp [ASt.pend, this]

theorem AStep.fin {a : ASt} {m : Option OutMsg} {b : ASt} (h : AStep a m b)
    (hb : b.mode = .fin) : a.cur = [] ∧ a.F = [] ∧ ∀ st ∈ a.W, st = [] := by
  cases h with
  | read => rename_i W cur np ms F T a _ _ _ _; split at hb <;> simp at hb; split at hb <;> simp at hb
  | flush => simp at hb
  | pop hm => rcases hm with ⟨rfl, -⟩ | ⟨rfl, -⟩ <;> simp at hb
  | shift hm => rcases hm with ⟨rfl, -⟩ | ⟨rfl, -⟩ <;> simp at hb
  | clear hm h =>
    rcases hm with ⟨rfl, -⟩ | ⟨rfl, rfl⟩
    · simp at hb
    · exact ⟨rfl, rfl, h⟩

/-- Everything pending is printed exactly once, every extent in its order. -/
theorem ARun.merge {a : ASt} {o : List OutMsg} (h : ARun a o) (ha : a.mode ≠ .fin) :
    Merge a.pend o := by
  induction h with
  | fin => exact absurd rfl ha
  | @step a b m o hs hr ih =>
    by_cases hb : b.mode = .fin
    · have ho : o = [] := by
        cases hr with
        | fin => rfl
        | step h' _ => cases h' <;> simp_all
      have hm : m = none := by
        cases hs with
        | clear => rfl
        | read => rfl
        | flush => rfl
        | pop hm => rcases hm with ⟨rfl, -⟩ | ⟨rfl, -⟩ <;> simp at hb
        | shift hm => rcases hm with ⟨rfl, -⟩ | ⟨rfl, -⟩ <;> simp at hb
      obtain ⟨h1, h2, h3⟩ := hs.fin hb
      subst ho hm
      refine .nil ?_
      have : a.W.flatten = [] := List.flatten_eq_nil_iff.2 h3
      simp [ASt.pend, h1, h2, this]
    · exact hs.merge (ih hb)

/-! ## Time order -/

/-- Messages of a stage. -/
def stMsgs (st : List AF) : List OutMsg := (st.map AF.ms).flatten

/-- Messages not yet printed, per stage. -/
def ASt.groups (a : ASt) : List (List OutMsg) :=
  a.W.map stMsgs ++ stagesOf (a.cur.map AF.ms) a.F

/-- Invariant for time order: `L` is the time stamp of the last message printed. -/
structure ASt.J (L : Nat) (a : ASt) : Prop where
  sorted : ∀ l ∈ a.pend, Chrono l
  low : ∀ l ∈ a.pend, ∀ m ∈ l, L ≤ m.ts
  ok : ∀ b ∈ a.W.flatten ++ a.cur, b.OK
  empt : ∀ b ∈ a.W.flatten ++ a.cur, b.ms = [] → b.ts ≤ L
  free : (∃ e ∈ a.F, e.2 = []) → a.T ≤ L
  apart : Apart 3 a.groups
  prog : ∀ i x gi gj, a.groups[i]? = some gi → a.groups[i + 1]? = some gj → x ∈ gi →
    ∃ y ∈ gj, x.ts ≤ y.ts
  nonempty : ∀ i g, 1 ≤ i → a.groups[i]? = some g → g ≠ []
  first : a.mode = .fill → ∀ g, a.groups[0]? = some g → g ≠ []
  front : a.mode = .one ∨ a.mode = .all → ∀ st, a.W[0]? = some st → st ≠ []

theorem mem_stMsgs {st : List AF} {x : OutMsg} : x ∈ stMsgs st ↔ ∃ b ∈ st, x ∈ b.ms := by
  simp [stMsgs]

theorem mem_stagesOf {acc : List (List OutMsg)} {F : Exts} {g : List OutMsg} {x : OutMsg}
    (hg : g ∈ stagesOf acc F) (hx : x ∈ g) : ∃ l ∈ acc ++ F.map Prod.snd, x ∈ l := by
  induction F generalizing acc with
  | nil =>
    simp only [stagesOf] at hg
    split at hg
    · simp at hg
    · simp only [List.mem_singleton] at hg
      subst hg
      simpa using hx
  | cons e F ih =>
    obtain ⟨np, ms⟩ := e
    simp only [stagesOf] at hg
    split at hg
    · rcases List.mem_cons.1 hg with rfl | h
      · obtain ⟨l, h1, h2⟩ := List.mem_flatten.1 hx
        refine ⟨l, ?_, h2⟩
        simp only [List.mem_append, List.mem_singleton, List.map_cons, List.mem_cons] at h1 ⊢
        tauto
      · obtain ⟨l, h1, h2⟩ := ih h
        refine ⟨l, ?_, h2⟩
        simp only [List.mem_append, List.map_cons, List.mem_cons, List.not_mem_nil, false_or] at h1 ⊢
        tauto
    · obtain ⟨l, h1, h2⟩ := ih hg
      refine ⟨l, ?_, h2⟩
      simp only [List.mem_append, List.map_cons, List.mem_cons, List.not_mem_nil, or_false] at h1 ⊢
      tauto

theorem chrono_head {a : AF} (ok : a.OK) (hs : Chrono a.ms) {x : OutMsg} (hx : x ∈ a.ms) :
    a.ts ≤ x.ts := by
  cases hm : a.ms with
  | nil => rw [hm] at hx; simp at hx
  | cons m ms =>
    have := ok m (by simp [hm])
    rw [hm] at hx hs
    rcases List.mem_cons.1 hx with rfl | h
    · omega
    · have := List.rel_of_pairwise_cons hs h
      omega

theorem next_facts {a a' : AF} (h : a.next = some a') :
    ∃ m, a.ms = m :: a'.ms ∧ a'.ms ≠ [] ∧ a'.OK := by
  rcases a with ⟨t, ms⟩
  match ms, h with
  | m :: m2 :: ms, h =>
    simp [AF.next] at h
    subst h
    exact ⟨m, rfl, by simp, fun x hx => by simp at hx; simp [hx]⟩

theorem next_none {a : AF} (h : a.next = none) : a.ms = [] ∨ ∃ m, a.ms = [m] := by
  rcases a with ⟨t, ms⟩
  match ms, h with
  | [], _ => simp
  | [m], _ => simp

theorem popped_get {W : List (List AF)} {i k : Nat} {a : AF} {st : List AF} (hi : W[i]? = some st)
    (hk : st[k]? = some a) :
    (∀ j, j ≠ i → (popped W i k a)[j]? = W[j]?) ∧
    ∃ st', (popped W i k a)[i]? = some st' ∧ (∀ y ∈ stMsgs st', y ∈ stMsgs st) ∧
      (∀ y ∈ stMsgs st, y ∈ stMsgs st' ∨ a.ms.head? = some y) ∧
      (∀ b ∈ st', b ∈ st ∨ a.next = some b) := by
  refine ⟨fun j hj => by simp [popped, List.getElem?_modify, Ne.symm hj], ?_⟩
  refine ⟨_, by simp [popped, hi]; rfl, ?_⟩
  obtain ⟨r, q1, q2, q3⟩ := perm_at hk
  have m1 : ∀ b, b ∈ st ↔ b = a ∨ b ∈ r := fun b => by rw [q1.mem_iff]; simp
  cases hn : a.next with
  | none =>
    have m2 : ∀ b, b ∈ st.eraseIdx k ↔ b ∈ r := fun b => q3.mem_iff
    simp only [mem_stMsgs, m1, m2]
    refine ⟨fun y ⟨b, hb, hy⟩ => ⟨b, .inr hb, hy⟩, ?_, fun b hb => .inl (.inr hb)⟩
    rintro y ⟨b, rfl | hb, hy⟩
    · rcases next_none hn with h | ⟨m, h⟩
      · simp [h] at hy
      · right; rw [h] at hy ⊢; simp at hy; simp [hy]
    · exact .inl ⟨b, hb, hy⟩
  | some a' =>
    obtain ⟨m, e1, e2, e3⟩ := next_facts hn
    have m2 : ∀ b, b ∈ st.set k a' ↔ b = a' ∨ b ∈ r := fun b => by rw [(q2 a').mem_iff]; simp
    simp only [mem_stMsgs, m1, m2]
    refine ⟨?_, ?_, ?_⟩
    · rintro y ⟨b, rfl | hb, hy⟩
      · exact ⟨a, .inl rfl, by rw [e1]; simp [hy]⟩
      · exact ⟨b, .inr hb, hy⟩
    · rintro y ⟨b, rfl | hb, hy⟩
      · rw [e1] at hy
        rcases List.mem_cons.1 hy with rfl | h
        · right; rw [e1]; rfl
        · exact .inl ⟨a', .inl rfl, h⟩
      · exact .inl ⟨b, .inr hb, hy⟩
    · rintro b (rfl | hb)
      · exact .inr rfl
      · exact .inl (.inr hb)

/-- `gs'` is `gs` without the message `x?` of group `i`. -/
def Shrunk (i : Nat) (x? : Option OutMsg) (gs gs' : List (List OutMsg)) : Prop :=
  ∀ j g', gs'[j]? = some g' → ∃ g, gs[j]? = some g ∧ (∀ y ∈ g', y ∈ g) ∧
    ∀ y ∈ g, y ∈ g' ∨ (j = i ∧ x? = some y)

theorem popped_shrunk {W : List (List AF)} {F : Exts} {T T' : Nat} {mode mode' : AMode}
    {i k : Nat} {a : AF} (h : AMin W i k a) :
    Shrunk i a.ms.head? (ASt.groups ⟨W, [], F, T, mode⟩)
      (ASt.groups ⟨popped W i k a, [], F, T', mode'⟩) := by
  obtain ⟨⟨st, hi, hk⟩, -⟩ := h
  obtain ⟨p1, st', p2, p3, p4, -⟩ := popped_get hi hk
  have hl : (popped W i k a).length = W.length := by simp [popped]
  intro j g' hg
  simp only [ASt.groups] at hg ⊢
  by_cases hj : j < W.length
  · rw [List.getElem?_append_left (by simpa [hl] using hj), List.getElem?_map] at hg
    rw [List.getElem?_append_left (by simpa using hj), List.getElem?_map]
    by_cases hji : j = i
    · subst hji
      rw [p2] at hg
      simp only [Option.map_some, Option.some.injEq] at hg
      subst hg
      exact ⟨stMsgs st, by simp [hi], p3, fun y hy => (p4 y hy).imp id fun h => ⟨rfl, h⟩⟩
    · rw [p1 j hji] at hg
      exact ⟨g', hg, fun y h => h, fun y h => .inl h⟩
  · rw [List.getElem?_append_right (by simpa [hl] using hj)] at hg
    rw [List.getElem?_append_right (by simpa using hj)]
    simp only [List.length_map, hl] at hg ⊢
    exact ⟨g', hg, fun y h => h, fun y h => .inl h⟩

theorem ASt.J.group_low {L : Nat} {a : ASt} (h : a.J L) {j : Nat} {g : List OutMsg} {x : OutMsg}
    (hg : a.groups[j]? = some g) (hx : x ∈ g) : L ≤ x.ts := by
  have hm := List.mem_of_getElem? hg
  simp only [ASt.groups, List.mem_append, List.mem_map] at hm
  rcases hm with ⟨st, hst, rfl⟩ | hm
  · obtain ⟨b, hb, hxb⟩ := mem_stMsgs.1 hx
    refine h.low b.ms ?_ x hxb
    simp only [ASt.pend, List.mem_append, List.mem_map, List.mem_flatten]
    exact .inl ⟨b, .inl ⟨st, hst, hb⟩, rfl⟩
  · obtain ⟨l, h1, h2⟩ := mem_stagesOf hm hx
    refine h.low l ?_ x h2
    simp only [ASt.pend, List.map_append, List.append_assoc, List.mem_append] at h1 ⊢
    exact .inr h1

/-- Printing from the smallest fragment keeps the order. -/
theorem ASt.J.popped {L : Nat} {W : List (List AF)} {F : Exts} {T : Nat} {mode : AMode}
    (hJ : ASt.J L ⟨W, [], F, T, mode⟩)
    (hm : mode = .one ∧ W.length = 3 ∨ mode = .all ∧ F = []) {i k : Nat} {a : AF}
    (h : AMin W i k a) :
    ∃ L', (∀ x, a.ms.head? = some x → L ≤ x.ts ∧ L' = x.ts) ∧ (a.ms.head? = none → L' = L) ∧
      ∀ mode', mode' ≠ .fill →
        (mode' = .one ∨ mode' = .all → ∀ st, (NanoLog.popped W i k a)[0]? = some st → st ≠ []) →
        ASt.J L' ⟨NanoLog.popped W i k a, [], F, freed T a, mode'⟩ := by
  have hsh := fun mode' => popped_shrunk (F := F) (T := T) (T' := freed T a) (mode := mode)
    (mode' := mode') h
  obtain ⟨rest, pp1, pp2⟩ := popped_pend h
  obtain ⟨⟨st, hi, hk⟩, hmin⟩ := h
  have haW : a ∈ W.flatten := pp1.mem_iff.2 (by simp)
  have hast : a ∈ st := List.mem_of_getElem? hk
  have ok : a.OK := hJ.ok a (by simp [haW])
  have pendW : ∀ b ∈ W.flatten, b.ms ∈ ASt.pend ⟨W, [], F, T, mode⟩ := by
    intro b hb
    simp only [ASt.pend, List.append_nil, List.mem_append, List.mem_map]
    exact .inl ⟨b, hb, rfl⟩
  have hsa : Chrono a.ms := hJ.sorted _ (pendW a haW)
  have pendF : ∀ l ∈ F.map Prod.snd, l ∈ ASt.pend ⟨W, [], F, T, mode⟩ := by
    intro l hl; simp only [ASt.pend, List.mem_append]; exact .inr hl
  -- a message pending in a stage is not below `a`
  have hge : ∀ j stj, W[j]? = some stj → ∀ x ∈ stMsgs stj, a.ts ≤ x.ts ∧ (j < i → a.ts < x.ts) := by
    intro j stj hj x hx
    obtain ⟨b, hb, hxb⟩ := mem_stMsgs.1 hx
    have hbW : b ∈ W.flatten := List.mem_flatten.2 ⟨stj, List.mem_of_getElem? hj, hb⟩
    have h1 := chrono_head (hJ.ok b (by simp [hbW])) (hJ.sorted _ (pendW b hbW)) hxb
    have h2 := hmin j stj b hj hb
    exact ⟨by omega, fun hlt => by have := h2.2 hlt; omega⟩
  have hilen : i < W.length := by
    by_contra hc; rw [List.getElem?_eq_none (by omega)] at hi; cases hi
  -- groups of the window
  have hgW : ∀ j, j < W.length → (ASt.groups ⟨W, [], F, T, mode⟩)[j]? = (W[j]?).map stMsgs := by
    intro j hj
    simp only [ASt.groups]
    rw [List.getElem?_append_left (by simpa using hj), List.getElem?_map]
  -- sortedness and pending lists after the step
  have pend' : ∀ mode', ∀ l ∈ ASt.pend ⟨NanoLog.popped W i k a, [], F, freed T a, mode'⟩,
      (∃ a', a.next = some a' ∧ l = a'.ms) ∨ (∃ b ∈ rest, l = b.ms) ∨ l ∈ F.map Prod.snd := by
    intro mode' l hl
    simp only [ASt.pend, List.append_nil, List.mem_append, List.mem_map] at hl
    rcases hl with ⟨b, hb, rfl⟩ | hl
    · have := pp2.mem_iff.1 hb
      simp only [List.mem_append, Option.mem_toList] at this
      rcases this with h | h
      · exact .inl ⟨b, h, rfl⟩
      · exact .inr (.inl ⟨b, h, rfl⟩)
    · exact .inr (.inr (List.mem_map.2 hl))
  have restW : ∀ b ∈ rest, b ∈ W.flatten := fun b hb => pp1.mem_iff.2 (by simp [hb])
  have srt : ∀ mode', ∀ l ∈ ASt.pend ⟨NanoLog.popped W i k a, [], F, freed T a, mode'⟩, Chrono l := by
    intro mode' l hl
    rcases pend' mode' l hl with ⟨a', h1, rfl⟩ | ⟨b, hb, rfl⟩ | hF
    · obtain ⟨m, e1, -⟩ := next_facts h1
      rw [e1] at hsa
      exact (List.pairwise_cons.1 hsa).2
    · exact hJ.sorted _ (pendW b (restW b hb))
    · exact hJ.sorted _ (pendF l hF)
  have okk : ∀ b ∈ (NanoLog.popped W i k a).flatten ++ [], b.OK := by
    intro b hb
    rw [List.append_nil, pp2.mem_iff] at hb
    simp only [List.mem_append, Option.mem_toList] at hb
    rcases hb with h1 | h1
    · exact (next_facts h1).choose_spec.2.2
    · exact hJ.ok b (by simpa using restW b h1)
  have empt' : ∀ b ∈ (NanoLog.popped W i k a).flatten ++ [], b.ms = [] → b.ts ≤ L := by
    intro b hb he
    rw [List.append_nil, pp2.mem_iff] at hb
    simp only [List.mem_append, Option.mem_toList] at hb
    rcases hb with h1 | h1
    · obtain ⟨m, -, e2, -⟩ := next_facts h1
      exact absurd he e2
    · exact hJ.empt b (by simpa using restW b h1) he
  have apart' : ∀ mode', Apart 3 (ASt.groups ⟨NanoLog.popped W i k a, [], F, freed T a, mode'⟩) := by
    intro mode' p q x y gi gj hpq hgi hgj hx hy
    obtain ⟨g1, a1, a2, -⟩ := hsh mode' p gi hgi
    obtain ⟨g2, b1, b2, -⟩ := hsh mode' q gj hgj
    exact hJ.apart p q x y g1 g2 hpq a1 b1 (a2 x hx) (b2 y hy)
  cases hh : a.ms.head? with
  | none =>
    have hae : a.ms = [] := by simpa using hh
    have hnn : a.next = none := by simp [AF.next, hae]
    refine ⟨L, by simp, fun _ => rfl, fun mode' hmode hfr => ?_⟩
    have hsh' := hsh mode'
    rw [hh] at hsh'
    have same : ∀ (j : Nat) (g' : List OutMsg), (ASt.groups ⟨NanoLog.popped W i k a, [], F, freed T a, mode'⟩)[j]? = some g' →
        ∃ g : List OutMsg, (ASt.groups ⟨W, [], F, T, mode⟩)[j]? = some g ∧ ∀ y, y ∈ g' ↔ y ∈ g := by
      intro j g' hg
      obtain ⟨g, a1, a2, a3⟩ := hsh' j g' hg
      exact ⟨g, a1, fun y => ⟨a2 y, fun hy => by simpa using a3 y hy⟩⟩
    refine ⟨srt mode', ?_, okk, empt', ?_, apart' mode', ?_, ?_, fun hf => absurd hf hmode, hfr⟩
    · intro l hl m hm'
      rcases pend' mode' l hl with ⟨a', h1, rfl⟩ | ⟨b, hb, rfl⟩ | hF
      · rw [hnn] at h1; cases h1
      · exact hJ.low _ (pendW b (restW b hb)) m hm'
      · exact hJ.low _ (pendF l hF) m hm'
    · intro hex
      have h1 := hJ.empt a (by simpa using haW) hae
      have h2 := hJ.free hex
      simp only [freed]
      split
      · exact h2
      · exact Nat.max_le.2 ⟨h2, h1⟩
    · intro p x gi gj hgi hgj hx
      obtain ⟨g1, a1, a2⟩ := same p gi hgi
      obtain ⟨g2, b1, b2⟩ := same (p + 1) gj hgj
      obtain ⟨y, hy, hle⟩ := hJ.prog p x g1 g2 a1 b1 ((a2 x).1 hx)
      exact ⟨y, (b2 y).2 hy, hle⟩
    · intro p g hp hg he
      obtain ⟨g1, a1, a2⟩ := same p g hg
      apply hJ.nonempty p g1 hp a1
      rw [List.eq_nil_iff_forall_not_mem]
      intro y hy
      have := (a2 y).2 hy
      rw [he] at this
      simp at this
  | some x =>
    have hxa : x.ts = a.ts := ok x hh
    have hxm : x ∈ a.ms := by
      cases hms : a.ms with
      | nil => simp [hms] at hh
      | cons m ms => simp [hms] at hh; simp [hh]
    have hLx : L ≤ x.ts := hJ.low _ (pendW a haW) x hxm
    -- stage 0 still has a message
    have h0 : ∃ st0 z, W[0]? = some st0 ∧ z ∈ stMsgs st0 := by
      cases hW0 : W[0]? with
      | none =>
        have : W.length = 0 := by
          by_contra hc
          rw [List.getElem?_eq_getElem (by omega)] at hW0
          cases hW0
        omega
      | some st0 =>
        refine ⟨st0, ?_⟩
        by_contra hno
        have hno' : ∀ z, z ∉ stMsgs st0 := fun z hz => hno ⟨z, rfl, hz⟩
        have hall : ∀ b ∈ st0, b.ms = [] := by
          intro b hb
          rw [List.eq_nil_iff_forall_not_mem]
          intro y hy
          exact hno' y (mem_stMsgs.2 ⟨b, hb, hy⟩)
        have hfr : st0 ≠ [] := by
          refine hJ.front ?_ st0 hW0
          rcases hm with ⟨rfl, -⟩ | ⟨rfl, -⟩ <;> simp
        obtain ⟨b, hb⟩ := List.exists_mem_of_ne_nil _ hfr
        have hbW : b ∈ W.flatten := List.mem_flatten.2 ⟨st0, List.mem_of_getElem? hW0, hb⟩
        have hbL := hJ.empt b (by simpa using hbW) (hall b hb)
        by_cases hi0 : i = 0
        · subst hi0
          rw [hW0] at hi
          cases hi
          have := hall a hast
          rw [this] at hxm
          simp at hxm
        · have := (hmin 0 st0 b hW0 hb).2 (by omega)
          omega
    obtain ⟨st0, z, hW0, hz⟩ := h0
    have hg0 : (ASt.groups ⟨W, [], F, T, mode⟩)[0]? = some (stMsgs st0) := by
      rw [hgW 0 (by omega), hW0]; rfl
    refine ⟨x.ts, fun y hy => by cases hy; exact ⟨hLx, rfl⟩, by simp, fun mode' hmode hfr => ?_⟩
    have hsh' := hsh mode'
    rw [hh] at hsh'
    refine ⟨srt mode', ?_, okk, fun b hb he => Nat.le_trans (empt' b hb he) hLx, ?_, apart' mode', ?_, ?_,
      fun hf => absurd hf hmode, hfr⟩
    · intro l hl m hm'
      rcases pend' mode' l hl with ⟨a', h1, rfl⟩ | ⟨b, hb, rfl⟩ | hF
      · obtain ⟨m0, e1, -⟩ := next_facts h1
        rw [hxa]
        exact chrono_head ok hsa (by rw [e1]; simp [hm'])
      · obtain ⟨stj, hst, hbs⟩ := List.mem_flatten.1 (restW b hb)
        obtain ⟨j, hj⟩ := List.getElem?_of_mem hst
        have := (hge j stj hj m (mem_stMsgs.2 ⟨b, hbs, hm'⟩)).1
        omega
      · rcases hm with ⟨-, hW3⟩ | ⟨-, rfl⟩
        · have hzx := (hge 0 st0 hW0 z hz).1
          have : ∃ j g, 3 ≤ j ∧ (ASt.groups ⟨W, [], F, T, mode⟩)[j]? = some g ∧ m ∈ g := by
            have key : ∀ (F : Exts) (acc : List (List OutMsg)), (∃ l ∈ acc ++ F.map Prod.snd, m ∈ l) →
                ∃ g ∈ stagesOf acc F, m ∈ g := by
              intro F
              induction F with
              | nil =>
                rintro acc ⟨l, hl, hml⟩
                simp only [List.map_nil, List.append_nil] at hl
                have : acc ≠ [] := by rintro rfl; simp at hl
                simp only [stagesOf, this, if_false, List.mem_singleton, exists_eq_left]
                exact List.mem_flatten.2 ⟨l, hl, hml⟩
              | cons e F ih =>
                rintro acc ⟨l, hl, hml⟩
                obtain ⟨np, ms⟩ := e
                simp only [List.map_cons, List.mem_append, List.mem_cons] at hl
                simp only [stagesOf]
                by_cases hnp : np = true
                · simp only [hnp, if_true, List.mem_cons, exists_eq_or_imp, List.mem_flatten,
                    List.mem_append, List.mem_singleton]
                  rcases hl with h | h | h
                  · exact .inl ⟨l, .inl h, hml⟩
                  · exact .inl ⟨l, .inr (by simpa using h), hml⟩
                  · exact .inr (ih [] ⟨l, by simpa using h, hml⟩)
                · simp only [hnp, if_false]
                  refine ih _ ⟨l, ?_, hml⟩
                  simp only [List.mem_append, List.mem_singleton]
                  tauto
            obtain ⟨g, hg, hmg⟩ := key F [] ⟨l, by simpa using hF, hm'⟩
            obtain ⟨j, hj⟩ := List.getElem?_of_mem hg
            refine ⟨3 + j, g, by omega, ?_, hmg⟩
            simp only [ASt.groups]
            rw [List.getElem?_append_right (by simp; omega)]
            simpa [hW3] using hj
          obtain ⟨j, g, hj, hg, hmg⟩ := this
          have := hJ.apart 0 j z m _ g (by omega) hg0 hg hz hmg
          omega
        · simp at hF
    · intro hex
      have h2 := hJ.free hex
      simp only at h2
      simp only [freed]
      split
      · exact Nat.le_trans h2 hLx
      · omega
    · intro p w gi gj hgi hgj hw
      obtain ⟨g1, a1, a2, -⟩ := hsh' p gi hgi
      obtain ⟨g2, b1, b2, b3⟩ := hsh' (p + 1) gj hgj
      obtain ⟨y, hy, hle⟩ := hJ.prog p w g1 g2 a1 b1 (a2 w hw)
      rcases b3 y hy with h1 | ⟨rfl, h1⟩
      · exact ⟨y, h1, hle⟩
      · cases h1
        exfalso
        have hp : p < W.length := by omega
        rw [hgW p hp, Option.map_eq_some_iff] at a1
        obtain ⟨stp, e1, rfl⟩ := a1
        have := (hge p stp e1 w (a2 w hw)).2 (by omega)
        omega
    · intro p g hp hg he
      obtain ⟨g1, a1, a2, a3⟩ := hsh' p g hg
      have hne := hJ.nonempty p g1 hp a1
      obtain ⟨y, hy⟩ := List.exists_mem_of_ne_nil _ hne
      rcases a3 y hy with h1 | ⟨rfl, -⟩
      · rw [he] at h1; simp at h1
      · -- the group before it
        have hpi : p - 1 < W.length := by omega
        obtain ⟨stq, hq, w, hw⟩ : ∃ stq, W[p - 1]? = some stq ∧ ∃ w, w ∈ stMsgs stq := by
          by_cases hp1 : p - 1 = 0
          · exact ⟨st0, by rw [hp1]; exact hW0, z, hz⟩
          · refine ⟨W[p - 1], List.getElem?_eq_getElem hpi, ?_⟩
            have : (ASt.groups ⟨W, [], F, T, mode⟩)[p - 1]? = some (stMsgs W[p - 1]) := by
              rw [hgW _ hpi, List.getElem?_eq_getElem hpi]; rfl
            exact List.exists_mem_of_ne_nil _ (hJ.nonempty (p - 1) _ (by omega) this)
        have hgq : (ASt.groups ⟨W, [], F, T, mode⟩)[p - 1]? = some (stMsgs stq) := by
          rw [hgW _ hpi, hq]; rfl
        obtain ⟨y', hy', hle⟩ := hJ.prog (p - 1) w _ g1 hgq (by rw [show p - 1 + 1 = p by omega]; exact a1) hw
        have hlt := (hge (p - 1) stq hq w hw).2 (by omega)
        rcases a3 y' hy' with h2 | ⟨-, h2⟩
        · rw [he] at h2; simp at h2
        · cases h2; omega

theorem ASt.J.groups_congr {L : Nat} {a b : ASt} (h : a.J L) (hp : a.pend = b.pend)
    (hW : a.W.flatten ++ a.cur = b.W.flatten ++ b.cur) (hT : (∃ e ∈ b.F, e.2 = []) → b.T ≤ L) (hg : a.groups = b.groups)
    (hf : b.mode = .fill → ∀ g, b.groups[0]? = some g → g ≠ [])
    (hfr : b.mode = .one ∨ b.mode = .all → ∀ st, b.W[0]? = some st → st ≠ []) : b.J L :=
  ⟨hp ▸ h.sorted, hp ▸ h.low, hW ▸ h.ok, hW ▸ h.empt, hT, hg ▸ h.apart, hg ▸ h.prog,
    hg ▸ h.nonempty, hf, hfr⟩

theorem stMsgs_ne {st : List AF} (h : stMsgs st ≠ []) : st ≠ [] := by
  rintro rfl; exact h rfl

theorem popped_zero {W : List (List AF)} {i k : Nat} {a : AF} (h : AMin W i k a)
    (h0 : (popped W i k a)[0]? = some []) (hW : ∀ st, W[0]? = some st → st ≠ []) : i = 0 := by
  obtain ⟨⟨st, hi, hk⟩, -⟩ := h
  by_contra hne
  rw [(popped_get hi hk).1 0 (fun h => hne h.symm)] at h0
  exact hW [] h0 rfl

theorem Apart.tail {n : Nat} {g : List OutMsg} {gs : List (List OutMsg)} (h : Apart n (g :: gs)) :
    Apart n gs := by
  intro i j x y gi gj hij hi hj
  exact h (i + 1) (j + 1) x y gi gj (by omega) (by simpa using hi) (by simpa using hj)

theorem ASt.J.step {L : Nat} {a b : ASt} {m : Option OutMsg} (h : a.J L) (hs : AStep a m b) :
    ∃ L', (∀ x, m = some x → L ≤ x.ts ∧ L' = x.ts) ∧ (m = none → L' = L) ∧ b.J L' := by
  cases hs with
  | @read W cur np ms F T a hW hm ok ht =>
    refine ⟨L, by simp, fun _ => rfl, ?_⟩
    subst hm
    have hpend : ∀ np, ASt.pend ⟨W, cur, (np, a.ms) :: F, T, .fill⟩ =
        (W.flatten ++ cur).map AF.ms ++ a.ms :: F.map Prod.snd := fun np => by simp [ASt.pend]
    have hfrag : ∀ b ∈ W.flatten ++ (cur ++ [a]), b.OK ∧ (b.ms = [] → b.ts ≤ L) := by
      intro b hb
      rw [← List.append_assoc] at hb
      rcases List.mem_append.1 hb with hb | hb
      · exact ⟨h.ok b hb, h.empt b hb⟩
      · simp only [List.mem_singleton] at hb
        subst hb
        exact ⟨ok, fun he => Nat.le_trans (ht he) (h.free ⟨(np, b.ms), by simp, he⟩)⟩
    have hf0 := h.first rfl
    have hfree : (∃ e ∈ F, e.2 = []) → T ≤ L := fun ⟨e, he, h'⟩ => h.free ⟨e, by simp [he], h'⟩
    cases np with
    | false =>
      have hp : ASt.pend ⟨W, cur ++ [a], F, T, .fill⟩ = ASt.pend ⟨W, cur, (false, a.ms) :: F, T, .fill⟩ := by
        simp [ASt.pend]
      have hg : ASt.groups ⟨W, cur ++ [a], F, T, .fill⟩ = ASt.groups ⟨W, cur, (false, a.ms) :: F, T, .fill⟩ := by
        simp [ASt.groups, stagesOf]
      simp only [Bool.false_eq_true, if_false]
      exact ⟨hp ▸ h.sorted, hp ▸ h.low, fun b hb => (hfrag b hb).1, fun b hb => (hfrag b hb).2, hfree,
        hg ▸ h.apart, hg ▸ h.prog, hg ▸ h.nonempty, fun _ => hg ▸ hf0, by simp⟩
    | true =>
      have hp : ∀ mode, ASt.pend ⟨W ++ [cur ++ [a]], [], F, T, mode⟩ =
          ASt.pend ⟨W, cur, (true, a.ms) :: F, T, .fill⟩ := by
        intro mode; simp [ASt.pend]
      have hg : ∀ mode, ASt.groups ⟨W ++ [cur ++ [a]], [], F, T, mode⟩ =
          ASt.groups ⟨W, cur, (true, a.ms) :: F, T, .fill⟩ := by
        intro mode; simp [ASt.groups, stagesOf, stMsgs]
      simp only [if_true]
      refine ⟨hp _ ▸ h.sorted, hp _ ▸ h.low, fun b hb => (hfrag b ?_).1, fun b hb => (hfrag b ?_).2, hfree,
        hg _ ▸ h.apart, hg _ ▸ h.prog, hg _ ▸ h.nonempty, fun _ => hg _ ▸ hf0, ?_⟩
      · simpa using hb
      · simpa using hb
      · intro _ st hst
        simp only at hst
        have : (ASt.groups ⟨W, cur, (true, a.ms) :: F, T, .fill⟩)[0]? = some (stMsgs st) := by
          rw [← hg .fill, ASt.groups, List.getElem?_append_left (by simp), List.getElem?_map]
          simp only [hst, Option.map_some]
        exact stMsgs_ne (hf0 _ this)
  | @flush W cur T =>
    refine ⟨L, by simp, fun _ => rfl, ?_⟩
    have hf0 := h.first rfl
    by_cases hc : cur = []
    · subst hc
      simp only [if_true]
      refine h.groups_congr (by simp [ASt.pend]) (by simp) h.free (by simp [ASt.groups]) (by simp) ?_
      intro _ st hst
      simp only at hst
      have hl : 0 < W.length := by
        by_contra hc; rw [List.getElem?_eq_none (by omega)] at hst; cases hst
      refine stMsgs_ne (hf0 _ ?_)
      rw [ASt.groups, List.getElem?_append_left (by simpa using hl), List.getElem?_map]
      simp only [hst, Option.map_some]
    · simp only [hc, if_false]
      have hg : ASt.groups ⟨W, cur, [], T, .fill⟩ = ASt.groups ⟨W ++ [cur], [], [], T, .all⟩ := by
        simp [ASt.groups, stagesOf, hc, stMsgs]
      refine h.groups_congr (by simp [ASt.pend]) (by simp) h.free hg (by simp) ?_
      intro _ st hst
      simp only at hst
      refine stMsgs_ne (hf0 _ ?_)
      rw [hg, ASt.groups, List.getElem?_append_left (by simp), List.getElem?_map]
      simp only [hst, Option.map_some]
  | @pop W F T mode i k a hm hmin h0 =>
    obtain ⟨L', h1, h2, h3⟩ := h.popped hm hmin
    refine ⟨L', h1, h2, h3 mode ?_ (fun _ => h0)⟩
    rcases hm with ⟨rfl, -⟩ | ⟨rfl, -⟩ <;> simp
  | @shift W F T mode i k a hm hmin h0 =>
    obtain ⟨L', h1, h2, h3⟩ := h.popped hm hmin
    have h3 := h3 .fin (by simp) (by simp)
    refine ⟨L', h1, h2, ?_⟩
    cases hp : NanoLog.popped W i k a with
    | nil => rw [hp] at h0; simp at h0
    | cons x xs =>
      rw [hp] at h0 h3
      simp only [List.getElem?_cons_zero, Option.some.injEq] at h0
      subst h0
      have hg : ∀ mode', ASt.groups ⟨[] :: xs, [], F, freed T a, .fin⟩ =
          [] :: ASt.groups ⟨xs, [], F, freed T a, mode'⟩ := by
        intro mode'; simp [ASt.groups, stMsgs]
      simp only [List.tail_cons]
      have hpd : ∀ mode', ASt.pend ⟨[] :: xs, [], F, freed T a, .fin⟩ =
          ASt.pend ⟨xs, [], F, freed T a, mode'⟩ := by
        intro mode'; simp [ASt.pend]
      generalize (if mode = .one then AMode.fill else .all) = mode'
      have hne : ∀ (i : Nat) (g : List OutMsg), (ASt.groups ⟨xs, [], F, freed T a, mode'⟩)[i]? = some g → g ≠ [] := by
        intro i g hi
        exact h3.nonempty (i + 1) g (by omega) (by rw [hg mode']; simpa using hi)
      refine ⟨hpd mode' ▸ h3.sorted, hpd mode' ▸ h3.low, ?_, ?_, h3.free, ?_, ?_, ?_, ?_, ?_⟩
      · intro b hb; exact h3.ok b (by simpa using hb)
      · intro b hb; exact h3.empt b (by simpa using hb)
      · have := h3.apart; rw [hg mode'] at this; exact this.tail
      · intro i x gi gj hi hj
        exact h3.prog (i + 1) x gi gj (by rw [hg mode']; simpa using hi) (by rw [hg mode']; simpa using hj)
      · intro i g _ hi; exact hne i g hi
      · intro _ g hi; exact hne 0 g hi
      · intro _ st hst
        simp only at hst
        have hl : 0 < xs.length := by
          by_contra hc; rw [List.getElem?_eq_none (by omega)] at hst; cases hst
        refine stMsgs_ne (hne 0 _ ?_)
        rw [ASt.groups, List.getElem?_append_left (by simpa using hl), List.getElem?_map]
        simp only [hst, Option.map_some]
  | @clear W F T mode hm hall =>
    refine ⟨L, by simp, fun _ => rfl, ?_⟩
    have hfl : W.flatten = [] := List.flatten_eq_nil_iff.2 hall
    have hmode : mode = .one ∨ mode = .all := by rcases hm with ⟨rfl, -⟩ | ⟨rfl, -⟩ <;> simp
    have hW : W = [] := by
      cases W with
      | nil => rfl
      | cons st W => exact absurd (hall st (by simp)) (h.front hmode st rfl)
    subst hW
    rcases hm with ⟨-, h3⟩ | ⟨rfl, rfl⟩
    · simp at h3
    · exact h.groups_congr rfl rfl h.free rfl (by simp) (by simp)

/-- Under the invariant everything is printed in time order. -/
theorem ARun.chrono {a : ASt} {o : List OutMsg} (h : ARun a o) {L : Nat} (hJ : a.J L) :
    Chrono o ∧ ∀ m ∈ o, L ≤ m.ts := by
  induction h generalizing L with
  | fin => exact ⟨List.Pairwise.nil, by simp⟩
  | @step a b m o hs hr ih =>
    obtain ⟨L', h1, h2, h3⟩ := hJ.step hs
    obtain ⟨i1, i2⟩ := ih h3
    cases m with
    | none => rw [h2 rfl] at i2; exact ⟨i1, by simpa using i2⟩
    | some x =>
      obtain ⟨e1, rfl⟩ := h1 x rfl
      refine ⟨List.pairwise_cons.2 ⟨i2, i1⟩, ?_⟩
      intro y hy
      simp only [Option.toList_some, List.singleton_append, List.mem_cons] at hy
      rcases hy with rfl | hy
      · exact e1
      · exact Nat.le_trans e1 (i2 y hy)

/-- The invariant holds at the beginning if the file meets the conditions. -/
theorem ASt.J.init {F : Exts} {T : Nat} (hs : ∀ e ∈ F, Chrono e.2) (ha : Apart 3 (stagesOf [] F))
    (hp : Progress (stagesOf [] F)) (hT : (∃ e ∈ F, e.2 = []) → T = 0) :
    ASt.J 0 ⟨[], [], F, T, .fill⟩ := by
  refine ⟨?_, fun _ _ _ _ => Nat.zero_le _, by simp, by simp, fun h => Nat.le_of_eq (hT h), ha, hp.2, ?_,
    ?_, by simp⟩
  · intro l hl
    simp only [ASt.pend, List.flatten_nil, List.append_nil, List.map_nil, List.nil_append,
      List.mem_map] at hl
    obtain ⟨e, he, rfl⟩ := hl
    exact hs e he
  · intro i g _ hg
    exact hp.1 g (List.mem_of_getElem? hg)
  · intro _ g hg
    exact hp.1 g (List.mem_of_getElem? hg)

end NanoLog
