import Verif.OrderedCut

/-!
# Ordered decompression keeps the order of a thread

Helper lemmas for C73 and C75, on the abstraction of `Verif/OrderedAbs.lean`.  `p` selects messages such that in every
extent nothing in front of a selected message has a larger time stamp.
-/

namespace NanoLog

/-- Time stamps increase. -/
def Rising (ms : List OutMsg) : Prop := ms.Pairwise (fun a b => a.ts < b.ts)

/-- Nothing in front of a selected message has a larger time stamp. -/
def Ahead (p : OutMsg → Bool) (ms : List OutMsg) : Prop := ms.Pairwise fun z y => p y = true → z.ts ≤ y.ts

/-- Invariant: `B` are the extents in memory, `F` those not yet read. -/
structure KSt (p : OutMsg → Bool) (B : List AF) (F : Exts) : Prop where
  ok : ∀ x ∈ B, x.OK
  aheadB : ∀ x ∈ B, Ahead p x.ms
  srt : ∀ x ∈ B, Rising (x.ms.filter p)
  ne : ((B.map AF.ms).flatten.filter p).Pairwise (fun a b => a.ts ≠ b.ts)
  late : ∀ x ∈ B, ∀ m ∈ x.ms, p m = true → ∀ e ∈ F, ∀ y ∈ e.2, p y = true → m.ts < y.ts
  aheadF : ∀ e ∈ F, Ahead p e.2
  rise : Rising ((F.map Prod.snd).flatten.filter p)

theorem KSt.perm {p : OutMsg → Bool} {B B' : List AF} {F : Exts} (h : KSt p B F) (hp : B.Perm B') : KSt p B' F where
  ok x hx := h.ok x (hp.mem_iff.2 hx)
  aheadB x hx := h.aheadB x (hp.mem_iff.2 hx)
  srt x hx := h.srt x (hp.mem_iff.2 hx)
  ne := (((hp.map AF.ms).flatten.filter p).pairwise_iff (fun h => Ne.symm h)).1 h.ne
  late x hx := h.late x (hp.mem_iff.2 hx)
  aheadF := h.aheadF
  rise := h.rise

/-- Reading an extent. -/
theorem KSt.read {p : OutMsg → Bool} {B : List AF} {F : Exts} {np : Bool} {a : AF} (ok : a.OK)
    (h : KSt p B ((np, a.ms) :: F)) : KSt p (B ++ [a]) F := by
  have hr := h.rise
  simp only [Rising, List.map_cons, List.flatten_cons, List.filter_append, List.pairwise_append] at hr
  obtain ⟨r1, r2, r3⟩ := hr
  refine ⟨?_, ?_, ?_, ?_, ?_, fun e he => h.aheadF e (by simp [he]), r2⟩
  · intro x hx
    rcases List.mem_append.1 hx with hx | hx
    · exact h.ok x hx
    · rw [List.mem_singleton.1 hx]; exact ok
  · intro x hx
    rcases List.mem_append.1 hx with hx | hx
    · exact h.aheadB x hx
    · rw [List.mem_singleton.1 hx]; exact h.aheadF _ (List.mem_cons_self ..)
  · intro x hx
    rcases List.mem_append.1 hx with hx | hx
    · exact h.srt x hx
    · rw [List.mem_singleton.1 hx]; exact r1
  · simp only [List.map_append, List.map_cons, List.map_nil, List.flatten_append, List.flatten_cons, List.flatten_nil,
      List.append_nil, List.filter_append, List.pairwise_append]
    refine ⟨h.ne, r1.imp fun h => Nat.ne_of_lt h, fun m hm y hy => ?_⟩
    simp only [List.mem_filter, List.mem_flatten, List.mem_map] at hm hy
    obtain ⟨⟨l, ⟨x, hx, rfl⟩, hm⟩, hpm⟩ := hm
    exact Nat.ne_of_lt (h.late x hx m hm hpm _ (List.mem_cons_self ..) y hy.1 hy.2)
  · intro x hx m hm hpm e he y hy hpy
    rcases List.mem_append.1 hx with hx | hx
    · exact h.late x hx m hm hpm e (by simp [he]) y hy hpy
    · rw [List.mem_singleton.1 hx] at hm
      exact r3 m (by simp [hm, hpm]) y (by
        simp only [List.mem_filter, List.mem_flatten, List.mem_map]
        exact ⟨⟨e.2, ⟨e, he, rfl⟩, hy⟩, hpy⟩)

/-- Printing from the extent with the smallest time stamp. -/
theorem KSt.pop {p : OutMsg → Bool} {a : AF} {rest : List AF} {F : Exts} (h : KSt p (a :: rest) F)
    (hmin : ∀ b ∈ rest, a.ts ≤ b.ts) :
    KSt p (a.next.toList ++ rest) F ∧ ∀ x, a.ms.head? = some x → p x = true →
      ∀ y, (y ∈ ((a.next.toList ++ rest).map AF.ms).flatten ∨ y ∈ (F.map Prod.snd).flatten) → p y = true → x.ts < y.ts := by
  have hr : KSt p rest F := ⟨fun x hx => h.ok x (by simp [hx]), fun x hx => h.aheadB x (by simp [hx]),
    fun x hx => h.srt x (by simp [hx]), by
      have := h.ne
      simp only [List.map_cons, List.flatten_cons, List.filter_append, List.pairwise_append] at this
      exact this.2.1, fun x hx => h.late x (by simp [hx]), h.aheadF, h.rise⟩
  have hlow : ∀ x, x ∈ a.ms → p x = true → a.ms.head? = some x →
      ∀ b ∈ rest, ∀ y ∈ b.ms, p y = true → x.ts < y.ts := by
    intro x hx hpx hh b hb y hy hpy
    have e1 : x.ts = a.ts := h.ok a (by simp) x hh
    have hle : x.ts ≤ y.ts := by
      cases hm : b.ms with
      | nil => rw [hm] at hy; simp at hy
      | cons z zs =>
        have e2 : z.ts = b.ts := h.ok b (by simp [hb]) z (by rw [hm]; rfl)
        have hle := hmin b hb
        have hs := h.aheadB b (by simp [hb])
        rw [hm, Ahead, List.pairwise_cons] at hs
        rw [hm] at hy
        rcases List.mem_cons.1 hy with rfl | hy
        · omega
        · have := hs.1 y hy hpy; omega
    have hne : x.ts ≠ y.ts := by
      have := h.ne
      simp only [List.map_cons, List.flatten_cons, List.filter_append, List.pairwise_append] at this
      refine this.2.2 x (by simp [hx, hpx]) y ?_
      simp only [List.mem_filter, List.mem_flatten, List.mem_map]
      exact ⟨⟨b.ms, ⟨b, hb, rfl⟩, hy⟩, hpy⟩
    omega
  have hF : ∀ x ∈ a.ms, p x = true → ∀ y ∈ (F.map Prod.snd).flatten, p y = true → x.ts < y.ts := by
    intro x hx hpx y hy hpy
    simp only [List.mem_flatten, List.mem_map] at hy
    obtain ⟨l, ⟨e, he, rfl⟩, hy⟩ := hy
    exact h.late a (by simp) x hx hpx e he y hy hpy
  have hrest : ∀ {y}, y ∈ (rest.map AF.ms).flatten → ∃ b ∈ rest, y ∈ b.ms := by
    intro y hy
    simp only [List.mem_flatten, List.mem_map] at hy
    obtain ⟨l, ⟨b, hb, rfl⟩, hy⟩ := hy
    exact ⟨b, hb, hy⟩
  rcases a with ⟨t, ms⟩
  match ms with
  | [] => exact ⟨by simpa [AF.next] using hr, fun x hx => by simp at hx⟩
  | [x] =>
    refine ⟨by simpa [AF.next] using hr, fun x' hx hpx y hy hpy => ?_⟩
    simp only [List.head?_cons, Option.some.injEq] at hx
    subst hx
    rcases hy with hy | hy
    · obtain ⟨b, hb, hy⟩ := hrest (by simpa [AF.next] using hy)
      exact hlow x (by simp) hpx rfl b hb y hy hpy
    · exact hF x (by simp) hpx y hy hpy
  | x :: x2 :: ms =>
    have hpa := h.aheadB _ (List.mem_cons_self ..)
    have hsa := h.srt _ (List.mem_cons_self ..)
    have hsub : (x2 :: ms).Sublist (x :: x2 :: ms) := List.sublist_cons_self _ _
    refine ⟨?_, fun x' hx hpx y hy hpy => ?_⟩
    · show KSt p (⟨x2.ts, x2 :: ms⟩ :: rest) F
      refine ⟨?_, ?_, ?_, ?_, ?_, h.aheadF, h.rise⟩
      · intro z hz
        rcases List.mem_cons.1 hz with rfl | hz
        · intro m hm; simp only [List.head?_cons, Option.some.injEq] at hm; rw [← hm]
        · exact hr.ok z hz
      · intro z hz
        rcases List.mem_cons.1 hz with rfl | hz
        · exact List.Pairwise.sublist hsub hpa
        · exact hr.aheadB z hz
      · intro z hz
        rcases List.mem_cons.1 hz with rfl | hz
        · exact List.Pairwise.sublist (hsub.filter p) hsa
        · exact hr.srt z hz
      · refine List.Pairwise.sublist (List.Sublist.filter p ?_) h.ne
        simp only [List.map_cons, List.flatten_cons]
        exact hsub.append_right _
      · intro z hz m hm
        rcases List.mem_cons.1 hz with rfl | hz
        · exact h.late _ (List.mem_cons_self ..) m (hsub.subset hm)
        · exact hr.late z hz m hm
    · simp only [List.head?_cons, Option.some.injEq] at hx
      subst hx
      rcases hy with hy | hy
      · have hy : y ∈ (x2 :: ms) ++ (rest.map AF.ms).flatten := by simpa [AF.next] using hy
        rcases List.mem_append.1 hy with hy | hy
        · have := hsa
          rw [Rising, List.filter_cons_of_pos hpx, List.pairwise_cons] at this
          exact this.1 y (List.mem_filter.2 ⟨hy, hpy⟩)
        · obtain ⟨b, hb, hy⟩ := hrest hy
          exact hlow x (by simp) hpx rfl b hb y hy hpy
      · exact hF x (by simp) hpx y hy hpy

theorem AStep.keeps {p : OutMsg → Bool} {a b : ASt} {m : Option OutMsg} (h : AStep a m b)
    (hk : KSt p (a.W.flatten ++ a.cur) a.F) : KSt p (b.W.flatten ++ b.cur) b.F ∧
      ∀ x, m = some x → p x = true → ∀ y ∈ b.pend.flatten, p y = true → x.ts < y.ts := by
  cases h with
  | @read W cur np ms F T a hW hms ok ht =>
    subst hms
    refine ⟨?_, by simp⟩
    have := hk.read ok
    cases np <;> simpa using this
  | @flush W cur T =>
    refine ⟨?_, by simp⟩
    by_cases hc : cur = []
    · simpa [hc] using hk
    · simpa [hc] using hk
  | @pop W F T mode i k a _ hmin h0 =>
    obtain ⟨rest, p1, p2⟩ := popped_pend hmin
    have hk' : KSt p (a :: rest) F := by simpa using hk.perm (by simpa using p1)
    obtain ⟨g1, g2⟩ := hk'.pop (fun b hb => by
      have : b ∈ W.flatten := p1.mem_iff.2 (by simp [hb])
      obtain ⟨st, h1, h2⟩ := List.mem_flatten.1 this
      obtain ⟨j, h3⟩ := List.getElem?_of_mem h1
      exact (hmin.2 j st b h3 h2).1)
    refine ⟨by simpa using g1.perm p2.symm, fun x hx hpx y hy hpy => g2 x hx hpx y ?_ hpy⟩
    simp only [ASt.pend, List.append_nil, List.flatten_append, List.mem_append] at hy
    exact hy.imp_left ((p2.map AF.ms).flatten.mem_iff.1)
  | @shift W F T mode i k a _ hmin h0 =>
    obtain ⟨rest, p1, p2⟩ := popped_pend hmin
    have e : (popped W i k a).tail.flatten = (popped W i k a).flatten := by
      cases hp : popped W i k a with
      | nil => rfl
      | cons x xs => rw [hp] at h0; simp at h0; subst h0; simp
    have hk' : KSt p (a :: rest) F := by simpa using hk.perm (by simpa using p1)
    obtain ⟨g1, g2⟩ := hk'.pop (fun b hb => by
      have : b ∈ W.flatten := p1.mem_iff.2 (by simp [hb])
      obtain ⟨st, h1, h2⟩ := List.mem_flatten.1 this
      obtain ⟨j, h3⟩ := List.getElem?_of_mem h1
      exact (hmin.2 j st b h3 h2).1)
    refine ⟨by simpa [e] using g1.perm p2.symm, fun x hx hpx y hy hpy => g2 x hx hpx y ?_ hpy⟩
    simp only [ASt.pend, List.append_nil, List.flatten_append, List.mem_append, e] at hy
    exact hy.imp_left ((p2.map AF.ms).flatten.mem_iff.1)
  | @clear W F T mode _ h =>
    refine ⟨⟨by simp, by simp, by simp, by simp, by simp, hk.aheadF, hk.rise⟩, by simp⟩

/-- The selected messages come out with increasing time stamps. -/
theorem ARun.keeps {p : OutMsg → Bool} {a : ASt} {o : List OutMsg} (h : ARun a o)
    (hk : KSt p (a.W.flatten ++ a.cur) a.F) : Rising (o.filter p) := by
  induction h with
  | fin => exact .nil
  | @step a b m o hs hr ih =>
    obtain ⟨h1, h2⟩ := hs.keeps hk
    have ih := ih h1
    cases m with
    | none => simpa using ih
    | some x =>
      by_cases hx : p x = true
      · simp only [Option.toList_some, List.cons_append, List.nil_append, List.filter_cons_of_pos hx]
        refine List.pairwise_cons.2 ⟨fun y hy => ?_, ih⟩
        obtain ⟨hy, hpy⟩ := List.mem_filter.1 hy
        refine h2 x rfl hx y ?_ hpy
        by_cases hb : b.mode = .fin
        · have ho : o = [] := by
            cases hr with
            | fin => rfl
            | step h' _ => cases h' <;> simp_all
          rw [ho] at hy; simp at hy
        · exact (hr.merge hb).perm.mem_iff.1 hy
      · simpa [List.filter_cons_of_neg hx] using ih

/-- Selected messages whose time stamps increase in the file are printed in the order of the file. -/
theorem ARun.order {p : OutMsg → Bool} {F : Exts} {T : Nat} {o : List OutMsg} (h : ARun ⟨[], [], F, T, .fill⟩ o)
    (hp : ∀ e ∈ F, Ahead p e.2) (hr : Rising ((F.map Prod.snd).flatten.filter p)) :
    o.filter p = (F.map Prod.snd).flatten.filter p := by
  have h1 := h.keeps (p := p) ⟨by simp, by simp, by simp, by simp, by simp, hp, hr⟩
  have h2 : o.Perm (F.map Prod.snd).flatten := by
    have := (h.merge (by simp)).perm
    simpa [ASt.pend] using this
  refine (h2.filter p).eq_of_pairwise ?_ h1 hr
  intro a b _ _ h3 h4
  omega

end NanoLog
