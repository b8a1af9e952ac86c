/-!
# The heap functions of the C++ library

`std::make_heap`, `std::pop_heap` and `std::push_heap` as in libstdc++ (bits/stl_heap.h: `__push_heap`,
`__adjust_heap`, `__pop_heap`, `__make_heap`), with the comparison `compareBufferFragments`, runtime/Log.cc:1799-1804:
`key` is `getNextLogTimestamp`, so that an element with the smallest key is in front.  Called in
runtime/Log.cc:1908-1910 and 1936-1948.
-/

namespace NanoLog

variable {α : Type}

/-- `__push_heap`: moves the hole up while the parent has a larger key, then fills it with `v`.  (For
runtime/Log.cc:1908-1910, 1937-1938, 1942-1943.)  The first argument bounds the number of steps; `hole` suffices. -/
def heapUp (key : α → Nat) (top : Nat) (v : α) : Nat → Nat → List α → List α
  | 0, hole, l => l.set hole v
  | f + 1, hole, l =>
    if top < hole then
      match l[(hole - 1) / 2]? with
      | some p => if key p > key v then heapUp key top v f ((hole - 1) / 2) (l.set hole p) else l.set hole v
      | none => l.set hole v
    else l.set hole v

/-- The loop of `__adjust_heap` (for runtime/Log.cc:1908-1910, 1937-1938): moves the hole down to the child with the smaller
key.  The first argument bounds the number of steps; `len` suffices. -/
def heapDown (key : α → Nat) (len : Nat) : Nat → Nat → List α → Nat × List α
  | 0, hole, l => (hole, l)
  | f + 1, hole, l =>
    if hole < (len - 1) / 2 then
      match l[2 * hole + 2]?, l[2 * hole + 1]? with
      | some x, some y =>
        if key x > key y then heapDown key len f (2 * hole + 1) (l.set hole y)
        else heapDown key len f (2 * hole + 2) (l.set hole x)
      | _, _ => (hole, l)
    else (hole, l)

/-- `__adjust_heap` (for runtime/Log.cc:1908-1910, 1937-1938) on the first `len` elements. -/
def adjustHeap (key : α → Nat) (top len : Nat) (v : α) (l : List α) : List α :=
  let (h, l) := heapDown key len len top l
  if len % 2 = 0 ∧ 2 ≤ len ∧ h = (len - 2) / 2 then
    match l[2 * h + 1]? with
    | some x => heapUp key top v (2 * h + 1) (2 * h + 1) (l.set h x)
    | none => heapUp key top v h h l
  else heapUp key top v h h l

/-- `std::pop_heap` (runtime/Log.cc:1937-1938): the first element becomes the last one. -/
def popHeap (key : α → Nat) (l : List α) : List α :=
  if 1 < l.length then
    match l[l.length - 1]?, l[0]? with
    | some v, some a => adjustHeap key 0 (l.length - 1) v (l.set (l.length - 1) a)
    | _, _ => l
  else l

/-- `std::push_heap` (runtime/Log.cc:1942-1943): the last element is put into its place. -/
def pushHeap (key : α → Nat) (l : List α) : List α :=
  match l[l.length - 1]? with
  | some v => heapUp key 0 v (l.length - 1) (l.length - 1) l
  | none => l

/-- The loop of `std::make_heap` (runtime/Log.cc:1908-1910), from `parent` down to 0. -/
def makeLoop (key : α → Nat) : Nat → List α → List α
  | 0, l => match l[0]? with | some v => adjustHeap key 0 l.length v l | none => l
  | p + 1, l =>
    match l[p + 1]? with
    | some v => makeLoop key p (adjustHeap key (p + 1) l.length v l)
    | none => l

/-- `std::make_heap` (runtime/Log.cc:1908-1910). -/
def makeHeap (key : α → Nat) (l : List α) : List α :=
  if l.length < 2 then l else makeLoop key ((l.length - 2) / 2) l

/-! ## What they do -/

section
variable {key : α → Nat}

/-- Key at a position. -/
def keyAt (key : α → Nat) (l : List α) (i : Nat) : Nat := (l[i]?).elim 0 key

theorem keyAt_some {l : List α} {i : Nat} {x : α} (h : l[i]? = some x) : keyAt key l i = key x := by
  simp [keyAt, h]

theorem keyAt_set {l : List α} {h : Nat} (hh : h < l.length) (x : α) (i : Nat) :
    keyAt key (l.set h x) i = if i = h then key x else keyAt key l i := by
  unfold keyAt
  by_cases hi : i = h
  · subst hi
    rw [if_pos rfl, List.getElem?_set_self hh]; rfl
  · rw [if_neg hi, List.getElem?_set_ne (by omega)]

/-- `h` is `top` or below it. -/
inductive Below (top : Nat) : Nat → Prop where
  | refl : Below top top
  | child {h : Nat} : Below top ((h - 1) / 2) → top < h → Below top h

theorem Below.parent {top h : Nat} (hb : Below top h) (ht : h ≠ top) : Below top ((h - 1) / 2) ∧ top < h := by
  cases hb with
  | refl => exact absurd rfl ht
  | child h1 h2 => exact ⟨h1, h2⟩

theorem Below.le {top h : Nat} (hb : Below top h) : top ≤ h := by
  cases hb with
  | refl => exact Nat.le_refl _
  | child _ h2 => omega

/-- Parents from `top` on have keys not larger than their children, among the first `n` elements. -/
def HeapFrom (key : α → Nat) (l : List α) (n top : Nat) : Prop :=
  ∀ i, 0 < i → i < n → top ≤ (i - 1) / 2 → keyAt key l ((i - 1) / 2) ≤ keyAt key l i

/-- The same, except for a hole. -/
structure Holed (key : α → Nat) (l : List α) (n top h : Nat) : Prop where
  lt : h < n
  le : n ≤ l.length
  below : Below top h
  rel : ∀ i, 0 < i → i < n → top ≤ (i - 1) / 2 → (i - 1) / 2 ≠ h → i ≠ h → keyAt key l ((i - 1) / 2) ≤ keyAt key l i
  grand : h ≠ top → ∀ c, 0 < c → c < n → (c - 1) / 2 = h → keyAt key l ((h - 1) / 2) ≤ keyAt key l c

theorem Holed.down {l : List α} {n top h s : Nat} (H : Holed key l n top h) (hs : s = 2 * h + 1 ∨ s = 2 * h + 2)
    (hn : s < n) {x : α} (hx : l[s]? = some x)
    (hmin : ∀ c, 0 < c → c < n → (c - 1) / 2 = h → key x ≤ keyAt key l c) : Holed key (l.set h x) n top s := by
  have hl : h < l.length := Nat.lt_of_lt_of_le H.lt H.le
  have hle := H.below.le
  have hxs := keyAt_some (key := key) hx
  refine ⟨hn, by simpa using H.le, ?_, ?_, ?_⟩
  · refine Below.child ?_ (by omega)
    rw [show (s - 1) / 2 = h by omega]
    exact H.below
  · intro i h1 h2 h3 h4 h5
    rw [keyAt_set hl, keyAt_set hl]
    by_cases e1 : i = h
    · subst e1
      rw [if_pos rfl, if_neg (by omega), ← hxs]
      by_cases e2 : i = top
      · omega
      · exact H.grand e2 s (by omega) hn (by omega)
    · rw [if_neg e1]
      by_cases e2 : (i - 1) / 2 = h
      · rw [if_pos e2]; exact hmin i h1 h2 e2
      · rw [if_neg e2]; exact H.rel i h1 h2 h3 e2 e1
  · intro _ c h1 h2 h3
    rw [keyAt_set hl, keyAt_set hl, if_pos (by omega), if_neg (by omega), ← hxs]
    have := H.rel c h1 h2 (by omega) (by omega) (by omega)
    rwa [h3] at this

/-- Where the loop of `__adjust_heap` stops: there is no second child. -/
theorem heapDown_spec {n top : Nat} (f h : Nat) (l : List α) (H : Holed key l n top h) (hf : n ≤ h + f) :
    ∃ h' l', heapDown key n f h l = (h', l') ∧ Holed key l' n top h' ∧ (n - 1) / 2 ≤ h' ∧ l'.length = l.length ∧
      (∀ i, n ≤ i → l'[i]? = l[i]?) ∧ ∀ v, (l'.set h' v).Perm (l.set h v) := by
  induction f generalizing h l with
  | zero => have := H.lt; omega
  | succ f ih =>
    rw [heapDown]
    by_cases hc : h < (n - 1) / 2
    · rw [if_pos hc]
      have hlen := H.le
      have h1 : 2 * h + 1 < l.length := by omega
      have h2 : 2 * h + 2 < l.length := by omega
      have hl : h < l.length := by omega
      rw [List.getElem?_eq_getElem h1, List.getElem?_eq_getElem h2]
      simp only
      have swap : ∀ (s : Nat) (hs : s < l.length), s ≠ h → ∀ v, ((l.set h l[s]).set s v).Perm (l.set h v) := by
        intro s hs hne v
        have := List.set_set_perm (as := l.set h v) (i := h) (j := s) (by simpa using hl) (by simpa using hs)
        rwa [List.getElem_set_ne (by omega), List.getElem_set_self, List.set_set] at this
      have kids : ∀ c, 0 < c → c < n → (c - 1) / 2 = h → c = 2 * h + 1 ∨ c = 2 * h + 2 := by intros; omega
      have k1 := keyAt_some (key := key) (List.getElem?_eq_getElem h1)
      have k2 := keyAt_some (key := key) (List.getElem?_eq_getElem h2)
      have go : ∀ (s : Nat) (hs : s < l.length), (s = 2 * h + 1 ∨ s = 2 * h + 2) →
          (∀ c, 0 < c → c < n → (c - 1) / 2 = h → key l[s] ≤ keyAt key l c) →
          ∃ h' l', heapDown key n f s (l.set h l[s]) = (h', l') ∧ Holed key l' n top h' ∧ (n - 1) / 2 ≤ h' ∧
            l'.length = l.length ∧ (∀ i, n ≤ i → l'[i]? = l[i]?) ∧ ∀ v, (l'.set h' v).Perm (l.set h v) := by
        intro s hs hsc hmin
        obtain ⟨h', l', e1, e2, e3, e4, e5, e6⟩ :=
          ih s (l.set h l[s]) (H.down hsc (by omega) (List.getElem?_eq_getElem hs) hmin) (by omega)
        refine ⟨h', l', e1, e2, e3, by simpa using e4, fun i hi => ?_, fun v => (e6 v).trans (swap s hs (by omega) v)⟩
        rw [e5 i hi, List.getElem?_set_ne (by omega)]
      split
      · refine go _ h1 (.inl rfl) fun c c1 c2 c3 => ?_
        rcases kids c c1 c2 c3 with rfl | rfl <;> omega
      · refine go _ h2 (.inr rfl) fun c c1 c2 c3 => ?_
        rcases kids c c1 c2 c3 with rfl | rfl <;> omega
    · rw [if_neg hc]
      exact ⟨h, l, rfl, H, by omega, rfl, fun _ _ => rfl, fun _ => .refl _⟩

theorem heapUp_spec {n top : Nat} {v : α} (f h : Nat) (l : List α) (H : Holed key l n top h) (hf : h ≤ f)
    (hv : ∀ c, 0 < c → c < n → (c - 1) / 2 = h → key v ≤ keyAt key l c) :
    HeapFrom key (heapUp key top v f h l) n top ∧ (heapUp key top v f h l).Perm (l.set h v) ∧
      ∀ i, n ≤ i → (heapUp key top v f h l)[i]? = l[i]? := by
  induction f generalizing h l with
  | zero =>
    have hl : h < l.length := Nat.lt_of_lt_of_le H.lt H.le
    have h0 : h = 0 := by omega
    refine ⟨fun i h1 h2 h3 => ?_, .refl _, fun i hi => ?_⟩
    · rw [heapUp, keyAt_set hl, keyAt_set hl, if_neg (show i ≠ h by omega)]
      by_cases e : (i - 1) / 2 = h
      · rw [if_pos e]; exact hv i h1 h2 e
      · rw [if_neg e]; exact H.rel i h1 h2 h3 e (by omega)
    · rw [heapUp, List.getElem?_set_ne (by have := H.lt; omega)]
  | succ f ih =>
    have hl : h < l.length := Nat.lt_of_lt_of_le H.lt H.le
    have hn := H.lt
    -- the hole is filled
    have fill : (h ≠ top → keyAt key l ((h - 1) / 2) ≤ key v) → HeapFrom key (l.set h v) n top ∧
        (l.set h v).Perm (l.set h v) ∧ ∀ i, n ≤ i → (l.set h v)[i]? = l[i]? := by
      intro hp
      refine ⟨fun i h1 h2 h3 => ?_, .refl _, fun i hi => List.getElem?_set_ne (by omega)⟩
      rw [keyAt_set hl, keyAt_set hl]
      by_cases e1 : i = h
      · subst e1
        rw [if_neg (by omega), if_pos rfl]
        exact hp (by omega)
      · rw [if_neg e1]
        by_cases e : (i - 1) / 2 = h
        · rw [if_pos e]; exact hv i h1 h2 e
        · rw [if_neg e]; exact H.rel i h1 h2 h3 e e1
    rw [heapUp]
    by_cases ht : top < h
    · rw [if_pos ht]
      have hp : (h - 1) / 2 < l.length := by omega
      rw [List.getElem?_eq_getElem hp]
      have kp := keyAt_some (key := key) (List.getElem?_eq_getElem hp)
      simp only
      split
      · rename_i hgt
        obtain ⟨hb1, -⟩ := H.below.parent (by omega)
        have hb2 := hb1.le
        have H' : Holed key (l.set h l[(h - 1) / 2]) n top ((h - 1) / 2) := by
          refine ⟨by omega, by simpa using H.le, hb1, fun i h1 h2 h3 h4 h5 => ?_, fun h1 c h2 h3 h4 => ?_⟩
          · rw [keyAt_set hl, keyAt_set hl, if_neg (show i ≠ h by rintro rfl; exact h4 rfl)]
            by_cases e : (i - 1) / 2 = h
            · rw [if_pos e, ← kp]; exact H.grand (by omega) i h1 h2 e
            · rw [if_neg e]; exact H.rel i h1 h2 h3 e (by rintro rfl; exact h4 rfl)
          · rw [keyAt_set hl, keyAt_set hl, if_neg (by omega)]
            have hb3 := (hb1.parent h1).1.le
            have g1 := H.rel ((h - 1) / 2) (by omega) (by omega) (by omega) (by omega) (by omega)
            by_cases e : c = h
            · rw [if_pos e, ← kp]; exact g1
            · rw [if_neg e]
              have g2 := H.rel c h2 h3 (by omega) (by omega) e
              rw [h4] at g2
              omega
        obtain ⟨e1, e2, e3⟩ := ih ((h - 1) / 2) (l.set h l[(h - 1) / 2]) H' (by omega) (fun c c1 c2 c3 => by
          rw [keyAt_set hl]
          by_cases e : c = h
          · rw [if_pos e]; omega
          · rw [if_neg e]
            have g2 := H.rel c c1 c2 (by omega) (by omega) e
            rw [c3, kp] at g2
            omega)
        refine ⟨e1, e2.trans ?_, fun i hi => ?_⟩
        · have := List.set_set_perm (as := l.set h v) (i := h) (j := (h - 1) / 2) (by simpa using hl) (by simpa using hp)
          rwa [List.getElem_set_ne (by omega), List.getElem_set_self, List.set_set] at this
        · rw [e3 i hi, List.getElem?_set_ne (by omega)]
      · exact fill fun _ => by omega
    · rw [if_neg ht]
      have := H.below.le
      exact fill fun h1 => absurd h1 (by omega)

theorem adjustHeap_spec {n top : Nat} {v : α} {l : List α} (hn : n ≤ l.length) (ht : top < n)
    (h : HeapFrom key l n (top + 1)) :
    HeapFrom key (adjustHeap key top n v l) n top ∧ (adjustHeap key top n v l).Perm (l.set top v) ∧
      ∀ i, n ≤ i → (adjustHeap key top n v l)[i]? = l[i]? := by
  have H : Holed key l n top top := ⟨ht, hn, .refl, fun i h1 h2 h3 h4 _ => h i h1 h2 (by omega), fun h => absurd rfl h⟩
  obtain ⟨h', l', e1, e2, e3, e4, e5, e6⟩ := heapDown_spec n top l H (by omega)
  have hlt := e2.lt
  unfold adjustHeap
  rw [e1]
  simp only
  split
  · rename_i hc
    have h1 : 2 * h' + 1 < l'.length := by omega
    have hl : h' < l'.length := by omega
    rw [List.getElem?_eq_getElem h1]
    simp only
    have H2 := e2.down (s := 2 * h' + 1) (.inl rfl) (by omega) (List.getElem?_eq_getElem h1) (fun c c1 c2 c3 => by
      rw [show c = 2 * h' + 1 by omega, keyAt_some (key := key) (List.getElem?_eq_getElem h1)]
      exact Nat.le_refl _)
    obtain ⟨g1, g2, g3⟩ := heapUp_spec (v := v) (2 * h' + 1) _ _ H2 (Nat.le_refl _) (fun c c1 c2 c3 => by omega)
    refine ⟨g1, (g2.trans ?_).trans (e6 v), fun i hi => ?_⟩
    · have := List.set_set_perm (as := l'.set h' v) (i := h') (j := 2 * h' + 1) (by simpa using hl) (by simpa using h1)
      rwa [List.getElem_set_ne (by omega), List.getElem_set_self, List.set_set] at this
    · rw [g3 i hi, List.getElem?_set_ne (by omega), e5 i hi]
  · rename_i hc
    obtain ⟨g1, g2, g3⟩ := heapUp_spec (v := v) h' _ _ e2 (Nat.le_refl _) (fun c c1 c2 c3 => by omega)
    exact ⟨g1, g2.trans (e6 v), fun i hi => by rw [g3 i hi, e5 i hi]⟩

/-- A heap. -/
def IsHeap (key : α → Nat) (l : List α) : Prop := HeapFrom key l l.length 0

/-- The first element of a heap has the smallest key. -/
theorem IsHeap.min {l : List α} (h : IsHeap key l) {a : α} (ha : l[0]? = some a) : ∀ x ∈ l, key a ≤ key x := by
  have all : ∀ i, i < l.length → keyAt key l 0 ≤ keyAt key l i := by
    intro i
    induction i using Nat.strongRecOn with
    | _ i ih =>
      intro hi
      by_cases h0 : i = 0
      · subst h0; exact Nat.le_refl _
      · exact Nat.le_trans (ih ((i - 1) / 2) (by omega) (by omega)) (h i (by omega) hi (by omega))
  intro x hx
  obtain ⟨i, hi, rfl⟩ := List.getElem_of_mem hx
  have := all i hi
  rwa [keyAt_some ha, keyAt_some (List.getElem?_eq_getElem hi)] at this

theorem makeLoop_spec (p : Nat) (l : List α) (hp : p < l.length) (h : HeapFrom key l l.length (p + 1)) :
    IsHeap key (makeLoop key p l) ∧ (makeLoop key p l).Perm l := by
  induction p generalizing l with
  | zero =>
    rw [makeLoop, List.getElem?_eq_getElem hp]
    simp only
    obtain ⟨e1, e2, -⟩ := adjustHeap_spec (v := l[0]) (Nat.le_refl _) hp h
    rw [List.set_getElem_self] at e2
    exact ⟨by unfold IsHeap; rw [e2.length_eq]; exact e1, e2⟩
  | succ p ih =>
    rw [makeLoop, List.getElem?_eq_getElem hp]
    simp only
    obtain ⟨e1, e2, -⟩ := adjustHeap_spec (v := l[p + 1]) (Nat.le_refl _) hp h
    rw [List.set_getElem_self] at e2
    obtain ⟨f1, f2⟩ := ih (adjustHeap key (p + 1) l.length l[p + 1] l) (by rw [e2.length_eq]; omega)
      (by rw [e2.length_eq]; exact e1)
    exact ⟨f1, f2.trans e2⟩

/-- `make_heap` arranges the elements as a heap. -/
theorem makeHeap_spec (l : List α) : IsHeap key (makeHeap key l) ∧ (makeHeap key l).Perm l := by
  unfold makeHeap
  split
  · exact ⟨fun i h1 h2 => by omega, .refl _⟩
  · exact makeLoop_spec _ l (by omega) (fun i h1 h2 h3 => by omega)

/-- `pop_heap` needs only that the elements other than the first one are in heap order: the first one, which is not
compared, becomes the last one and the others become a heap. -/
theorem popHeap_spec {a : α} {l : List α} (h : HeapFrom key (a :: l) (l.length + 1) 1) :
    ∃ l', popHeap key (a :: l) = l' ++ [a] ∧ IsHeap key l' ∧ l'.Perm l := by
  unfold popHeap
  split
  · rename_i hl
    have hl' : 0 < l.length := by simpa using hl
    obtain ⟨v, hlast⟩ : ∃ v, (a :: l)[l.length]? = some v := ⟨_, List.getElem?_eq_getElem (by simp)⟩
    simp only [List.length_cons, Nat.add_sub_cancel, hlast, List.getElem?_cons_zero]
    have hs : ∀ i < l.length, ((a :: l).set l.length a)[i]? = (a :: l)[i]? :=
      fun i hi => List.getElem?_set_ne (by omega)
    obtain ⟨e1, e2, e3⟩ := adjustHeap_spec (key := key) (n := l.length) (top := 0) (v := v) (l := (a :: l).set l.length a)
      (by simp) hl' (fun i h1 h2 h3 => by
        have := h i h1 (by omega) h3
        unfold keyAt at this ⊢
        rw [hs i h2, hs _ (by omega)]
        exact this)
    generalize hr : adjustHeap key 0 l.length v ((a :: l).set l.length a) = r at *
    have hlen : r.length = l.length + 1 := by rw [e2.length_eq]; simp
    have hra : r[l.length]? = some a := by
      rw [e3 _ (Nat.le_refl _), List.getElem?_set_self (by simp)]
    have hsplit : r = r.take l.length ++ [a] := by
      have hd : r.drop l.length = [a] := by
        rw [List.drop_eq_getElem_cons (by omega), List.drop_eq_nil_of_le (by omega)]
        have := List.getElem?_eq_getElem (l := r) (i := l.length) (by omega)
        rw [hra] at this
        simpa using this.symm
      rw [← hd, List.take_append_drop]
    refine ⟨r.take l.length, hsplit, fun i h1 h2 h3 => ?_, ?_⟩
    · rw [List.length_take, hlen, Nat.min_eq_left (by omega)] at h2
      have := e1 i h1 h2 h3
      unfold keyAt at this ⊢
      rw [List.getElem?_take_of_lt h2, List.getElem?_take_of_lt (by omega)]
      exact this
    · -- as multisets: `r` is `a :: l`
      have h5 : r.Perm (a :: l) := by
        refine e2.trans ?_
        have := List.set_set_perm (as := a :: l) (i := l.length) (j := 0) (by simp) (by simp)
        have h6 : (a :: l)[l.length]'(by simp) = v := by
          have := List.getElem?_eq_getElem (l := a :: l) (i := l.length) (by simp)
          rw [hlast] at this
          exact (Option.some.inj this).symm
        rw [h6] at this
        exact this
      rw [hsplit] at h5
      have h7 := List.perm_append_comm.trans h5
      exact (List.perm_cons a).1 h7
  · rename_i hl
    have : l = [] := by
      rw [List.length_cons] at hl
      exact List.length_eq_zero_iff.1 (by omega)
    subst this
    exact ⟨[], rfl, fun i h1 h2 => by simp at h2, .refl _⟩

/-- `push_heap` puts the last element into a heap of the others. -/
theorem pushHeap_spec {l : List α} {a : α} (h : IsHeap key l) :
    IsHeap key (pushHeap key (l ++ [a])) ∧ (pushHeap key (l ++ [a])).Perm (a :: l) := by
  unfold pushHeap
  have hlast : (l ++ [a])[(l ++ [a]).length - 1]? = some a := by simp
  rw [hlast]
  simp only [List.length_append, List.length_singleton, Nat.add_sub_cancel]
  have below : ∀ n, Below 0 n := by
    intro n
    induction n using Nat.strongRecOn with
    | _ n ih =>
      by_cases h0 : n = 0
      · subst h0; exact .refl
      · exact .child (ih _ (by omega)) (by omega)
  have H : Holed key (l ++ [a]) (l.length + 1) 0 l.length := by
    refine ⟨by omega, by simp, below _, fun i h1 h2 h3 h4 h5 => ?_, fun h1 c h2 h3 h4 => by omega⟩
    have := h i h1 (by omega) h3
    unfold keyAt at this ⊢
    rw [List.getElem?_append_left (by omega), List.getElem?_append_left (by omega)]
    exact this
  obtain ⟨e1, e2, -⟩ := heapUp_spec (v := a) l.length l.length (l ++ [a]) H (Nat.le_refl _) (fun c c1 c2 c3 => by omega)
  have h3 : (l ++ [a]).set l.length a = l ++ [a] := by
    rw [List.set_append_right _ _ (Nat.le_refl _)]; simp
  rw [h3] at e2
  refine ⟨?_, e2.trans List.perm_append_comm⟩
  unfold IsHeap
  rw [e2.length_eq]
  simpa using e1

end

end NanoLog
