import Verif.FmtLemmas

/-!
# The decoder's fragments and the text of the format string
-/

namespace NanoLog

/-- Every way a matcher can match leaves a suffix. -/
def Suffixing (m : Matcher) : Prop := ∀ s p, p ∈ m s → p.2 <:+ s

theorem suffixing_many1 (p : Byte → Bool) : Suffixing (many1 p) := by
  intro s
  induction s with
  | nil => intro q h; simp [many1] at h
  | cons b bs ih =>
    intro q h
    simp only [many1] at h
    split at h
    · rcases List.mem_append.1 h with h | h
      · obtain ⟨q', h1, rfl⟩ := List.mem_map.1 h
        exact (ih q' h1).trans (List.suffix_cons b bs)
      · simp at h; subst h; exact List.suffix_cons b bs
    · simp at h

theorem suffixing_one (p : Byte → Bool) : Suffixing (one p) := by
  intro s q h
  cases s with
  | nil => simp [one] at h
  | cons b bs =>
    simp only [one] at h
    split at h
    · simp at h; subst h; exact List.suffix_cons b bs
    · simp at h

theorem suffixing_altM {a b : Matcher} (ha : Suffixing a) (hb : Suffixing b) :
    Suffixing (altM a b) := by
  intro s q h
  rcases List.mem_append.1 h with h | h
  · exact ha s q h
  · exact hb s q h

theorem suffixing_optM {a : Matcher} (ha : Suffixing a) : Suffixing (optM a) := by
  intro s q h
  rcases List.mem_append.1 h with h | h
  · exact ha s q h
  · simp at h; subst h; exact List.suffix_refl s

theorem suffixing_lit (l : List Byte) : Suffixing (lit l) := by
  intro s q h
  simp only [lit] at h
  split at h
  · simp at h; subst h; exact List.drop_suffix _ _
  · simp at h

theorem suffixing_precM : Suffixing precM := by
  intro s q h
  cases s with
  | nil => simp [precM] at h
  | cons b bs =>
    simp only [precM] at h
    split at h
    · exact (suffixing_altM (suffixing_many1 _) (suffixing_one _) bs q h).trans
        (List.suffix_cons b bs)
    · simp at h

theorem suffixing_lenAlts : Suffixing lenAlts := by
  unfold lenAlts
  repeat' first
    | exact suffixing_lit _
    | apply suffixing_altM

theorem regexMatch_suffix {s : List Byte} {m : RMatch} (h : regexMatch s = some m) :
    m.rest <:+ s := by
  have h := List.mem_of_head? h
  cases s with
  | nil => simp [regexAll] at h
  | cons b s0 =>
    simp only [regexAll] at h
    split at h
    · simp only [List.mem_flatMap] at h
      obtain ⟨m1, h1, m2, h2, m4, h4, m5, h5, m6, h6, hm⟩ := h
      have e1 := suffixing_optM (suffixing_many1 _) _ _ h1
      have e2 := suffixing_optM (suffixing_altM (suffixing_many1 _) (suffixing_one _)) _ _ h2
      have e4 := suffixing_optM suffixing_precM _ _ h4
      have e5 := suffixing_optM suffixing_lenAlts _ _ h5
      have e6 := suffixing_one _ _ _ h6
      have : m.rest = m6.2 := by
        split at hm
        · simp at hm; subst hm; rfl
        · simp at hm
      rw [this]
      exact ((((e6.trans e5).trans e4).trans e2).trans e1).trans (List.suffix_cons b s0)
    · simp at h

/-- Text of a list of fragments. -/
def fragText (fs : List Frag) : List Byte := fs.flatMap (·.text)

theorem fragText_append (a b : List Frag) : fragText (a ++ b) = fragText a ++ fragText b := by
  simp [fragText]

theorem take_suffix {m s : List Byte} (h : m <:+ s) : s.take (s.length - m.length) ++ m = s := by
  obtain ⟨t, rfl⟩ := h
  have : (t ++ m).length - m.length = t.length := by simp
  rw [this, List.take_left]

/-- The loop moves text from the input to the fragments and never drops any. -/
theorem microLoop_text (fuel : Nat) (s : List Byte) (pct : Nat) (st st' : MState)
    (h : microLoop fuel s pct st = some st') :
    fragText st'.frags ++ st'.text = fragText st.frags ++ st.text ++ s := by
  fun_induction microLoop fuel s pct st with
  | case1 s x st => simp at h; subst h; simp
  | case2 => simp at h; subst h; simp
  | case3 => simp at h; subst h; simp
  | case4 fuel pct st d s2 ih => rw [ih h]; simp
  | case5 fuel c s pct st hc hne ih => rw [ih h]; simp
  | case6 fuel c s pct st hc hne hm ih => rw [ih h]; simp
  | case7 => simp at h
  | case8 fuel c s pct st hc hne m hm ty hty dynW dynP matched ih =>
    rw [ih h]
    have hm' : regexMatch (c :: s) = some m := by
      split at hm
      · simp at hm
      · exact hm
    have := take_suffix (regexMatch_suffix hm')
    simp only [fragText_append, List.append_assoc, List.append_cancel_left_eq]
    simp only [fragText, List.flatMap_cons, List.flatMap_nil, List.append_nil, List.nil_append]
    rw [List.append_assoc]
    exact congrArg _ this

theorem fragText_extendLast (fs : List Frag) (t : List Byte) (h : fs ≠ []) :
    fragText (extendLast fs t) = fragText fs ++ t := by
  induction fs with
  | nil => exact absurd rfl h
  | cons f fs ih =>
    cases fs with
    | nil => simp [extendLast, fragText]
    | cons g gs =>
      have := ih (by simp)
      simp only [extendLast, fragText, List.flatMap_cons] at this ⊢
      rw [this]; simp

theorem extendLast_length (fs : List Frag) (t : List Byte) :
    (extendLast fs t).length = fs.length := by
  induction fs with
  | nil => rfl
  | cons f fs ih =>
    cases fs with
    | nil => rfl
    | cons g gs => simpa [extendLast] using ih

end NanoLog
