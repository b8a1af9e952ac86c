import Verif.RuntimeTrace
import Verif.Props.File

/-! Helper lemmas: decoding the files left by the runtime. -/

namespace NanoLog

theorem recBytes_append (a b : List Rec) : recBytes (a ++ b) = recBytes a ++ recBytes b := by
  simp [recBytes]

theorem recBytes_ckpt (jk : Nat) (c : Checkpoint) (rs : List Rec) :
    recBytes (.ckpt jk c :: rs) = checkpointBytes jk c ++ recBytes rs := by
  simp [recBytes, Rec.bytes]

theorem decodeFile_nil (cap : Nat) : decodeFile cap [] = some [] := by
  rw [decodeFile, Dec.openFile, readDictionary_cut _ _ (by simp)]

/-- A file cut anywhere decodes to the messages of the records in front of the cut. -/
theorem decodeFile_take {cap : Nat} {c : Checkpoint} {jk : Nat} {rs : List Rec} {ms : List OutMsg}
    (h : Holds cap c [] (.ckpt jk c :: rs) ms) (n : Nat)
    (hn : n ≤ (recBytes (.ckpt jk c :: rs)).length) :
    ∃ m1, decodeFile cap ((recBytes (.ckpt jk c :: rs)).take n) = some m1 ∧ m1 <+: ms ∧
      ∀ a b ma, Rec.ckpt jk c :: rs = a ++ b → (recBytes a).length ≤ n → Holds cap c [] a ma →
        ma <+: m1 := by
  have hplain : c.Plain := by cases h with | ckpt hc hj h => exact hc
  have h40 : (checkpointBytes jk c).length = 40 := checkpointBytes_length hplain.1
  by_cases hlt : n < 40
  · refine ⟨[], ?_, by simp, ?_⟩
    · rw [decodeFile, Dec.openFile, readDictionary_cut _ _ (by rw [List.length_take]; omega)]
    · intro a b ma hab hle hm
      cases a with
      | nil => cases hm; simp
      | cons r a =>
        have : r = .ckpt jk c := by simp at hab; exact hab.1.symm
        subst this
        rw [recBytes_ckpt, List.length_append] at hle
        omega
  · rw [recBytes_ckpt, List.length_append] at hn
    have htake : (recBytes (.ckpt jk c :: rs)).take n =
        checkpointBytes jk c ++ (recBytes rs).take (n - 40) := by
      rw [recBytes_ckpt, List.take_append, List.take_of_length_le (by omega), h40]
    obtain ⟨ho, hh⟩ := open_ok h (Dec.new cap) ((recBytes rs).take (n - 40))
    obtain ⟨a, b, m1, m2, g1, g2, g3, g4, ⟨s', u1, u2⟩, -⟩ := decode_cut hh (n - 40) (by omega)
      { Dec.new cap with
          file := ⟨(recBytes rs).take (n - 40), false⟩
          good := true, ck := c, dict := Dict.empty, out := [], bf := BufFrag.init cap }
      ⟨rfl, rfl, rfl⟩ rfl rfl describes_empty (by simp [BufFrag.init])
    refine ⟨m1, ?_, by rw [g2]; exact List.prefix_append _ _, ?_⟩
    · have hul := u1.loop
      simp only at hul
      rw [decodeFile, htake, ho]
      simp only [Dec.unordered]
      rw [hul]
      simpa using u2
    · intro a' b' ma hab hle hm
      cases a' with
      | nil => cases hm; simp
      | cons r a' =>
        simp only [List.cons_append, List.cons.injEq] at hab
        obtain ⟨rfl, hab⟩ := hab
        rw [recBytes_ckpt, List.length_append] at hle
        have hp := g4 a' b' hab (by omega)
        have hm' : Holds cap c [] a' ma := by cases hm with | ckpt _ _ h => exact h
        obtain ⟨z, rfl⟩ := hp
        obtain ⟨w1, w2, rfl, w3, -⟩ := g3.split
        rw [Holds.unique (by intro s hs; simp at hs) hm' w3]
        exact List.prefix_append _ _

theorem decodeFile_complete {cap : Nat} {c : Checkpoint} {jk : Nat} {rs : List Rec}
    {ms : List OutMsg} (h : Holds cap c [] (.ckpt jk c :: rs) ms) :
    decodeFile cap (recBytes (.ckpt jk c :: rs)) = some ms := by
  obtain ⟨m1, h1, h2, h3⟩ := decodeFile_take h _ (Nat.le_refl _)
  rw [List.take_length] at h1
  have := h3 _ [] ms (by simp) (Nat.le_refl _) h
  rw [h1, h2.eq_of_length_le this.length_le]

/-- Call and thread a message stems from. -/
def From (sites : List Site) (bid : Nat → Option Nat) (p : Nat × LogCall) (m : OutMsg) : Prop :=
  ∃ c, Attr sites bid c p m

theorem Forall₂.prefix_right {α β : Type} {R : α → β → Prop} {l : List α} {r r' : List β}
    (h : List.Forall₂ R l r) (hp : r' <+: r) : List.Forall₂ R (l.take r'.length) r' := by
  obtain ⟨z, rfl⟩ := hp
  induction r' generalizing l with
  | nil => simp
  | cons b r' ih =>
    cases h with
    | cons hab h => exact .cons hab (ih h)

/-- What the current file decodes to. -/
theorem cur_decode {cfg : Config} {s : Rt} (h : CurFile cfg s) :
    ∃ out j, decodeFile (cfg.staging + 9) s.disk = some out ∧
      List.Forall₂ (From s.sites s.bids) (s.gD ++ s.gO.take j) out := by
  obtain ⟨c, jk, rsD, rsO, rsB, rs', k1, k2, e1, e2, -, ⟨e4, -⟩, -, e6⟩ := h
  obtain ⟨msD, d1, d2, d3⟩ := e1
  obtain ⟨msO, o1, o2, o3⟩ := e2
  have hdisk : ∃ n, (recBytes rsD).length ≤ n ∧ n ≤ (recBytes (rsD ++ rsO)).length ∧
      s.disk = (recBytes (rsD ++ rsO)).take n := by
    cases ha : s.aio with
    | none =>
      rw [ha] at e6
      obtain ⟨rfl, hd⟩ := e6
      exact ⟨(recBytes rsD).length, Nat.le_refl _, by simp, by simp [hd]⟩
    | some a =>
      rw [ha] at e6
      obtain ⟨hb, hd⟩ := e6
      refine ⟨(recBytes rsD).length + min a.done (recBytes rsO).length, by omega, ?_, ?_⟩
      · rw [recBytes_append, List.length_append]; omega
      · rw [hd, recBytes_append, List.take_append,
          List.take_of_length_le (l := recBytes rsD) (by omega), hb, Nat.add_sub_cancel_left]
        congr 1
        rcases Nat.le_total a.done (s.mem s.dbl).length with hl | hl
        · rw [Nat.min_eq_left hl]
        · rw [Nat.min_eq_right hl, List.take_of_length_le hl, List.take_length]
  obtain ⟨n, n1, n2, n3⟩ := hdisk
  have hh : Holds (cfg.staging + 9) c [] (rsD ++ rsO) (msD ++ msO) :=
    d1.append (by rw [d2]; exact o1)
  cases hr : rsD ++ rsO with
  | nil =>
    rw [hr] at n3
    have hd : rsD = [] := (List.append_eq_nil_iff.1 hr).1
    subst hd
    cases d1
    have hg : s.gD = [] := List.forall₂_nil_right_iff.1 d3
    exact ⟨[], 0, by rw [n3]; simpa [recBytes] using decodeFile_nil _, by simp [hg]⟩
  | cons r rs1 =>
    rw [hr] at e4 hh n2 n3
    have : r = .ckpt jk c := by
      simp only [List.cons_append, List.cons.injEq] at e4; exact e4.1
    subst this
    obtain ⟨m1, g1, g2, g3⟩ := decodeFile_take hh n n2
    have hD := g3 rsD rsO msD (by rw [hr]) n1 d1
    refine ⟨m1, m1.length - msD.length, by rw [n3]; exact g1, ?_⟩
    obtain ⟨z, rfl⟩ := hD
    have hz : z <+: msO := (List.prefix_append_right_inj msD).1 g2
    rw [List.length_append, Nat.add_sub_cancel_left]
    exact Forall₂.app (d3.imp fun _ _ h => ⟨c, h⟩)
      (Forall₂.prefix_right (o3.imp fun _ _ h => ⟨c, h⟩) hz)

theorem closed_decode {cfg : Config} {sites : List Site} {bid : Nat → Option Nat} {f : List Byte}
    {g : List (Nat × LogCall)} (h : ClosedFile cfg sites bid f g) :
    ∃ out, decodeFile (cfg.staging + 9) f = some out ∧ List.Forall₂ (From sites bid) g out := by
  obtain ⟨c, jk, rs, k, ⟨ms, h1, h2, h3⟩, -, -, rfl⟩ := h
  exact ⟨ms, decodeFile_complete h1, h3.imp fun _ _ h => ⟨c, h⟩⟩

/-- What all files decode to. -/
theorem files_decode {cfg : Config} {prog : List Site} {s : Rt} (h : FInv cfg prog s) :
    ∃ (outs : List (List OutMsg)) (j : Nat), s.files.map (decodeFile (cfg.staging + 9)) = outs.map some ∧
      List.Forall₂ (From s.sites s.bids)
        (s.closed.flatMap (·.2) ++ s.gD ++ s.gO.take j) outs.flatten := by
  obtain ⟨out, j, h1, h2⟩ := cur_decode h.cur
  have hc : ∀ l : List (List Byte × List (Nat × LogCall)),
      (∀ p ∈ l, ClosedFile cfg s.sites s.bids p.1 p.2) →
      ∃ outs : List (List OutMsg), l.map (fun p => decodeFile (cfg.staging + 9) p.1) = outs.map some ∧
        List.Forall₂ (From s.sites s.bids) (l.flatMap (·.2)) outs.flatten := by
    intro l hl
    induction l with
    | nil => exact ⟨[], rfl, .nil⟩
    | cons p l ih =>
      obtain ⟨os, i1, i2⟩ := ih fun p hp => hl p (by simp [hp])
      obtain ⟨o, j1, j2⟩ := closed_decode (hl p (by simp))
      exact ⟨o :: os, by simp [j1, i1], by simpa using Forall₂.app j2 i2⟩
  obtain ⟨os, i1, i2⟩ := hc s.closed h.closed
  refine ⟨os ++ [out], j, ?_, ?_⟩
  · rw [Rt.files, List.map_append, List.map_map, List.map_append]
    congr 1
    simp [h1]
  · rw [List.flatten_append, List.append_assoc]
    exact Forall₂.app i2 (by simpa using h2)

/-- Filtering both sides of a relation. -/
theorem Forall₂.filter {α β : Type} {R : α → β → Prop} {l : List α} {r : List β}
    (h : List.Forall₂ R l r) (p : α → Bool) (q : β → Bool) (hpq : ∀ a b, R a b → p a = q b) :
    List.Forall₂ R (l.filter p) (r.filter q) := by
  induction h with
  | nil => exact .nil
  | @cons a b l r hab _ ih =>
    rw [List.filter_cons, List.filter_cons, hpq a b hab]
    split
    · exact .cons hab ih
    · exact ih

theorem Forall₂.comp {α β γ : Type} {R : α → β → Prop} {S : α → γ → Prop} {T : γ → β → Prop}
    {l : List α} {r : List β} {z : List γ} (h : List.Forall₂ R l r) (h' : List.Forall₂ S l z)
    (hc : ∀ a b c, R a b → S a c → T c b) : List.Forall₂ T z r := by
  induction h generalizing z with
  | nil => cases h'; exact .nil
  | cons hab _ ih =>
    cases h' with
    | cons hac h' => exact .cons (hc _ _ _ hab hac) (ih h')

theorem From.tid {sites : List Site} {bid : Nat → Option Nat} {p : Nat × LogCall} {m : OutMsg}
    (h : From sites bid p m) : bid p.1 = some m.tid := by
  obtain ⟨c, b, h1, h2⟩ := h
  cases h2 with
  | mk ok sup pr => exact h1

/-- The messages of thread `t` among those decoded, by call. -/
theorem from_thread {sites : List Site} {bid : Nat → Option Nat} {g : List (Nat × LogCall)}
    {out : List OutMsg} (h : List.Forall₂ (From sites bid) g out)
    (hinj : ∀ t u b, bid t = some b → bid u = some b → t = u) {t b : Nat} (hb : bid t = some b) :
    List.Forall₂ (fun c m => ∃ ck, Prints sites b ck c m) (byThr t g)
      (out.filter fun m => m.tid == b) := by
  have h1 := Forall₂.filter h (fun p => p.1 == t) (fun m => m.tid == b) (by
    intro p m hm
    have := hm.tid
    by_cases he : m.tid = b
    · rw [he] at this
      have := hinj _ _ _ this hb
      simp [this, he]
    · have hne : p.1 ≠ t := by
        intro hp; rw [hp, hb] at this
        exact he (Option.some.inj this).symm
      simp [hne, he])
  have key : ∀ (l : List (Nat × LogCall)) (r : List OutMsg), List.Forall₂ (From sites bid) l r →
      (∀ p ∈ l, p.1 = t) →
      List.Forall₂ (fun c m => ∃ ck, Prints sites b ck c m) (l.map Prod.snd) r := by
    intro l r hl hp
    induction hl with
    | nil => exact .nil
    | @cons p m l r hpm _ ih =>
      refine .cons ?_ (ih fun p h => hp p (by simp [h]))
      obtain ⟨c, b', h1, h2⟩ := hpm
      rw [hp p (by simp), hb] at h1
      cases h1
      exact ⟨c, h2⟩
  have h2 := key _ _ h1 (by simp)
  have he : byThr t g = (g.filter fun p => p.1 == t).map Prod.snd := by
    clear h h1 h2
    induction g with
    | nil => rfl
    | cons p g ih =>
      rw [List.filter_cons, byThr, List.filterMap_cons]
      by_cases hp : p.1 = t
      · simp only [hp, if_true, beq_self_eq_true, List.map_cons]
        rw [← ih]; rfl
      · simp only [hp, if_false, beq_iff_eq]
        exact ih
  rw [he]; exact h2

end NanoLog
