import Verif.GenCode

/-!
# Specification of logging through generated code

What `printf` shows of an argument, and which arguments a call of the generated function may have.
-/

namespace NanoLog

/-- Element by element. -/
inductive All2 {α β : Type} (R : α → β → Prop) : List α → List β → Prop where
  | nil : All2 R [] []
  | cons {a b as bs} : R a b → All2 R as bs → All2 R (a :: as) (b :: bs)

/-- `printf` given the array `mem` and a precision shows `out`: it stops at the null character `z` or
at the precision. -/
def Shown {α : Type} (z : α) (prec : Option Nat) (mem out : List α) : Prop :=
  z ∉ out ∧ (∀ n, prec = some n → out.length ≤ n) ∧ (∃ rest, mem = out ++ rest) ∧
    (prec = some out.length ∨ ∃ rest, mem = out ++ z :: rest)

/-- The value read back is the value logged. -/
inductive SameScalar : Scalar → RVal → Prop where
  | int (t v) : SameScalar (.int t v) (.int v)
  | ptr (v) : SameScalar (.ptr v) (.ptr v)
  | f64 (b) : SameScalar (.f64 b) (.flt (.raw b))
  | f80 (b) : SameScalar (.f80 b) (.flt (.raw b))

/-- An argument of a parameter type (arguments are converted to it in the call). -/
inductive GArg.HasTy : GArg → ATy → Prop where
  | int (t v) : GArg.HasTy (.scalar (.int t v)) (.int t)
  | ptr (k v) : GArg.HasTy (.scalar (.ptr v)) (.ptr k)
  | f64 (b) : GArg.HasTy (.scalar (.f64 b)) .f64
  | f80 (b) : GArg.HasTy (.scalar (.f80 b)) .f80
  | str (m) : GArg.HasTy (.str m) .cstr
  | wstr (m) : GArg.HasTy (.wstr m) .wstr

/-- The arguments for a width or precision, and its value. -/
inductive StarG : PyNum → List GArg → Option Int → Prop where
  | none : StarG .none [] none
  | num (n : Nat) : StarG (.num n) [] (some n)
  | star (v : Int) : StarG .star [.scalar (.int .i32 v)] (some v)

/-- A negative precision counts as absent. -/
def effPrec : Option Int → Option Nat
  | none => none
  | some p => if p < 0 then none else some p.toNat

/-- The arguments of a call, each with the precision that applies to it.  A specifier without type
(plain text) is the only one of its format. -/
inductive CallArgs : List PyFmt → List (GArg × Option Nat) → Prop where
  | nil : CallArgs [] []
  | text (s : List Byte) : CallArgs [⟨none, .none, .none, s⟩] []
  | conv {f : PyFmt} {fs as t ty ws ps a wv pv} (hf : f.type = some t) (hty : cTy t = some ty)
      (hw : StarG f.width ws wv) (hp : StarG f.prec ps pv) (ha : a.HasTy ty) (ht : CallArgs fs as) :
      CallArgs (f :: fs) (ws.map (·, none) ++ ps.map (·, none) ++ (a, effPrec pv) :: as)

/-- A legal value; a string has a terminator, or more characters than the precision (and fits into the
address space). -/
def Readable : GArg × Option Nat → Prop
  | (.scalar s, _) => s.Valid
  | (.str m, p) => (0 ∈ m ∨ ∃ n, p = some n ∧ 0 < n ∧ n < m.length) ∧ m.length < 2 ^ 63
  | (.wstr m, p) =>
    (0 ∈ m ∨ ∃ n, p = some n ∧ 0 < n ∧ n < m.length) ∧ m.length < 2 ^ 63 ∧ ∀ w ∈ m, w < 2 ^ 32

/-- `printf` cannot tell the recovered argument from the argument of the log statement. -/
inductive Recovered : GArg × Option Nat → PArg → Prop where
  | scalar {s v} (p) (h : SameScalar s v) : Recovered (.scalar s, p) (.scalar v)
  | str {m p r} (h : ∀ out, Shown 0 p m out ↔ Shown 0 p (r ++ [0]) out) : Recovered (.str m, p) (.str r)
  | wstr {m p r} (h : ∀ out, Shown 0 p m out ↔ Shown 0 p (r ++ [0]) out) : Recovered (.wstr m, p) (.wstr r)

/-- The value of a dynamic width or precision. -/
def dynVal (p : PyNum) (v : Option Int) : Option Int := if p = .star then v else none

/-- What the decoder must extract for the fragments of a format. -/
inductive DecodedAs : List PyFmt → List (GArg × Option Nat) → List Decoded → Prop where
  | nil : DecodedAs [] [] []
  | text (s : List Byte) : DecodedAs [⟨none, .none, .none, s⟩] [] [⟨s, none, none, none⟩]
  | conv {f : PyFmt} {fs as ds t ws ps a wv pv x} (hf : f.type = some t) (hw : StarG f.width ws wv)
      (hp : StarG f.prec ps pv) (ha : Recovered (a, effPrec pv) x) (ht : DecodedAs fs as ds) :
      DecodedAs (f :: fs) (ws.map (·, none) ++ ps.map (·, none) ++ (a, effPrec pv) :: as)
        (⟨f.sub, dynVal f.width wv, dynVal f.prec pv, some x⟩ :: ds)

end NanoLog
