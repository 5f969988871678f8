import Mathlib.Analysis.SpecialFunctions.Log.Basic
import Mathlib.Analysis.SpecialFunctions.Pow.Real
import Mathlib.Analysis.SpecialFunctions.Exp
import Mathlib.Analysis.Real.Sqrt

/-!
# numpy float64 values with exact finite arithmetic

`F` is the value domain of the model.  It has IEEE's special values with numpy's rules, and exact real arithmetic
for finite values.  Simplifications: no rounding, no overflow or underflow of finite results, one zero
(a division `r / 0` takes the zero to be positive).
-/

namespace Poco

/-- A numpy `float64` value: NaN, the infinities, or a finite number (exact). -/
inductive F where
  | nan
  | ninf
  | pinf
  | fin (r : ℝ)

/-- Where in a run the user's interrupt (Ctrl-C) arrives: while an iteration is being stored (particles.py:144-148, at least one key appended and at least one still
to come), after the prior samples are drawn and before the scaler is fitted to them (sampler.py:439-440), or anywhere else. -/
inductive Moment where
  | storing
  | scaling
  | elsewhere
deriving DecidableEq, Repr

/-- Python exceptions the modelled code can raise, and `diverged` for a loop that used up its fuel. -/
inductive PyErr where
  | valueError
  | indexError
  | typeError
  | keyError
  | zeroDivision
  | attributeError
  | overflowError
  | linAlgError
  | keyboardInterrupt (m : Moment)
  | diverged
deriving DecidableEq, Repr

namespace F

/-- IEEE addition. -/
def add : F → F → F
  | nan, _ => nan
  | _, nan => nan
  | pinf, ninf => nan
  | ninf, pinf => nan
  | pinf, _ => pinf
  | _, pinf => pinf
  | ninf, _ => ninf
  | _, ninf => ninf
  | fin a, fin b => fin (a + b)

/-- IEEE negation. -/
def neg : F → F
  | nan => nan
  | ninf => pinf
  | pinf => ninf
  | fin a => fin (-a)

open Classical in
/-- `inf * r` for `r` finite: NaN at zero, else signed infinity. -/
noncomputable def infMul (r : ℝ) : F :=
  if r = 0 then nan else if 0 < r then pinf else ninf

/-- IEEE multiplication. -/
noncomputable def mul : F → F → F
  | nan, _ => nan
  | _, nan => nan
  | pinf, pinf => pinf
  | pinf, ninf => ninf
  | ninf, pinf => ninf
  | ninf, ninf => pinf
  | pinf, fin r => infMul r
  | fin r, pinf => infMul r
  | ninf, fin r => infMul (-r)
  | fin r, ninf => infMul (-r)
  | fin a, fin b => fin (a * b)

open Classical in
/-- IEEE division (division by zero as for a positive zero). -/
noncomputable def div : F → F → F
  | nan, _ => nan
  | _, nan => nan
  | pinf, pinf => nan
  | pinf, ninf => nan
  | ninf, pinf => nan
  | ninf, ninf => nan
  | pinf, fin r => if r < 0 then ninf else pinf
  | ninf, fin r => if r < 0 then pinf else ninf
  | fin _, pinf => fin 0
  | fin _, ninf => fin 0
  | fin a, fin b =>
      if b = 0 then (if a = 0 then nan else if 0 < a then pinf else ninf) else fin (a / b)

instance : Add F := ⟨add⟩
instance : Neg F := ⟨neg⟩
instance : Sub F := ⟨fun a b => add a (neg b)⟩
noncomputable instance : Mul F := ⟨mul⟩
noncomputable instance : Div F := ⟨div⟩
instance : Zero F := ⟨fin 0⟩
instance : One F := ⟨fin 1⟩

/-- `<` on floats: false whenever a NaN is involved. -/
def lt : F → F → Prop
  | fin a, fin b => a < b
  | ninf, fin _ => True
  | ninf, pinf => True
  | fin _, pinf => True
  | _, _ => False

/-- `<=` on floats: false whenever a NaN is involved. -/
def le : F → F → Prop
  | fin a, fin b => a ≤ b
  | ninf, ninf => True
  | ninf, fin _ => True
  | ninf, pinf => True
  | fin _, pinf => True
  | pinf, pinf => True
  | _, _ => False

instance : LT F := ⟨lt⟩
instance : LE F := ⟨le⟩
noncomputable instance (a b : F) : Decidable (a < b) := Classical.propDecidable _
noncomputable instance (a b : F) : Decidable (a ≤ b) := Classical.propDecidable _

/-- `==` on floats: false whenever a NaN is involved. -/
def feq : F → F → Prop
  | fin a, fin b => a = b
  | ninf, ninf => True
  | pinf, pinf => True
  | _, _ => False
noncomputable instance (a b : F) : Decidable (feq a b) := Classical.propDecidable _

/-- `np.isnan` -/
def isnan : F → Bool
  | nan => true
  | _ => false
/-- `np.isinf` -/
def isinf : F → Bool
  | ninf => true
  | pinf => true
  | _ => false
/-- `np.isfinite` -/
def isfinite : F → Bool
  | fin _ => true
  | _ => false

/-- `np.minimum`: propagates NaN. -/
noncomputable def minimum (a b : F) : F :=
  if a.isnan then nan else if b.isnan then nan else if a ≤ b then a else b
/-- `np.maximum`: propagates NaN. -/
noncomputable def maximum (a b : F) : F :=
  if a.isnan then nan else if b.isnan then nan else if a ≤ b then b else a
/-- `np.abs` -/
noncomputable def abs : F → F
  | nan => nan
  | ninf => pinf
  | pinf => pinf
  | fin a => fin |a|
/-- `np.exp` -/
noncomputable def exp : F → F
  | nan => nan
  | ninf => fin 0
  | pinf => pinf
  | fin a => fin (Real.exp a)
open Classical in
/-- `np.log`: `-inf` at zero, NaN below. -/
noncomputable def log : F → F
  | nan => nan
  | ninf => nan
  | pinf => pinf
  | fin a => if a < 0 then nan else if a = 0 then ninf else fin (Real.log a)
open Classical in
/-- `np.sqrt`, `x ** 0.5` -/
noncomputable def sqrt : F → F
  | nan => nan
  | ninf => nan
  | pinf => pinf
  | fin a => if a < 0 then nan else fin (Real.sqrt a)
/-- `x ** 2.0` -/
noncomputable def sq (a : F) : F := a * a
/-- `x ** k` for a non-negative integer `k` -/
noncomputable def npow (a : F) : ℕ → F
  | 0 => fin 1
  | k + 1 => npow a k * a

/-- `np.logaddexp`, following `npy_logaddexp`. -/
noncomputable def logaddexp (x y : F) : F :=
  if feq x y then x + fin (Real.log 2)
  else
    let tmp := x - y
    if tmp > 0 then x + log (fin 1 + exp (-tmp))
    else if tmp ≤ 0 then y + log (fin 1 + exp tmp)
    else tmp

/-- `np.sum` of a one-dimensional array (exact addition is associative, so the order does not matter). -/
def sum (l : List F) : F := l.foldr (· + ·) 0
/-- `len` of an array as a float. -/
def ofNat (n : ℕ) : F := fin n
/-- `np.mean` -/
noncomputable def mean (l : List F) : F := sum l / ofNat l.length
/-- `np.logaddexp.reduce`; `-inf` on an empty array. -/
noncomputable def lse (l : List F) : F := l.foldl logaddexp ninf
/-- `np.max`: raises ValueError on an empty array, propagates NaN. -/
noncomputable def max : List F → Except PyErr F
  | [] => .error .valueError
  | a :: l => .ok (l.foldl maximum a)

end F

end Poco
