import Verif.Model.Particles
import Mathlib.Analysis.SpecialFunctions.Gaussian.GaussianIntegral
import Mathlib.MeasureTheory.Integral.IntervalIntegral.Basic

/-!
# Model of `pocomc/scaler.py` and `pocomc/input_validation.py`

Arrays `(n, n_dim)` are lists of rows `Pt d`; the transformation is written per coordinate, as the masks make it.
-/

namespace Poco
open F

/-- The error function `2/√π ∫₀ˣ exp(-t²) dt` (scipy.special.erf on finite arguments). -/
noncomputable def erfR (x : ℝ) : ℝ := 2 / Real.sqrt Real.pi * ∫ t in (0 : ℝ)..x, Real.exp (-t ^ 2)

/-- Inverse of `erfR` on its range (scipy.special.erfinv on (-1,1)). -/
noncomputable def erfinvR (y : ℝ) : ℝ := Function.invFun erfR y

/-- `scipy.special.erf` -/
noncomputable def erf : F → F
  | nan => nan
  | ninf => fin (-1)
  | pinf => fin 1
  | fin x => fin (erfR x)

open Classical in
/-- `scipy.special.erfinv`: infinite at ±1, NaN outside [-1,1]. -/
noncomputable def erfinv : F → F
  | nan => nan
  | ninf => nan
  | pinf => nan
  | fin y => if y = 1 then pinf else if y = -1 then ninf else if -1 < y ∧ y < 1 then fin (erfinvR y) else nan

/-- The two transformations for doubly bounded parameters. -/
inductive Transform where
  | logit
  | probit
deriving DecidableEq

/-- The four masks of one parameter, scaler.py:464-467. -/
structure Masks where
  none : Bool
  left : Bool
  right : Bool
  both : Bool
deriving DecidableEq

/-- scaler.py:459-490 `_create_masks`, for one parameter. -/
def createMasks (low high : F) : Masks :=
  if (!low.isfinite) && (!high.isfinite) then ⟨true, false, false, false⟩
  else if (!low.isfinite) && high.isfinite then ⟨false, false, true, false⟩
  else if low.isfinite && (!high.isfinite) then ⟨false, true, false, false⟩
  else ⟨false, false, false, true⟩

/-- What `fit` learns: `mu`, `sigma` (diagonal), or `mu`, `L`, `L_inv`, `log_det_L` (full). -/
inductive Affine (d : ℕ) where
  | diag (mu sigma : Fin d → F)
  | full (mu : Fin d → F) (L Linv : Fin d → Fin d → F) (logDetL : F)

/-- The `Reparameterize` object. `affine = none` before `fit`.  Simplification: `periodic` and `reflective` hold valid
non-negative indices. -/
structure Scaler (d : ℕ) where
  low : Fin d → F
  high : Fin d → F
  periodic : Option (List (Fin d))
  reflective : Option (List (Fin d))
  transform : Transform
  scale : Bool
  affine : Option (Affine d)

/-- scaler.py:56-57: the bounds used when `bounds=None` — every entry `+inf`. -/
def noBounds (d : ℕ) : (Fin d → F) × (Fin d → F) := (fun _ => pinf, fun _ => pinf)

/-- scaler.py:45-82 the constructor, with the default `scale`; `bounds = none` for `None`. -/
def Scaler.init (d : ℕ) (bounds : Option ((Fin d → F) × (Fin d → F))) (periodic reflective : Option (List (Fin d)))
    (transform : Transform) : Scaler d :=
  let b := bounds.getD (noBounds d)
  { low := b.1, high := b.2, periodic, reflective, transform, scale := true, affine := Option.none }

variable {d : ℕ}

/-! ### per-coordinate transformations -/

/-- scaler.py:327 `_forward_left`. -/
noncomputable def fwdLeft (low x : F) : F := log (x - low)
/-- scaler.py:360 `_forward_right`. -/
noncomputable def fwdRight (high x : F) : F := log (high - x)
/-- scaler.py:392-400 `_forward_both` (the result of `np.clip` on line 393 is discarded by the code). -/
noncomputable def fwdBoth (t : Transform) (low high x : F) : F :=
  let p := (x - low) / (high - low)
  match t with
  | .logit => log (p / (fin 1 - p))
  | .probit => fin (Real.sqrt 2) * erfinv (fin 2 * p - fin 1)

/-- scaler.py:241-247 `_forward` for one coordinate: the four masked assignments in order; an entry under no mask
keeps `np.empty` content, written NaN here. -/
noncomputable def fwdCoord (t : Transform) (low high x : F) : F :=
  let m := createMasks low high
  let u := nan
  let u := if m.none then x else u
  let u := if m.left then fwdLeft low x else u
  let u := if m.right then fwdRight high x else u
  if m.both then fwdBoth t low high x else u

/-- scaler.py:346 `_inverse_left`. -/
noncomputable def invLeft (low u : F) : F × F := (exp u + low, u)
/-- scaler.py:378 `_inverse_right`. -/
noncomputable def invRight (high u : F) : F × F := (high - exp u, u)
/-- scaler.py:417-425 `_inverse_both`. -/
noncomputable def invBoth (t : Transform) (low high u : F) : F × F :=
  match t with
  | .logit =>
    let p := exp (-(logaddexp (fin 0) (-u)))
    (p * (high - low) + low, log (high - low) + log p + log (fin 1 - p))
  | .probit =>
    let p := (erf (u / fin (Real.sqrt 2)) + fin 1) / fin 2
    (p * (high - low) + low,
      log (high - low) + (-(sq u) / fin 2) - log (sqrt (fin 2 * fin Real.pi)))

/-- scaler.py:264-272 `_inverse` for one coordinate. -/
noncomputable def invCoord (t : Transform) (low high u : F) : F × F :=
  let m := createMasks low high
  let r := (nan, nan)
  let r := if m.none then (u, fin 0) else r
  let r := if m.left then invLeft low u else r
  let r := if m.right then invRight high u else r
  if m.both then invBoth t low high u else r

/-! ### affine maps -/

/-- scaler.py:288-291 `_forward_affine` on one row. -/
noncomputable def Affine.forward (a : Affine d) (x : Pt d) : Pt d :=
  match a with
  | .diag mu sigma => fun i => (x i - mu i) / sigma i
  | .full mu _ Linv _ => fun i => sum (List.ofFn fun j => Linv i j * (x j - mu j))

/-- scaler.py:308-313 `_inverse_affine` on one row, with the row's log-determinant. -/
noncomputable def Affine.inverse (a : Affine d) (u : Pt d) : Pt d × F :=
  match a with
  | .diag mu sigma => (fun i => mu i + sigma i * u i, sum (List.ofFn fun i => log (sigma i)))
  | .full mu L _ ld => (fun i => mu i + sum (List.ofFn fun j => L i j * u j), ld)

/-! ### interval check -/

open Classical in
/-- input_validation.py:25-53 `assert_array_within_interval` with closed ends (the only way it is called):
NaN bounds mean no bound. -/
noncomputable def withinInterval (low high : Fin d → F) (x : List (Pt d)) : Bool :=
  x.all fun row => decide (∀ i, (if (low i).isnan then ninf else low i) ≤ row i ∧
    row i ≤ (if (high i).isnan then pinf else high i))

/-! ### forward, inverse, fit -/

/-- scaler.py:228-247 `_forward` on one row. -/
noncomputable def Scaler.fwdRow (s : Scaler d) (x : Pt d) : Pt d :=
  fun i => fwdCoord s.transform (s.low i) (s.high i) (x i)

/-- scaler.py:249-274 `_inverse` on one row. -/
noncomputable def Scaler.invRow (s : Scaler d) (u : Pt d) : Pt d × F :=
  (fun i => (invCoord s.transform (s.low i) (s.high i) (u i)).1,
    sum (List.ofFn fun i => (invCoord s.transform (s.low i) (s.high i) (u i)).2))

/-- scaler.py:180-202 `forward` on one row after the input check; TypeError if `scale` and not fitted. -/
noncomputable def Scaler.forwardRow (s : Scaler d) (x : Pt d) : Except PyErr (Pt d) :=
  if s.scale then
    match s.affine with
    | .some a => .ok (a.forward (s.fwdRow x))
    | .none => .error .typeError
  else .ok (s.fwdRow x)

/-- scaler.py:180-202 `forward`. -/
noncomputable def Scaler.forward (s : Scaler d) (x : List (Pt d)) (checkInput : Bool := true) :
    Except PyErr (List (Pt d)) :=
  if checkInput && !withinInterval s.low s.high x then .error .valueError
  else x.mapM s.forwardRow

/-- scaler.py:204-226 `inverse` on one row. -/
noncomputable def Scaler.inverseRow (s : Scaler d) (u : Pt d) : Except PyErr (Pt d × F) :=
  if s.scale then
    match s.affine with
    | .some a =>
      let (x, ld) := a.inverse u
      let (x, ld') := s.invRow x
      .ok (x, ld + ld')
    | .none => .error .typeError
  else .ok (s.invRow u)

/-- scaler.py:204-226 `inverse`. -/
noncomputable def Scaler.inverse (s : Scaler d) (u : List (Pt d)) : Except PyErr (List (Pt d × F)) :=
  u.mapM s.inverseRow

/-- `np.std` of a one-dimensional array. -/
noncomputable def F.std (l : List F) : F :=
  let m := mean l
  sqrt (mean (l.map fun x => sq (abs (x - m))))

/-- scaler.py:159-178 `fit` with `diagonal=True` (the sampler's setting).  `diagonal=False`: `Model/ScalerFull.lean`. -/
noncomputable def Scaler.fit (s : Scaler d) (x : List (Pt d)) : Except PyErr (Scaler d) :=
  if !withinInterval s.low s.high x then .error .valueError
  else
    let u := x.map s.fwdRow
    .ok { s with affine := .some (.diag (fun i => mean (u.map (· i))) (fun i => F.std (u.map (· i)))) }

/-! ### boundary conditions -/

/-- `while cond: x = body` with fuel; `none` when the fuel runs out. -/
noncomputable def whileFuel (cond : F → Prop) [DecidablePred cond] (body : F → F) : ℕ → F → Option F
  | 0, x => if cond x then none else some x
  | n + 1, x => if cond x then whileFuel cond body n (body x) else some x

/-- scaler.py:128-131, one entry under periodic boundary conditions. -/
noncomputable def periodicEntry (fuel : ℕ) (low high x : F) : Option F := do
  let x ← whileFuel (fun x => x > high) (fun x => low + x - high) fuel x
  whileFuel (fun x => x < low) (fun x => high + x - low) fuel x

/-- scaler.py:152-155, one entry under reflective boundary conditions. -/
noncomputable def reflectiveEntry (fuel : ℕ) (low high x : F) : Option F := do
  let x ← whileFuel (fun x => x > high) (fun x => high - x + high) fuel x
  whileFuel (fun x => x < low) (fun x => low + low - x) fuel x

/-- Apply `f` in turn to the listed coordinates of a row (the loops over `i`, scaler.py:126, 150; the order of the
loops over `i` and `j` does not matter, each entry being treated alone). -/
def applyCoords (f : Fin d → F → Option F) : List (Fin d) → Pt d → Option (Pt d)
  | [], x => some x
  | i :: is, x =>
    match f i (x i) with
    | none => none
    | some y => applyCoords f is (Function.update x i y)

/-- scaler.py:109-132 `_apply_periodic_boundary_conditions_x` on one row. -/
noncomputable def Scaler.periodicRow (s : Scaler d) (fuel : ℕ) (x : Pt d) : Option (Pt d) :=
  match s.periodic with
  | none => some x
  | some is => applyCoords (fun i => periodicEntry fuel (s.low i) (s.high i)) is x

/-- scaler.py:134-157 `_apply_reflective_boundary_conditions_x` on one row. -/
noncomputable def Scaler.reflectiveRow (s : Scaler d) (fuel : ℕ) (x : Pt d) : Option (Pt d) :=
  match s.reflective with
  | none => some x
  | some is => applyCoords (fun i => reflectiveEntry fuel (s.low i) (s.high i)) is x

/-- scaler.py:84-107 `apply_boundary_conditions_x` on one row. -/
noncomputable def Scaler.boundaryRow (s : Scaler d) (fuel : ℕ) (x : Pt d) : Option (Pt d) :=
  match s.periodic, s.reflective with
  | none, none => some x
  | none, some _ => s.reflectiveRow fuel x
  | some _, none => s.periodicRow fuel x
  | some _, some _ => (s.periodicRow fuel x).bind (s.reflectiveRow fuel)

end Poco
