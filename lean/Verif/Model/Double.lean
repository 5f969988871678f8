import Verif.Model.Tools

/-!
# `pocomc/tools.py` in double precision

The functions of `Model/Tools.lean` again, with every arithmetic operation followed by the rounding of the machine.  Special values
(NaN, infinities) are treated as in `Model/Float.lean`.  Simplification: finite results do not overflow.
-/

namespace Poco
open F

/-- The arithmetic of the machine on finite numbers: rounding to a double, `np.exp`, `np.sum`, `np.percentile`. -/
structure Arith where
  /-- rounding of an exact result -/
  rnd : ℝ → ℝ
  /-- `np.exp` -/
  exp : ℝ → ℝ
  /-- `np.sum` -/
  total : List ℝ → ℝ
  /-- `np.percentile` -/
  pct : List ℝ → ℝ → ℝ
  /-- the compensated sum with which `np.random.choice` checks its argument `p` -/
  kahan : List ℝ → ℝ

namespace Arith

/-- The finite number, 0 for special values (used for finite values only). -/
def val : F → ℝ
  | fin x => x
  | _ => 0

/-- Rounding of a result; special values are not affected. -/
def round (A : Arith) : F → F
  | fin x => fin (A.rnd x)
  | a => a

/-- `np.exp` in double precision. -/
def expF (A : Arith) : F → F
  | fin x => fin (A.exp x)
  | ninf => fin 0
  | pinf => pinf
  | nan => nan

/-- `np.sum` in double precision. -/
def sum (A : Arith) (l : List F) : F :=
  if l.all isfinite then fin (A.total (l.map val)) else F.sum l

/-- The sum of `np.random.choice`'s check, in double precision. -/
def checkSum (A : Arith) (l : List F) : F :=
  if l.all isfinite then fin (A.kahan (l.map val)) else F.sum l

/-- `np.percentile` in double precision: NaN if any entry is NaN; infinite entries do not occur and give NaN here. -/
def percentile (A : Arith) (w : List F) (p : ℝ) : F :=
  if w.all isfinite then fin (A.pct (w.map val) p) else nan

end Arith

/-- `np.exp(logw - np.max(logw))` — sampler.py:541, 741, 780. -/
noncomputable def rawWeightsD (A : Arith) (logw : List F) : Except PyErr (List F) := do
  let m ← F.max logw
  return logw.map fun l => A.expF (A.round (l - m))

/-- `weights / np.sum(weights)` — the division in tools.py:34, 47, 70, 92, 173, sampler.py:781. -/
noncomputable def normalizeD (A : Arith) (w : List F) : List F :=
  let s := A.sum w
  w.map fun x => A.round (x / s)

/-- `1.0 / np.sum(weights**2.0)` — tools.py:36, 48, 71. -/
noncomputable def invSumSqD (A : Arith) (w : List F) : F := A.round (fin 1 / A.sum (w.map fun x => A.round (sq x)))

/-- tools.py:56-71 `effective_sample_size`.  Result: (the caller's array after the in-place division, the ESS). -/
noncomputable def effectiveSampleSizeD (A : Arith) (weights : List F) : List F × F :=
  let w := normalizeD A weights
  (w, invSumSqD A w)

/-- The `while True` loop of `trim_weights`, tools.py:41-53, at grid position `i`. -/
noncomputable def trimLoopD {α : Type*} (A : Arith) (samples : List α) (w : List F) (essTotal ess : F) (grid : List ℝ) (i : ℤ) :
    Except PyErr (List α × List F) :=
  match _h : pyGet? grid i with
  | none => .error .indexError
  | some p =>
    let threshold := A.percentile w p
    let mask := w.map fun x => decide (threshold ≤ x)
    let wt := normalizeD A (maskSelect mask w)
    let essTrimmed := invSumSqD A wt
    if ess ≤ A.round (essTrimmed / essTotal) then
      if samples.length = w.length then .ok (maskSelect mask samples, wt) else .error .indexError
    else trimLoopD A samples w essTotal ess grid (i - 1)
termination_by (i + grid.length + 1).toNat
decreasing_by
  have : 0 ≤ i + grid.length := by
    by_contra hc
    unfold pyGet? at _h
    rw [if_neg (by omega), if_neg (by omega)] at _h
    cases _h
  omega

/-- tools.py:10-53 `trim_weights`; the grid of percentiles is rounded as well. -/
noncomputable def trimWeightsD {α : Type*} (A : Arith) (samples : List α) (weights : List F) (ess : F) (bins : ℕ) :
    Except PyErr (Trimmed α) := do
  let w := normalizeD A weights
  let essTotal := invSumSqD A w
  let (s, wt) ← trimLoopD A samples w essTotal ess ((percentileGrid bins).map A.rnd) ((bins : ℤ) - 1)
  return { samples := s, weights := wt, callerWeights := w }

/-- The inner `while positions[i] > cumulative_sum` loop, tools.py:181-183. -/
noncomputable def sysAdvanceD (A : Arith) (w : List F) (p : F) (j : ℕ) (c : F) : Except PyErr (ℕ × F) :=
  if p > c then
    match _h : w[j + 1]? with
    | none => .error .indexError
    | some v => sysAdvanceD A w p (j + 1) (A.round (c + v))
  else .ok (j, c)
termination_by w.length - j
decreasing_by
  have := (List.getElem?_eq_some_iff.mp _h).1
  omega

/-- The `for i in range(size)` loop, tools.py:180-184, over the remaining positions. -/
noncomputable def sysLoopD (A : Arith) (w : List F) : List F → ℕ → F → Except PyErr (List ℕ)
  | [], _, _ => .ok []
  | p :: ps, j, c =>
    match sysAdvanceD A w p j c with
    | .error e => .error e
    | .ok (j', c') =>
      match sysLoopD A w ps j' c' with
      | .error e => .error e
      | .ok r => .ok (j' :: r)

/-- `positions = (np.random.random() + np.arange(size)) / size` — tools.py:175; `u` is the uniform draw. -/
noncomputable def sysPositionsD (A : Arith) (size : ℕ) (u : ℝ) : List F :=
  (List.range size).map fun i => A.round (A.round (fin u + ofNat i) / ofNat size)

/-- tools.py:172-173: renormalise only if the sum is further than `SQRTEPS` from one. -/
noncomputable def sysWeightsD (A : Arith) (weights : List F) : List F :=
  if F.abs (A.round (A.sum weights - fin 1)) > fin sqrtEps then normalizeD A weights else weights

/-- tools.py:136-186 `systematic_resample`; `u` is the draw `np.random.random()` in [0,1). -/
noncomputable def systematicResampleD (A : Arith) (size : ℕ) (weights : List F) (u : ℝ) : Except PyErr (List ℕ) :=
  let w := sysWeightsD A weights
  match w[0]? with
  | none => .error .indexError
  | some c => sysLoopD A w (sysPositionsD A size u) 0 c

/-- `np.cumsum` in double precision. -/
noncomputable def cumsumFromD (A : Arith) : F → List F → List F
  | _, [] => []
  | acc, x :: xs => A.round (acc + x) :: cumsumFromD A (A.round (acc + x)) xs

/-- `np.random.choice(np.arange(len(p)), size=len(us), replace=True, p=p)` (sampler.py:703, 991) for the uniform draws
`us`, following numpy's implementation: validity checks on `p` (with a compensated sum), then `searchsorted(cdf/cdf[-1], u, side='right')`. -/
noncomputable def multinomialResampleD (A : Arith) (p : List F) (us : List ℝ) : Except PyErr (List ℕ) :=
  let cdf := cumsumFromD A 0 p
  match cdf.getLast? with
  | none => .error .valueError
  | some total =>
    if p.any (fun x => decide (x < 0) || x.isnan) then .error .valueError
    else if F.abs (A.round (A.checkSum p - fin 1)) > fin sqrtEps then .error .valueError
    else
      let cdf := cdf.map fun c => A.round (c / total)
      .ok (us.map fun u => (cdf.takeWhile fun c => decide (c ≤ fin u)).length)

end Poco
