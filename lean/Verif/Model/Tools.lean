import Verif.Model.Float

/-!
# Model of `pocomc/tools.py` (numerical functions)

Functions that normalise their argument in place (`weights /= ...`) return the mutated array as well.
-/

namespace Poco
open F

/-- `weights / np.sum(weights)` — the division in tools.py:34, 47, 70, 92, 173. -/
noncomputable def normalize (w : List F) : List F :=
  let s := sum w
  w.map (· / s)

/-- `1.0 / np.sum(weights**2.0)` — tools.py:36, 48, 71. -/
noncomputable def invSumSq (w : List F) : F := fin 1 / sum (w.map sq)

/-- tools.py:56-71 `effective_sample_size`.  Result: (the caller's array after the in-place division, the ESS). -/
noncomputable def effectiveSampleSize (weights : List F) : List F × F :=
  let w := normalize weights
  (w, invSumSq w)

/-- tools.py:74-93 `unique_sample_size`.  Result: (the caller's array after the in-place division, the USS).
`k` is a non-negative integer (the callers pass `len(weights)` or `n_active`). -/
noncomputable def uniqueSampleSize (weights : List F) (k : Option ℕ) : List F × F :=
  let k := k.getD weights.length
  let w := normalize weights
  (w, sum (w.map fun x => fin 1 - npow (fin 1 - x) k))

/-- tools.py:96-114 `compute_ess`. -/
noncomputable def computeEss (logw : List F) : Except PyErr F := do
  let m ← F.max logw
  let normed := logw.map (· - m)
  let s := sum (normed.map exp)
  let weights := normed.map fun x => exp x / s
  return fin 1 / sum (weights.map fun w => w * w) / ofNat weights.length

/-- tools.py:117-133 `increment_logz`. -/
noncomputable def incrementLogz (logw : List F) : Except PyErr F := do
  let m ← F.max logw
  let normed := logw.map (· - m)
  return m + lse normed

/-- Python list indexing with negative indices; `none` is IndexError. -/
def pyGet? {α : Type*} (l : List α) (i : ℤ) : Option α :=
  if 0 ≤ i then l[i.toNat]? else if 0 ≤ i + l.length then l[(i + l.length).toNat]? else none

/-- numpy boolean-mask selection `a[mask]`. -/
def maskSelect {α : Type*} (mask : List Bool) (a : List α) : List α :=
  ((mask.zip a).filter (·.1)).map (·.2)

/-- `np.linspace(0, 99, bins)` — tools.py:38. -/
noncomputable def percentileGrid (bins : ℕ) : List ℝ :=
  (List.range bins).map fun i : ℕ => if bins = 1 then 0 else 99 * (i : ℝ) / ((bins : ℝ) - 1)

/-- `np.percentile(w, p)` with numpy's default linear interpolation: NaN if any entry is NaN, otherwise
interpolate between the order statistics around the virtual index `(n-1)*p/100`. -/
noncomputable def percentile (w : List F) (p : ℝ) : Except PyErr F :=
  if w.any isnan then .ok nan
  else
    let a := w.mergeSort (fun x y => decide (x ≤ y))
    let h : ℝ := ((w.length : ℝ) - 1) * (p / 100)
    let k := ⌊h⌋₊
    match a[k]?, a[min (k + 1) (w.length - 1)]? with
    | some lo, some hi => .ok (lo + (hi - lo) * fin (h - k))
    | _, _ => .error .indexError

/-- The `while True` loop of `trim_weights`, tools.py:41-53, at grid position `i` (which may become negative: Python
indexing then wraps around before it fails).  `w` are the normalised weights. -/
noncomputable def trimLoop {α : Type*} (samples : List α) (w : List F) (essTotal ess : F) (grid : List ℝ) (i : ℤ) :
    Except PyErr (List α × List F) :=
  match _h : pyGet? grid i with
  | none => .error .indexError
  | some p =>
    match percentile w p with
    | .error e => .error e
    | .ok threshold =>
      let mask := w.map fun x => decide (threshold ≤ x)
      let wt := normalize (maskSelect mask w)
      let essTrimmed := invSumSq wt
      if ess ≤ essTrimmed / essTotal then
        if samples.length = w.length then .ok (maskSelect mask samples, wt) else .error .indexError
      else trimLoop samples w essTotal ess grid (i - 1)
termination_by (i + grid.length + 1).toNat
decreasing_by
  have : 0 ≤ i + grid.length := by
    by_contra hc
    unfold pyGet? at _h
    rw [if_neg (by omega), if_neg (by omega)] at _h
    cases _h
  omega

/-- Result of `trim_weights`. -/
structure Trimmed (α : Type*) where
  /-- `samples[mask]` -/
  samples : List α
  /-- `weights_trimmed` -/
  weights : List F
  /-- the caller's `weights` array after the in-place normalisation -/
  callerWeights : List F

/-- tools.py:10-53 `trim_weights`. -/
noncomputable def trimWeights {α : Type*} (samples : List α) (weights : List F) (ess : F) (bins : ℕ) :
    Except PyErr (Trimmed α) := do
  let w := normalize weights
  let essTotal := invSumSq w
  let (s, wt) ← trimLoop samples w essTotal ess (percentileGrid bins) ((bins : ℤ) - 1)
  return { samples := s, weights := wt, callerWeights := w }

/-- tools.py:7 `SQRTEPS = math.sqrt(eps)`, with `eps = 2^-52`. -/
noncomputable def sqrtEps : ℝ := (2 : ℝ)⁻¹ ^ 26

/-- The inner `while positions[i] > cumulative_sum` loop, tools.py:181-183. -/
noncomputable def sysAdvance (w : List F) (p : F) (j : ℕ) (c : F) : Except PyErr (ℕ × F) :=
  if p > c then
    match _h : w[j + 1]? with
    | none => .error .indexError
    | some v => sysAdvance w p (j + 1) (c + v)
  else .ok (j, c)
termination_by w.length - j
decreasing_by
  have := (List.getElem?_eq_some_iff.mp _h).1
  omega

/-- The `for i in range(size)` loop, tools.py:180-184, over the remaining positions. -/
noncomputable def sysLoop (w : List F) : List F → ℕ → F → Except PyErr (List ℕ)
  | [], _, _ => .ok []
  | p :: ps, j, c =>
    match sysAdvance w p j c with
    | .error e => .error e
    | .ok (j', c') =>
      match sysLoop w ps j' c' with
      | .error e => .error e
      | .ok r => .ok (j' :: r)

/-- `positions = (np.random.random() + np.arange(size)) / size` — tools.py:175; `u` is the uniform draw. -/
noncomputable def sysPositions (size : ℕ) (u : ℝ) : List F :=
  (List.range size).map fun i => (fin u + ofNat i) / ofNat size

/-- tools.py:172-173: renormalise only if the sum is further than `SQRTEPS` from one. -/
noncomputable def sysWeights (weights : List F) : List F :=
  if F.abs (sum weights - fin 1) > fin sqrtEps then normalize weights else weights

/-- tools.py:136-186 `systematic_resample`; `u` is the draw `np.random.random()` in [0,1). -/
noncomputable def systematicResample (size : ℕ) (weights : List F) (u : ℝ) : Except PyErr (List ℕ) :=
  let w := sysWeights weights
  match w[0]? with
  | none => .error .indexError
  | some c => sysLoop w (sysPositions size u) 0 c

/-- `np.cumsum` -/
def cumsumFrom : F → List F → List F
  | _, [] => []
  | acc, x :: xs => (acc + x) :: cumsumFrom (acc + x) xs

/-- `np.random.choice(np.arange(len(p)), size=len(us), replace=True, p=p)` (sampler.py:703, 991) for the uniform draws
`us`, following numpy's implementation: validity checks on `p`, then `searchsorted(cdf/cdf[-1], u, side='right')`. -/
noncomputable def multinomialResample (p : List F) (us : List ℝ) : Except PyErr (List ℕ) :=
  let cdf := cumsumFrom 0 p
  match cdf.getLast? with
  | none => .error .valueError
  | some total =>
    if p.any (fun x => decide (x < 0) || x.isnan) then .error .valueError
    else if F.abs (sum p - fin 1) > fin sqrtEps then .error .valueError
    else
      let cdf := cdf.map (· / total)
      .ok (us.map fun u => (cdf.takeWhile fun c => decide (c ≤ fin u)).length)

end Poco
