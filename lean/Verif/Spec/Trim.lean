import Verif.Spec.Weights
import Mathlib.Algebra.Order.Floor.Semiring
import Mathlib.Algebra.Order.Archimedean.Real.Basic

/-! Specification of the percentile grid used for trimming, in plain real arithmetic. -/

namespace Poco.Spec
open Classical

/-- The `p`-th percentile of `w` with linear interpolation between the two nearest order statistics. -/
noncomputable def percentile (w : List ℝ) (p : ℝ) : ℝ :=
  let a := w.mergeSort (fun x y => decide (x ≤ y))
  let h : ℝ := ((w.length : ℝ) - 1) * (p / 100)
  let lo := a.getD ⌊h⌋₊ 0
  let hi := a.getD (min (⌊h⌋₊ + 1) (w.length - 1)) 0
  lo + (hi - lo) * (h - ⌊h⌋₊)

/-- The `i`-th of `bins` percentiles evenly spaced from 0 to 99. -/
noncomputable def gridPoint (bins i : ℕ) : ℝ := 99 * (i : ℝ) / ((bins : ℝ) - 1)

/-- The weights at or above the `i`-th grid percentile. -/
noncomputable def keptAt (w : List ℝ) (bins i : ℕ) : List ℝ :=
  w.filter fun x => decide (percentile w (gridPoint bins i) ≤ x)

end Poco.Spec
