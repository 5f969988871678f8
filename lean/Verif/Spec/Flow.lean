import Verif.Model.Flow

/-! Specifications for the training of the flow. -/

namespace Poco.Spec
open F

/-- `b` is the (first) best entry of a loss history: it is below every earlier entry and no entry is below it.  NaN and
+inf entries do not count; if no entry counts, `b` is 0. -/
def BestEpoch (l : List F) (b : ℕ) : Prop :=
  (∃ v, l[b]? = some v ∧ v < pinf ∧ (∀ w ∈ l, ¬ w < v) ∧ ∀ j w, j < b → l[j]? = some w → ¬ w ≤ v) ∨
  (b = 0 ∧ ∀ w ∈ l, ¬ w < pinf)

/-- `p` lists every index below `n` exactly once. -/
def IsPerm (p : List ℕ) (n : ℕ) : Prop := List.Perm p (List.range n)

/-- The mean distance of a point to its nearest different neighbour. -/
def NearestMean {d : ℕ} (xs : List (Fin d → ℝ)) (m : ℝ) : Prop :=
  ∃ nn : (Fin d → ℝ) → ℝ, m = (xs.map nn).sum / xs.length ∧ ∀ x ∈ xs,
    (∃ y ∈ xs, y ≠ x ∧ nn x = Real.sqrt (∑ k, (x k - y k) ^ 2)) ∧ ∀ y ∈ xs, y ≠ x → nn x ≤ Real.sqrt (∑ k, (x k - y k) ^ 2)

end Poco.Spec
