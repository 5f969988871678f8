import Verif.Model.Double
import Verif.Spec.Weights

/-! Specification of C122-C124: what is used of double-precision arithmetic. -/

namespace Poco.Spec

/-- `s` is the result of adding up the numbers `l` in some order and with some bracketing, rounding after every addition
(numpy's `sum` adds pairwise in blocks, its `cumsum` from left to right). -/
inductive Added (r : ℝ → ℝ) : List ℝ → ℝ → Prop
  | nil : Added r [] 0
  | one (x : ℝ) : Added r [x] x
  | add {l l₁ l₂ : List ℝ} {a b : ℝ} : l₁ ≠ [] → l₂ ≠ [] → Added r l₁ a → Added r l₂ b → l.Perm (l₁ ++ l₂) → Added r l (r (a + b))

/-- What is used of IEEE double precision, of numpy's `exp`, `sum` and `percentile`.
* rounding is monotone, idempotent and symmetric, exact for the integers up to `2^53`, with relative error at most `2^-53` (and absolute error
  at most `2^-1075` among the subnormal numbers);
* `exp` returns doubles, is exact at 0, stays in `[0, 1]` on the negative axis and is accurate to one unit in the last place;
* `sum` adds in some order; the compensated sum of `np.random.choice` is at least as accurate as adding in some order;
* `percentile` returns a number not above the largest entry, and for the 0-th percentile the smallest entry.
Overflow is left out: no number in the functions concerned exceeds `2^53`. -/
structure IsDouble (A : Arith) : Prop where
  mono : Monotone A.rnd
  idem : ∀ x, A.rnd (A.rnd x) = A.rnd x
  neg : ∀ x, A.rnd (-x) = -A.rnd x
  nat : ∀ k : ℕ, k ≤ 2 ^ 53 → A.rnd k = k
  near : ∀ x, |A.rnd x - x| ≤ 2⁻¹ ^ 53 * |x| + 2⁻¹ ^ 1075
  exp_double : ∀ x, A.rnd (A.exp x) = A.exp x
  exp_zero : A.exp 0 = 1
  exp_range : ∀ x ≤ 0, 0 ≤ A.exp x ∧ A.exp x ≤ 1
  exp_near : ∀ x ≤ 0, |A.exp x - Real.exp x| ≤ 2⁻¹ ^ 52 * Real.exp x + 2⁻¹ ^ 1074
  total : ∀ l, Added A.rnd l (A.total l)
  kahan_near : ∀ l, (∀ x ∈ l, 0 ≤ x) → |A.kahan l - l.sum| ≤ l.length * 2⁻¹ ^ 52 * l.sum + 2⁻¹ ^ 1000
  pct_le : ∀ l, l ≠ [] → ∀ p, 0 ≤ p → p ≤ 100 → ∃ b ∈ l, A.pct l p ≤ b
  pct_zero : ∀ l, l ≠ [] → A.pct l 0 ∈ l ∧ ∀ x ∈ l, A.pct l 0 ≤ x

end Poco.Spec
