import Verif.Model.Float
import Mathlib.Tactic.Linarith
import Mathlib.Tactic.Positivity
import Mathlib.Tactic.FieldSimp
import Mathlib.Tactic.Ring
import Mathlib.Algebra.BigOperators.Group.List.Basic

/-! Lemmas about the float model `F`. -/

namespace Poco
namespace F

@[simp] theorem fin_add (a b : ℝ) : (fin a + fin b : F) = fin (a + b) := rfl
@[simp] theorem fin_sub (a b : ℝ) : (fin a - fin b : F) = fin (a - b) := by
  show add (fin a) (neg (fin b)) = _
  simp [add, neg, sub_eq_add_neg]
@[simp] theorem fin_neg (a : ℝ) : (-fin a : F) = fin (-a) := rfl
@[simp] theorem fin_mul (a b : ℝ) : (fin a * fin b : F) = fin (a * b) := rfl
theorem zero_def : (0 : F) = fin 0 := rfl
theorem one_def : (1 : F) = fin 1 := rfl
theorem fin_div (a b : ℝ) (hb : b ≠ 0) : (fin a / fin b : F) = fin (a / b) := by
  show div (fin a) (fin b) = _
  simp [div, hb]
theorem fin_div_zero_pos (a : ℝ) (ha : 0 < a) : (fin a / fin 0 : F) = pinf := by
  show div (fin a) (fin 0) = _
  simp [div, ha, ha.ne']
@[simp] theorem fin_inj {a b : ℝ} : (fin a = fin b) ↔ a = b := by simp
@[simp] theorem fin_lt (a b : ℝ) : (fin a < fin b) ↔ a < b := Iff.rfl
@[simp] theorem fin_le (a b : ℝ) : (fin a ≤ fin b) ↔ a ≤ b := Iff.rfl
@[simp] theorem fin_feq (a b : ℝ) : feq (fin a) (fin b) ↔ a = b := Iff.rfl
@[simp] theorem exp_fin (a : ℝ) : exp (fin a) = fin (Real.exp a) := rfl
theorem log_fin (a : ℝ) (ha : 0 < a) : log (fin a) = fin (Real.log a) := by
  simp [log, ha.ne', not_lt.mpr ha.le]
theorem sqrt_fin (a : ℝ) (ha : 0 ≤ a) : sqrt (fin a) = fin (Real.sqrt a) := by
  simp [sqrt, not_lt.mpr ha]
@[simp] theorem abs_fin (a : ℝ) : abs (fin a) = fin |a| := rfl
@[simp] theorem sq_fin (a : ℝ) : sq (fin a) = fin (a ^ 2) := by simp [sq, pow_two]
@[simp] theorem npow_fin (a : ℝ) (k : ℕ) : npow (fin a) k = fin (a ^ k) := by
  induction k with
  | zero => simp [npow]
  | succ k ih => simp [npow, ih, pow_succ]
@[simp] theorem isnan_fin (a : ℝ) : (fin a).isnan = false := rfl
@[simp] theorem isinf_fin (a : ℝ) : (fin a).isinf = false := rfl
@[simp] theorem isfinite_fin (a : ℝ) : (fin a).isfinite = true := rfl
@[simp] theorem minimum_fin (a b : ℝ) : minimum (fin a) (fin b) = fin (Min.min a b) := by
  simp only [minimum, isnan_fin, fin_le, min_def, Bool.false_eq_true, if_false]
  split <;> rfl
@[simp] theorem maximum_fin (a b : ℝ) : maximum (fin a) (fin b) = fin (Max.max a b) := by
  simp only [maximum, isnan_fin, fin_le, max_def, Bool.false_eq_true, if_false]
  split <;> rfl

theorem isfinite_iff {a : F} : a.isfinite = true ↔ ∃ r, a = fin r := by
  cases a <;> simp [isfinite]

@[simp] theorem nan_add (a : F) : nan + a = nan := by cases a <;> rfl
@[simp] theorem add_nan (a : F) : a + nan = nan := by cases a <;> rfl
@[simp] theorem nan_sub (a : F) : nan - a = nan := by cases a <;> rfl
@[simp] theorem sub_nan (a : F) : a - nan = nan := by cases a <;> rfl
@[simp] theorem nan_mul (a : F) : nan * a = nan := by cases a <;> rfl
@[simp] theorem mul_nan (a : F) : a * nan = nan := by cases a <;> rfl
@[simp] theorem nan_div (a : F) : nan / a = nan := by cases a <;> rfl
@[simp] theorem div_nan (a : F) : a / nan = nan := by cases a <;> rfl
@[simp] theorem neg_nan : (-nan : F) = nan := rfl
@[simp] theorem neg_pinf : (-pinf : F) = ninf := rfl
@[simp] theorem neg_ninf : (-ninf : F) = pinf := rfl
@[simp] theorem exp_nan : exp nan = nan := rfl
@[simp] theorem exp_ninf : exp ninf = fin 0 := rfl
@[simp] theorem exp_pinf : exp pinf = pinf := rfl
@[simp] theorem isnan_nan : nan.isnan = true := rfl
@[simp] theorem ninf_add_fin (r : ℝ) : ninf + fin r = ninf := rfl
@[simp] theorem fin_add_ninf (r : ℝ) : fin r + ninf = ninf := rfl
@[simp] theorem pinf_add_fin (r : ℝ) : pinf + fin r = pinf := rfl
@[simp] theorem fin_add_pinf (r : ℝ) : fin r + pinf = pinf := rfl
@[simp] theorem not_nan_lt (a : F) : ¬ (nan < a) := by cases a <;> exact id
@[simp] theorem not_lt_nan (a : F) : ¬ (a < nan) := by cases a <;> exact id
@[simp] theorem not_nan_le (a : F) : ¬ (nan ≤ a) := by cases a <;> exact id
@[simp] theorem not_le_nan (a : F) : ¬ (a ≤ nan) := by cases a <;> exact id

@[simp] theorem ninf_le_ninf : (ninf : F) ≤ ninf ↔ True := iff_true_intro trivial
@[simp] theorem ninf_lt_ninf : (ninf : F) < ninf ↔ False := iff_false_intro id
@[simp] theorem ninf_le_pinf : (ninf : F) ≤ pinf ↔ True := iff_true_intro trivial
@[simp] theorem ninf_lt_pinf : (ninf : F) < pinf ↔ True := iff_true_intro trivial
@[simp] theorem ninf_le_fin (r : ℝ) : (ninf : F) ≤ fin r ↔ True := iff_true_intro trivial
@[simp] theorem ninf_lt_fin (r : ℝ) : (ninf : F) < fin r ↔ True := iff_true_intro trivial
@[simp] theorem pinf_le_ninf : (pinf : F) ≤ ninf ↔ False := iff_false_intro id
@[simp] theorem pinf_lt_ninf : (pinf : F) < ninf ↔ False := iff_false_intro id
@[simp] theorem pinf_le_pinf : (pinf : F) ≤ pinf ↔ True := iff_true_intro trivial
@[simp] theorem pinf_lt_pinf : (pinf : F) < pinf ↔ False := iff_false_intro id
@[simp] theorem pinf_le_fin (r : ℝ) : (pinf : F) ≤ fin r ↔ False := iff_false_intro id
@[simp] theorem pinf_lt_fin (r : ℝ) : (pinf : F) < fin r ↔ False := iff_false_intro id
@[simp] theorem fin_le_ninf (r : ℝ) : (fin r : F) ≤ ninf ↔ False := iff_false_intro id
@[simp] theorem fin_lt_ninf (r : ℝ) : (fin r : F) < ninf ↔ False := iff_false_intro id
@[simp] theorem fin_le_pinf (r : ℝ) : (fin r : F) ≤ pinf ↔ True := iff_true_intro trivial
@[simp] theorem fin_lt_pinf (r : ℝ) : (fin r : F) < pinf ↔ True := iff_true_intro trivial
@[simp] theorem isnan_ninf : ninf.isnan = false := rfl
@[simp] theorem isnan_pinf : pinf.isnan = false := rfl

theorem sub_def (a b : F) : a - b = a + -b := rfl

theorem add_comm' (a b : F) : a + b = b + a := by
  cases a <;> cases b <;> first | rfl | (simp [add_comm])

theorem add_assoc' (a b c : F) : a + b + c = a + (b + c) := by
  cases a <;> cases b <;> cases c <;> first | rfl | (simp [add_assoc])

theorem zero_add' (a : F) : 0 + a = a := by
  cases a <;> first | rfl | (simp [zero_def])

instance : AddCommMonoid F where
  add_assoc := add_assoc'
  zero_add := zero_add'
  add_zero a := by rw [add_comm', zero_add']
  add_comm := add_comm'
  nsmul := nsmulRec

theorem sum_eq (l : List F) : sum l = l.sum := by
  induction l with
  | nil => rfl
  | cons a l ih => simp only [sum, List.foldr_cons, List.sum_cons] at *; rw [ih]

@[simp] theorem sum_fin (l : List ℝ) : sum (l.map fin) = fin l.sum := by
  induction l with
  | nil => rfl
  | cons a l ih => simp only [List.map_cons, List.sum_cons]; rw [sum, List.foldr_cons, ← sum, ih, fin_add]

@[simp] theorem sum_nil : sum [] = fin 0 := rfl
theorem sum_cons (a : F) (l : List F) : sum (a :: l) = a + sum l := rfl
theorem sum_append (l m : List F) : sum (l ++ m) = sum l + sum m := by
  rw [sum_eq, sum_eq, sum_eq, List.sum_append]

theorem sum_nan {l : List F} (h : nan ∈ l) : sum l = nan := by
  induction l with
  | nil => simp at h
  | cons a l ih =>
    rw [sum_cons]
    rcases List.mem_cons.mp h with h | h
    · rw [← h]; simp
    · rw [ih h]; simp

/-- A list of finite floats comes from a list of reals. -/
theorem exists_map_fin {l : List F} (h : ∀ a ∈ l, a.isfinite = true) : ∃ r : List ℝ, l = r.map fin := by
  induction l with
  | nil => exact ⟨[], rfl⟩
  | cons a l ih =>
    obtain ⟨r, hr⟩ := ih (fun b hb => h b (List.mem_cons_of_mem _ hb))
    obtain ⟨s, hs⟩ := isfinite_iff.mp (h a List.mem_cons_self)
    exact ⟨s :: r, by rw [List.map_cons, ← hr, ← hs]⟩

theorem mean_fin (l : List ℝ) (h : l ≠ []) : mean (l.map fin) = fin (l.sum / l.length) := by
  have : (l.length : ℝ) ≠ 0 := by
    have := List.length_pos_of_ne_nil h
    exact_mod_cast this.ne'
  simp only [mean, sum_fin, ofNat, List.length_map]
  exact fin_div _ _ this

theorem logaddexp_fin (a b : ℝ) : logaddexp (fin a) (fin b) = fin (Real.log (Real.exp a + Real.exp b)) := by
  unfold logaddexp
  simp only [fin_feq, fin_sub, zero_def, gt_iff_lt, fin_lt, fin_le]
  split
  · rename_i h
    subst h
    simp only [fin_add, fin_inj]
    rw [← two_mul, Real.log_mul (by norm_num) (Real.exp_ne_zero _), Real.log_exp]; ring
  · split
    · simp only [fin_neg, exp_fin, fin_add]
      rw [log_fin _ (by positivity)]
      simp only [fin_add, fin_inj]
      rw [show Real.exp a + Real.exp b = Real.exp a * (1 + Real.exp (-(a - b))) by
        rw [mul_add, mul_one, ← Real.exp_add]; congr 2; ring]
      rw [Real.log_mul (Real.exp_ne_zero _) (by positivity), Real.log_exp]
    · rename_i h1 h2
      have : a - b ≤ 0 := not_lt.mp h2
      simp only [this, if_true, exp_fin, fin_add]
      rw [log_fin _ (by positivity)]
      simp only [fin_add, fin_inj]
      rw [show Real.exp a + Real.exp b = Real.exp b * (1 + Real.exp (a - b)) by
        rw [mul_add, mul_one, ← Real.exp_add, add_comm]; congr 2; ring]
      rw [Real.log_mul (Real.exp_ne_zero _) (by positivity), Real.log_exp]

theorem logaddexp_ninf_fin (b : ℝ) : logaddexp ninf (fin b) = fin b := by
  have h1 : (ninf - fin b : F) = ninf := rfl
  have h2 : ¬ (ninf > (0 : F)) := fun h => h
  have h3 : (ninf : F) ≤ 0 := trivial
  have h4 : ¬ feq ninf (fin b) := fun h => h
  simp only [logaddexp, h1, h2, h3, h4, if_true, if_false, exp_ninf, fin_add]
  rw [log_fin _ (by norm_num)]
  simp

theorem foldl_logaddexp_fin (l : List ℝ) (a : ℝ) :
    (l.map fin).foldl logaddexp (fin a) = fin (Real.log (Real.exp a + (l.map Real.exp).sum)) := by
  induction l generalizing a with
  | nil => simp
  | cons b l ih =>
    have hs : 0 ≤ (l.map Real.exp).sum := List.sum_nonneg (by simp; intro x _; positivity)
    simp only [List.map_cons, List.foldl_cons, logaddexp_fin, List.sum_cons]
    rw [ih, Real.exp_log (by positivity)]
    ring_nf

/-- `np.logaddexp.reduce` on finite values is log-sum-exp. -/
theorem lse_fin (l : List ℝ) (h : l ≠ []) : lse (l.map fin) = fin (Real.log (l.map Real.exp).sum) := by
  cases l with
  | nil => exact absurd rfl h
  | cons a l =>
    simp only [lse, List.map_cons, List.foldl_cons, logaddexp_ninf_fin, List.sum_cons]
    exact foldl_logaddexp_fin l a

theorem foldl_maximum_fin (l : List ℝ) (a : ℝ) :
    (l.map fin).foldl maximum (fin a) = fin (l.foldl Max.max a) := by
  induction l generalizing a with
  | nil => rfl
  | cons b l ih => simp only [List.map_cons, List.foldl_cons, maximum_fin, ih]

theorem le_foldl_max (l : List ℝ) (a : ℝ) : a ≤ l.foldl Max.max a ∧ ∀ b ∈ l, b ≤ l.foldl Max.max a := by
  induction l generalizing a with
  | nil => simp
  | cons b l ih =>
    obtain ⟨h1, h2⟩ := ih (Max.max a b)
    refine ⟨le_trans (le_max_left _ _) h1, ?_⟩
    intro c hc
    rcases List.mem_cons.mp hc with rfl | hc
    · exact le_trans (le_max_right _ _) h1
    · exact h2 c hc

theorem foldl_max_mem (l : List ℝ) (a : ℝ) : l.foldl Max.max a = a ∨ l.foldl Max.max a ∈ l := by
  induction l generalizing a with
  | nil => simp
  | cons b l ih =>
    rcases ih (Max.max a b) with h | h
    · rcases max_choice a b with h' | h'
      · left; simp only [List.foldl_cons]; rw [h, h']
      · right; simp only [List.foldl_cons]; rw [h, h']; simp
    · right; simp only [List.foldl_cons]; exact List.mem_cons_of_mem _ h

/-- `np.max` on a non-empty finite array is a maximal element. -/
theorem max_fin (l : List ℝ) (h : l ≠ []) :
    ∃ m, F.max (l.map fin) = .ok (fin m) ∧ m ∈ l ∧ ∀ x ∈ l, x ≤ m := by
  cases l with
  | nil => exact absurd rfl h
  | cons a l =>
    refine ⟨l.foldl Max.max a, ?_, ?_, ?_⟩
    · simp only [List.map_cons, F.max, foldl_maximum_fin]
    · rcases foldl_max_mem l a with h | h
      · rw [h]; simp
      · exact List.mem_cons_of_mem _ h
    · intro x hx
      rcases List.mem_cons.mp hx with rfl | hx
      · exact (le_foldl_max l x).1
      · exact (le_foldl_max l a).2 x hx

end F
end Poco
