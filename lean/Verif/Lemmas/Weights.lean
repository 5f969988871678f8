import Verif.Lemmas.Float
import Verif.Model.Tools
import Verif.Spec.Weights
import Mathlib.Algebra.Order.BigOperators.Group.List
import Mathlib.Algebra.Order.Ring.Pow
import Mathlib.Algebra.BigOperators.Ring.List

/-! Lemmas on weights: ESS, USS and normalisation over the reals, and the model functions on finite input. -/

namespace Poco
open F Spec

theorem list_sum_sq_nonneg (w : List ℝ) : 0 ≤ (w.map (· ^ 2)).sum :=
  List.sum_nonneg (by simp only [List.mem_map]; rintro x ⟨y, -, rfl⟩; positivity)

theorem list_sum_map_mul (c : ℝ) (w : List ℝ) : (w.map (c * ·)).sum = c * w.sum := by
  rw [List.sum_map_mul_left]; simp

theorem list_sum_map_div (c : ℝ) (w : List ℝ) : (w.map (· / c)).sum = w.sum / c := by
  induction w with
  | nil => simp
  | cons a w ih => simp [ih, add_div]

theorem list_sum_map_sq_div (c : ℝ) (w : List ℝ) :
    ((w.map (· / c)).map (· ^ 2)).sum = (w.map (· ^ 2)).sum / c ^ 2 := by
  induction w with
  | nil => simp
  | cons a w ih => simp only [List.map_cons, List.sum_cons, ih, add_div, div_pow]

theorem list_sumsq_le_sq_sum (w : List ℝ) (h : ∀ x ∈ w, 0 ≤ x) : (w.map (· ^ 2)).sum ≤ w.sum ^ 2 := by
  induction w with
  | nil => simp
  | cons a w ih =>
    have ha := h a (by simp)
    have hw : ∀ x ∈ w, 0 ≤ x := fun x hx => h x (by simp [hx])
    have hs : 0 ≤ w.sum := List.sum_nonneg hw
    have := ih hw
    simp only [List.map_cons, List.sum_cons]
    nlinarith [mul_nonneg ha hs]

theorem list_sumsq_pos (w : List ℝ) (hs : w.sum ≠ 0) : 0 < (w.map (· ^ 2)).sum := by
  induction w with
  | nil => simp at hs
  | cons a w ih =>
    simp only [List.map_cons, List.sum_cons] at *
    by_cases ha : a = 0
    · subst ha
      simp only [zero_add] at hs
      have := ih hs
      simpa using this
    · have := list_sum_sq_nonneg w
      have : 0 < a ^ 2 := by positivity
      linarith

/-- Variance identity. -/
theorem list_variance (w : List ℝ) (m : ℝ) :
    (w.map fun x => (x - m) ^ 2).sum = (w.map (· ^ 2)).sum - 2 * m * w.sum + w.length * m ^ 2 := by
  induction w with
  | nil => simp
  | cons a w ih =>
    simp only [List.map_cons, List.sum_cons, ih, List.length_cons, Nat.cast_add, Nat.cast_one]
    ring

theorem list_sum_sq_eq_zero {w : List ℝ} {m : ℝ} (h : (w.map fun x => (x - m) ^ 2).sum = 0) : ∀ x ∈ w, x = m := by
  induction w with
  | nil => simp
  | cons a w ih =>
    simp only [List.map_cons, List.sum_cons] at h
    have h1 : 0 ≤ (w.map fun x => (x - m) ^ 2).sum :=
      List.sum_nonneg (by simp only [List.mem_map]; rintro x ⟨y, -, rfl⟩; positivity)
    have h2 : (a - m) ^ 2 = 0 := by nlinarith [sq_nonneg (a - m)]
    have h3 : (w.map fun x => (x - m) ^ 2).sum = 0 := by linarith
    intro x hx
    rcases List.mem_cons.mp hx with rfl | hx
    · have := pow_eq_zero_iff (two_ne_zero) |>.mp h2; linarith
    · exact ih h3 x hx

theorem list_sq_sum_le (w : List ℝ) : w.sum ^ 2 ≤ w.length * (w.map (· ^ 2)).sum := by
  by_cases hn : w.length = 0
  · have := List.length_eq_zero_iff.mp hn; subst this; simp
  · have hn' : (0 : ℝ) < w.length := by exact_mod_cast Nat.pos_of_ne_zero hn
    have h := list_variance w (w.sum / w.length)
    have h0 : 0 ≤ (w.map fun x => (x - w.sum / w.length) ^ 2).sum :=
      List.sum_nonneg (by simp only [List.mem_map]; rintro x ⟨y, -, rfl⟩; positivity)
    rw [h] at h0
    have : (w.map (· ^ 2)).sum - 2 * (w.sum / w.length) * w.sum + w.length * (w.sum / w.length) ^ 2
        = (w.map (· ^ 2)).sum - w.sum ^ 2 / w.length := by field_simp; ring
    rw [this] at h0
    have h1 : w.sum ^ 2 / w.length ≤ (w.map (· ^ 2)).sum := by linarith
    rw [div_le_iff₀ hn'] at h1
    linarith

theorem list_const_of_sq_sum_eq (w : List ℝ) (h : w.sum ^ 2 = w.length * (w.map (· ^ 2)).sum) :
    ∀ x ∈ w, ∀ y ∈ w, x = y := by
  by_cases hn : w.length = 0
  · have := List.length_eq_zero_iff.mp hn; subst this; simp
  · have hn' : (w.length : ℝ) ≠ 0 := by exact_mod_cast hn
    have h1 := list_variance w (w.sum / w.length)
    have : (w.map (· ^ 2)).sum - 2 * (w.sum / w.length) * w.sum + w.length * (w.sum / w.length) ^ 2
        = (w.map (· ^ 2)).sum - w.sum ^ 2 / w.length := by field_simp; ring
    rw [this, h] at h1
    have h2 : (w.map fun x => (x - w.sum / w.length) ^ 2).sum = 0 := by
      rw [h1]; field_simp; ring
    intro x hx y hy
    rw [list_sum_sq_eq_zero h2 x hx, list_sum_sq_eq_zero h2 y hy]

theorem list_sum_const (w : List ℝ) (c : ℝ) (h : ∀ x ∈ w, x = c) : w.sum = w.length * c := by
  rw [List.eq_replicate_of_mem h]; simp

theorem list_sumsq_const (w : List ℝ) (c : ℝ) (h : ∀ x ∈ w, x = c) : (w.map (· ^ 2)).sum = w.length * c ^ 2 := by
  rw [List.eq_replicate_of_mem h]; simp

theorem list_all_zero_of_sum_zero {w : List ℝ} (h : ∀ x ∈ w, 0 ≤ x) (hs : w.sum = 0) : ∀ x ∈ w, x = 0 := by
  induction w with
  | nil => simp
  | cons a w ih =>
    have ha := h a (by simp)
    have hw : ∀ x ∈ w, 0 ≤ x := fun x hx => h x (by simp [hx])
    have hs' : 0 ≤ w.sum := List.sum_nonneg hw
    simp only [List.sum_cons] at hs
    intro x hx
    rcases List.mem_cons.mp hx with rfl | hx
    · linarith
    · exact ih hw (by linarith) x hx

theorem filter_ne_zero_nil {w : List ℝ} (h : ∀ x ∈ w, x = 0) : w.filter (· ≠ 0) = [] := by
  rw [List.filter_eq_nil_iff]; intro a ha; simp [h a ha]

theorem sumsq_eq_sq_sum_iff (w : List ℝ) (h : ∀ x ∈ w, 0 ≤ x) :
    (w.map (· ^ 2)).sum = w.sum ^ 2 ↔ (w.filter (· ≠ 0)).length ≤ 1 := by
  induction w with
  | nil => simp
  | cons a w ih =>
    have ha := h a (by simp)
    have hw : ∀ x ∈ w, 0 ≤ x := fun x hx => h x (by simp [hx])
    have hs : 0 ≤ w.sum := List.sum_nonneg hw
    have hle := list_sumsq_le_sq_sum w hw
    by_cases ha0 : a = 0
    · subst ha0; simpa using ih hw
    · have hapos : 0 < a := lt_of_le_of_ne ha (Ne.symm ha0)
      simp only [List.map_cons, List.sum_cons]
      have e1 : (List.filter (fun x => decide (x ≠ 0)) (a :: w)).length
          = (List.filter (fun x => decide (x ≠ 0)) w).length + 1 := by simp [ha0]
      rw [e1]
      constructor
      · intro he
        have hs0 : w.sum = 0 := by nlinarith [mul_nonneg hapos.le hs]
        rw [filter_ne_zero_nil (list_all_zero_of_sum_zero hw hs0)]; simp
      · intro hl
        have hf : w.filter (fun x => decide (x ≠ 0)) = [] := by
          apply List.length_eq_zero_iff.mp; omega
        have hz : ∀ x ∈ w, x = 0 := by
          intro x hx
          have := (List.filter_eq_nil_iff.mp hf) x hx
          simpa using this
        rw [list_sum_const w 0 hz, list_sumsq_const w 0 hz]; ring

/-! ### the model functions on finite input -/

theorem normalize_fin (w : List ℝ) (hs : w.sum ≠ 0) :
    normalize (w.map fin) = (w.map (· / w.sum)).map fin := by
  simp only [normalize, sum_fin, List.map_map]
  apply List.map_congr_left
  intro a _
  exact fin_div _ _ hs

theorem map_sq_fin (w : List ℝ) : (w.map fin).map sq = (w.map (· ^ 2)).map fin := by
  simp

theorem invSumSq_fin (w : List ℝ) (hs : w.sum ≠ 0) : invSumSq (w.map fin) = fin (1 / (w.map (· ^ 2)).sum) := by
  simp only [invSumSq, map_sq_fin, sum_fin]
  exact fin_div _ _ (list_sumsq_pos w hs).ne'

theorem Spec.IsWeights.ne_nil {w : List ℝ} (h : IsWeights w) : w ≠ [] := by
  rintro rfl; simpa using h.2

theorem Spec.IsWeights.normalize {w : List ℝ} (h : IsWeights w) : IsWeights (w.map (· / w.sum)) := by
  refine ⟨?_, ?_⟩
  · intro x hx
    obtain ⟨y, hy, rfl⟩ := List.mem_map.mp hx
    exact div_nonneg (h.1 y hy) h.2.le
  · rw [list_sum_map_div, div_self h.2.ne']; norm_num

theorem sum_normalized {w : List ℝ} (hs : w.sum ≠ 0) : (w.map (· / w.sum)).sum = 1 := by
  rw [list_sum_map_div, div_self hs]

theorem inv_sumsq_normalized {w : List ℝ} (_hs : w.sum ≠ 0) :
    1 / ((w.map (· / w.sum)).map (· ^ 2)).sum = ess w := by
  rw [list_sum_map_sq_div, ess, one_div, inv_div]

/-- The model's ESS on finite weights with non-zero sum. -/
theorem effectiveSampleSize_fin (w : List ℝ) (hs : w.sum ≠ 0) :
    effectiveSampleSize (w.map fin) = ((w.map (· / w.sum)).map fin, fin (ess w)) := by
  simp only [effectiveSampleSize, normalize_fin w hs]
  rw [invSumSq_fin _ (by rw [sum_normalized hs]; norm_num), inv_sumsq_normalized hs]

theorem one_le_ess {w : List ℝ} (h : IsWeights w) : 1 ≤ ess w := by
  rw [ess, le_div_iff₀ (list_sumsq_pos w h.2.ne'), one_mul]
  exact list_sumsq_le_sq_sum w h.1

theorem ess_le_length {w : List ℝ} (h : IsWeights w) : ess w ≤ w.length := by
  rw [ess, div_le_iff₀ (list_sumsq_pos w h.2.ne')]
  exact list_sq_sum_le w

theorem ess_pos {w : List ℝ} (h : IsWeights w) : 0 < ess w := lt_of_lt_of_le one_pos (one_le_ess h)

theorem ess_scale (c : ℝ) (hc : c ≠ 0) (w : List ℝ) : ess (w.map (c * ·)) = ess w := by
  have : ((w.map (c * ·)).map (· ^ 2)).sum = c ^ 2 * (w.map (· ^ 2)).sum := by
    rw [← list_sum_map_mul]; simp [mul_pow, Function.comp_def]
  rw [ess, ess, this, list_sum_map_mul, mul_pow]
  exact mul_div_mul_left _ _ (pow_ne_zero 2 hc)

theorem ess_eq_length_iff {w : List ℝ} (h : IsWeights w) : ess w = w.length ↔ ∀ x ∈ w, ∀ y ∈ w, x = y := by
  have hq := list_sumsq_pos w h.2.ne'
  rw [ess, div_eq_iff hq.ne']
  constructor
  · exact list_const_of_sq_sum_eq w
  · intro hc
    cases w with
    | nil => simp
    | cons a l =>
      have : ∀ x ∈ a :: l, x = a := fun x hx => hc x hx a (by simp)
      rw [list_sum_const _ a this, list_sumsq_const _ a this]; ring

theorem ess_eq_one_iff {w : List ℝ} (h : IsWeights w) : ess w = 1 ↔ (w.filter (· ≠ 0)).length = 1 := by
  have hq := list_sumsq_pos w h.2.ne'
  rw [ess, div_eq_iff hq.ne', one_mul, eq_comm, sumsq_eq_sq_sum_iff w h.1]
  constructor
  · intro hl
    rcases Nat.lt_or_ge (w.filter (· ≠ 0)).length 1 with h0 | h0
    · exfalso
      have hf : w.filter (fun x => decide (x ≠ 0)) = [] := List.length_eq_zero_iff.mp (by omega)
      have hz : ∀ x ∈ w, x = 0 := by
        intro x hx
        have := (List.filter_eq_nil_iff.mp hf) x hx
        simpa using this
      have := list_sum_const w 0 hz
      have h2 := h.2
      rw [this] at h2; simp at h2
    · omega
  · intro hl; omega

end Poco
