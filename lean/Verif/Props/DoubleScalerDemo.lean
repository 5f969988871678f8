import Verif.Props.DoubleScaler
import Verif.Lemmas.Erf

/-! # A machine with the properties assumed in C126-C129, and what goes wrong on it -/

namespace Poco
open F Spec

theorem round53_scale (x : ℝ) (j : ℤ) : round53 (x * 2 ^ j) = round53 x * 2 ^ j := by
  have hj : (0 : ℝ) < 2 ^ j := by positivity
  have hpos : ∀ x : ℝ, 0 < x → round53 (x * 2 ^ j) = round53 x * 2 ^ j := by
    intro x hx
    have hx' : 0 < x * 2 ^ j := by positivity
    have h1 : (2 : ℝ) ^ Int.log 2 x ≤ x := by exact_mod_cast Int.zpow_log_le_self (b := 2) one_lt_two hx
    have h2 : x < (2 : ℝ) ^ (Int.log 2 x + 1) := by exact_mod_cast Int.lt_zpow_succ_log_self (b := 2) one_lt_two x
    have hlog : Int.log 2 (x * 2 ^ j) = Int.log 2 x + j := by
      apply log2_eq
      · rw [zpow_add₀ two_ne_zero]; exact mul_le_mul_of_nonneg_right h1 hj.le
      · rw [show Int.log 2 x + j + 1 = (Int.log 2 x + 1) + j by ring, zpow_add₀ two_ne_zero]
        exact mul_lt_mul_of_pos_right h2 hj
    rw [round53_pos hx', round53_pos hx, hlog, show Int.log 2 x + j - 52 = (Int.log 2 x - 52) + j by ring, zpow_add₀ two_ne_zero,
      mul_div_mul_right _ _ hj.ne', mul_assoc]
  rcases lt_trichotomy x 0 with h | h | h
  · have := hpos (-x) (by linarith)
    rw [neg_mul, round53_neg, round53_neg] at this
    linarith
  · rw [h, zero_mul, round53_zero, zero_mul]
  · exact hpos x h

theorem round53_pos_of_pos {x : ℝ} (hx : 0 < x) : 0 < round53 x := lt_of_lt_of_le (by positivity) (round53_range hx).1

/-- The machine of C122-C125 with correctly rounded `erf`. -/
noncomputable def demoErf : ArithErf where
  toArithLog := demoLog
  erf x := round53 (erfR x)
  sqrt2 := round53 (Real.sqrt 2)
  halfLog2pi := round53 (Real.log (Real.sqrt (2 * Real.pi)))

theorem demo_doubleErf : IsDoubleErf demoErf where
  logs := demo_doubleLog
  log_near' x _ := by
    have h := round53_near (Real.log x)
    refine h.trans (mul_le_mul_of_nonneg_right ?_ (abs_nonneg _))
    norm_num
  log1p_nonneg x hx := round53_nonneg (Real.log_nonneg (by linarith))
  erf_range x := by
    have h1 : round53 1 = 1 := by exact_mod_cast round53_nat 1 (by norm_num)
    constructor
    · have := round53_mono (neg_one_lt_erfR x).le
      rw [round53_neg, h1] at this
      exact this
    · have := round53_mono (erfR_lt_one x).le
      rw [h1] at this
      exact this
  sqrt2_pos := round53_pos_of_pos (by positivity)
  one_sub x hx h1 h2 := by
    show round53 (1 - x) = 1 - x
    have hx' : round53 x = x := hx
    rcases h2.eq_or_lt with h2 | h2
    · rw [h2, sub_self, round53_zero]
    have hlog : Int.log 2 x = -1 := log2_eq (by norm_num; linarith) (by norm_num; exact h2)
    rw [round53_pos (by linarith), hlog] at hx'
    set m := round (x / 2 ^ ((-1 : ℤ) - 52)) with hm
    have e1 : x = m * (2 : ℝ) ^ (-53 : ℤ) := by rw [← hx']; norm_num
    have e2 : (2 : ℝ) ^ (53 : ℤ) * 2 ^ (-53 : ℤ) = 1 := by rw [← zpow_add₀ two_ne_zero]; norm_num
    have hp : (0 : ℝ) < 2 ^ (-53 : ℤ) := by positivity
    have hm1 : (m : ℝ) ≤ 2 ^ 53 := by
      by_contra hc
      push Not at hc
      have : (2 : ℝ) ^ (53 : ℤ) * 2 ^ (-53 : ℤ) < m * 2 ^ (-53 : ℤ) := mul_lt_mul_of_pos_right (by exact_mod_cast hc) hp
      rw [e2, ← e1] at this
      linarith
    have hm0 : (0 : ℝ) ≤ m := by
      by_contra hc
      push Not at hc
      have : (m : ℝ) * 2 ^ (-53 : ℤ) < 0 := mul_neg_of_neg_of_pos hc hp
      linarith
    have hm0' : (0 : ℤ) ≤ m := by exact_mod_cast hm0
    have hm1' : m ≤ 2 ^ 53 := by exact_mod_cast hm1
    obtain ⟨k, hk⟩ : ∃ k : ℕ, (k : ℤ) = 2 ^ 53 - m := ⟨(2 ^ 53 - m).toNat, Int.toNat_of_nonneg (by omega)⟩
    have e3 : 1 - x = (k : ℝ) * 2 ^ (-53 : ℤ) := by
      have : (k : ℝ) = 2 ^ (53 : ℤ) - m := by
        have : ((k : ℤ) : ℝ) = ((2 ^ 53 - m : ℤ) : ℝ) := by rw [hk]
        push_cast at this
        rw [this]; norm_num
      rw [this, sub_mul, e2, ← e1]
    rw [e3, round53_scale, round53_nat k (by omega)]
  sub_pos x y _ _ h := round53_pos_of_pos (by linarith)
  double_exact x hx := by
    show round53 (x + x) = x + x
    have hx' : round53 x = x := hx
    have := round53_scale x 1
    rw [hx', zpow_one] at this
    rw [← mul_two]; exact this
  exp_nonneg x := round53_nonneg (Real.exp_pos x).le
  logs_double x := round53_idem _

/-! ### beyond the upper bound -/

/-- 0.1 in double precision -/
noncomputable def tenth : ℝ := 7205759403792794 * 2⁻¹ ^ 56

theorem tenth_eq : round53 (1 / 10) = tenth := by
  rw [round53_of (-4) 7205759403792794 (by norm_num) (by norm_num) (by norm_num) (by norm_num)]
  unfold tenth; norm_num

theorem round53_one : round53 1 = 1 := by exact_mod_cast round53_nat 1 (by norm_num)

/-- At `u = 64` the probability `p` rounds to 1. -/
theorem demo_p64 : invPD demoErf (fin 64) = fin 1 := by
  have h64 : round53 64 = 64 := by exact_mod_cast round53_nat 64 (by norm_num)
  have hs : ∀ j : ℤ, round53 (2 ^ j) = 2 ^ j := by
    intro j
    have := round53_scale 1 j
    rwa [one_mul, round53_one, one_mul] at this
  have he : Real.exp (-64) ≤ 2 ^ (-64 : ℤ) := by
    have h1 : Real.exp 1 ≥ 2 := by linarith [Real.exp_one_gt_d9]
    have h2 : Real.exp 64 = Real.exp 1 ^ 64 := by rw [← Real.exp_nat_mul]; norm_num
    have h3 : (2 : ℝ) ^ 64 ≤ Real.exp 64 := by rw [h2]; exact pow_le_pow_left₀ (by norm_num) h1 64
    rw [Real.exp_neg, zpow_neg]
    exact inv_anti₀ (by positivity) (by exact_mod_cast h3)
  have hE0 : 0 ≤ round53 (Real.exp (-64)) := round53_nonneg (Real.exp_pos _).le
  have hE1 : round53 (Real.exp (-64)) ≤ 2 ^ (-64 : ℤ) := by rw [← hs (-64)]; exact round53_mono he
  set E := round53 (Real.exp (-64)) with hE
  have hl : Real.log (1 + E) ≤ 2 ^ (-64 : ℤ) := by
    have := Real.log_le_sub_one_of_pos (show 0 < 1 + E by linarith)
    linarith
  have hl0 : 0 ≤ Real.log (1 + E) := Real.log_nonneg (by linarith)
  have hy1 : round53 (Real.log (1 + E)) ≤ 2 ^ (-64 : ℤ) := by rw [← hs (-64)]; exact round53_mono hl
  have hy0 : 0 ≤ round53 (Real.log (1 + E)) := round53_nonneg hl0
  set y := round53 (Real.log (1 + E)) with hy
  have hyy : round53 (0 + y) = y := by rw [zero_add, hy, round53_idem]
  have hlae : demoErf.logaddexp (fin 0) (-fin 64) = fin y := by
    unfold ArithLog.logaddexp
    rw [fin_neg, if_neg (by rw [fin_feq]; norm_num)]
    have : demoErf.round (fin 0 - fin (-64)) = fin 64 := by
      rw [fin_sub]
      show fin (round53 (0 - -64)) = fin 64
      rw [show (0 : ℝ) - -64 = 64 by norm_num, h64]
    simp only [this]
    rw [if_pos (show (fin 64 : F) > 0 from (by norm_num : (0 : ℝ) < 64))]
    show fin (round53 (0 + y)) = fin y
    rw [hyy]
  unfold invPD
  rw [hlae, fin_neg]
  show fin (round53 (Real.exp (-y))) = fin 1
  congr 1
  have hexp1 : Real.exp (-y) ≤ 1 := Real.exp_le_one_iff.mpr (by linarith)
  have hexp0 : 1 - 2 ^ (-64 : ℤ) ≤ Real.exp (-y) := by linarith [Real.add_one_le_exp (-y)]
  rcases hexp1.eq_or_lt with h | h
  · rw [h, round53_one]
  · rw [round53_of (-1) (2 ^ 53) (le_trans (by norm_num) hexp0) (lt_of_lt_of_le h (by norm_num))]
    · norm_num
    · refine le_trans ?_ (div_le_div_of_nonneg_right hexp0 (by positivity))
      norm_num
    · refine lt_of_le_of_lt (div_le_div_of_nonneg_right hexp1 (by positivity)) ?_
      norm_num

/-- **C126 fails at the upper bound.** With the bounds −1 and 0.1 (both transformed with the logit), `inverse` maps `u = 64` to a number above 0.1. -/
theorem C126_overshoot : ∃ A : ArithErf, IsDoubleErf A ∧ ∃ lo hi u x : ℝ, A.rnd lo = lo ∧ A.rnd hi = hi ∧ A.rnd u = u ∧ lo < hi ∧
    (invCoordD A .logit (fin lo) (fin hi) (fin u)).1 = fin x ∧ hi < x := by
  refine ⟨demoErf, demo_doubleErf, -1, tenth, 64, 7205759403792800 * 2⁻¹ ^ 56, ?_, ?_, ?_, ?_, ?_, ?_⟩
  · show round53 (-1) = -1
    rw [round53_neg, round53_one]
  · show round53 tenth = tenth
    rw [← tenth_eq, round53_idem]
  · show round53 64 = 64
    exact_mod_cast round53_nat 64 (by norm_num)
  · unfold tenth; norm_num
  · rw [invCoordD_both, logit_point _ _ 1 _ demo_p64]
    show fin (round53 (round53 (1 * round53 (tenth - -1)) + -1)) = _
    have h1 : round53 (tenth - -1) = 4953959590107546 * 2⁻¹ ^ 52 := by
      rw [round53_of 0 4953959590107546] <;> norm_num [tenth]
    have h2 : round53 (4953959590107546 * 2⁻¹ ^ 52) = 4953959590107546 * 2⁻¹ ^ 52 := by rw [← h1, round53_idem]
    rw [one_mul, h1, h2]
    congr 1
    rw [round53_of (-4) 7205759403792800] <;> norm_num
  · unfold tenth; norm_num

/-- The hypotheses of `C126_bounds_partial` are met. -/
example : ∃ x, (invCoordD demoErf .logit (fin (-1)) (fin 1) (fin 3)).1 = fin x ∧ -1 ≤ x := by
  obtain ⟨h, -, -⟩ := C126_bounds_partial demo_doubleErf .logit (fin 3) (by simp)
    (fun v hv => by cases hv; show round53 3 = 3; exact_mod_cast round53_nat 3 (by norm_num))
  obtain ⟨x, h1, h2, -⟩ := h (-1) 1 (by show round53 (-1) = -1; rw [round53_neg, round53_one]) round53_one (by norm_num)
  exact ⟨x, h1, h2⟩

/-- The hypotheses of `C127_round_trip` are met: bounds −1 and 0.1, mean 2, standard deviation 3, at the upper end. -/
example : ∃ y, inverseCoordD demoErf .logit (fin (-1)) (fin tenth) (fin 2) (fin 3)
      (forwardLogitD demoErf (fin (-1)) (fin tenth) (fin 2) (fin 3) (fin tenth)) = fin y ∧ |y - tenth| ≤ 1 / 10 ^ 13 := by
  obtain ⟨y, h1, h2⟩ := C127_round_trip demo_doubleErf (lo := -1) (hi := tenth) (mu := 2) (sigma := 3) (x := tenth)
    (by show round53 (-1) = -1; rw [round53_neg, round53_one]) (by show round53 tenth = tenth; rw [← tenth_eq, round53_idem])
    (by unfold tenth; norm_num) (by unfold tenth; norm_num) le_rfl (by norm_num) (by
      calc (3 : ℝ) ≤ 2 ^ 2 := by norm_num
        _ ≤ 2 ^ 500 := pow_le_pow_right₀ (by norm_num) (by norm_num)) (by norm_num)
  refine ⟨y, h1, h2.trans ?_⟩
  have ht : |tenth| ≤ 1 := by unfold tenth; rw [abs_of_pos (by positivity)]; norm_num
  have h3 : (2⁻¹ : ℝ) ^ 1000 ≤ 2⁻¹ ^ 60 := pow_le_pow_of_le_one (by norm_num) (by norm_num) (by norm_num)
  have h4 : (2⁻¹ : ℝ) ^ 47 * (1 + |2|) * (|-1| + |tenth|) ≤ 2⁻¹ ^ 47 * (1 + |2|) * (|-1| + 1) := by
    apply mul_le_mul_of_nonneg_left _ (by positivity); linarith
  refine (add_le_add h4 h3).trans ?_
  norm_num

/-- **C43 also fails strictly inside the bounds** in double precision: with the bounds −1 and `2⁻⁶⁰` the point 0 is mapped to `+inf`. -/
theorem C43_interior_infinite : ∃ A : ArithErf, IsDoubleErf A ∧ ∃ lo hi x : ℝ, A.rnd lo = lo ∧ A.rnd hi = hi ∧ A.rnd x = x ∧ lo < x ∧ x < hi ∧
    fwdLogitD A (fin lo) (fin hi) (fin x) = pinf := by
  have hs : round53 ((2 : ℝ) ^ (-60 : ℤ)) = 2 ^ (-60 : ℤ) := by
    have := round53_scale 1 (-60)
    rwa [one_mul, round53_one, one_mul] at this
  refine ⟨demoErf, demo_doubleErf, -1, 2 ^ (-60 : ℤ), 0, ?_, hs, round53_zero, by norm_num, by positivity, ?_⟩
  · show round53 (-1) = -1
    rw [round53_neg, round53_one]
  · unfold fwdLogitD
    rw [fin_sub, fin_sub]
    show demoErf.logF (demoErf.round (demoErf.round (fin (round53 (0 - -1)) / fin (round53 (2 ^ (-60 : ℤ) - -1))) /
      demoErf.round (fin 1 - demoErf.round (fin (round53 (0 - -1)) / fin (round53 (2 ^ (-60 : ℤ) - -1)))))) = pinf
    have h1 : round53 (0 - -1) = 1 := by rw [show (0 : ℝ) - -1 = 1 by norm_num, round53_one]
    have h2 : round53 ((2 : ℝ) ^ (-60 : ℤ) - -1) = 1 := by
      rw [round53_of 0 (2 ^ 52)] <;> norm_num
    rw [h1, h2, fin_div _ _ one_ne_zero, div_one]
    have h3 : demoErf.round (fin 1) = fin 1 := by show fin (round53 1) = fin 1; rw [round53_one]
    have h4 : demoErf.round (fin 0) = fin 0 := by show fin (round53 0) = fin 0; rw [round53_zero]
    rw [h3, fin_sub, sub_self, h4, fin_div_zero_pos 1 one_pos]
    rfl

end Poco
