import Verif.Props.DoubleScalerDemo
import Mathlib.Analysis.Calculus.Deriv.Inv

/-! # C128: the log-Jacobian reported by `inverse` in double precision -/

namespace Poco
open F Spec

variable {A : ArithErf}

/-- The logarithm of a slightly wrong positive number. -/
theorem log_rel_err {x y ρ : ℝ} (hx : 0 < x) (h0 : 0 ≤ ρ) (h1 : ρ ≤ 1 / 2) (h : |y - x| ≤ ρ * x) : 0 < y ∧ |Real.log y - Real.log x| ≤ 2 * ρ := by
  have e := abs_le.mp h
  have h2 : ρ * x ≤ 1 / 2 * x := mul_le_mul_of_nonneg_right h1 hx.le
  have hy : 0 < y := by linarith
  refine ⟨hy, ?_⟩
  rw [← Real.log_div hy.ne' hx.ne']
  have hr : 0 < y / x := div_pos hy hx
  have r1 : y / x ≤ 1 + ρ := by rw [div_le_iff₀ hx]; linarith
  have r2 : 1 - ρ ≤ y / x := by rw [le_div_iff₀ hx]; linarith
  have l1 := Real.log_le_sub_one_of_pos hr
  have l2 := Real.one_sub_inv_le_log_of_pos hr
  have l3 : (y / x)⁻¹ ≤ 1 + 2 * ρ := by
    refine (inv_anti₀ (by linarith) r2).trans ?_
    rw [inv_le_iff_one_le_mul₀ (by linarith)]
    have : ρ * ρ ≤ 1 / 2 * ρ := mul_le_mul_of_nonneg_right h1 h0
    have e2 : (1 + 2 * ρ) * (1 - ρ) = 1 + ρ - 2 * (ρ * ρ) := by ring
    rw [e2]; linarith
  rw [abs_le]
  constructor <;> linarith

/-- The computed logarithm of a slightly wrong positive number. -/
theorem logD_err (hA : IsDoubleErf A) {x y ρ L : ℝ} (hx : 0 < x) (h0 : 0 ≤ ρ) (h1 : ρ ≤ 1 / 2) (h : |y - x| ≤ ρ * x) (hL : |Real.log x| ≤ L) :
    0 < y ∧ |A.log y - Real.log x| ≤ 2 * ρ + 2 * uu * (L + 1) := by
  obtain ⟨hy, e1⟩ := log_rel_err hx h0 h1 h
  refine ⟨hy, ?_⟩
  have hu := uu_pos
  have e2 := hA.log_near' y hy
  have hu2 : (2⁻¹ : ℝ) ^ 52 = 2 * uu := by unfold uu; norm_num
  rw [hu2] at e2
  have e3 : |Real.log y| ≤ L + 1 := by
    have := abs_add_le (Real.log x) (Real.log y - Real.log x)
    rw [add_sub_cancel] at this
    linarith
  have e4 : 2 * uu * |Real.log y| ≤ 2 * uu * (L + 1) := mul_le_mul_of_nonneg_left e3 (by linarith)
  have := abs_add_le (A.log y - Real.log y) (Real.log y - Real.log x)
  rw [sub_add_sub_cancel] at this
  linarith

theorem exp_le_two_pow {x : ℝ} {n : ℕ} (h : x ≤ n * 0.693) : Real.exp x ≤ 2 ^ n := by
  have h2 := Real.log_two_gt_d9
  have h3 : (n : ℝ) * 0.693 ≤ n * Real.log 2 := mul_le_mul_of_nonneg_left (by linarith) (Nat.cast_nonneg n)
  calc Real.exp x ≤ Real.exp (n * Real.log 2) := Real.exp_le_exp.mpr (h.trans h3)
    _ = 2 ^ n := by rw [mul_comm, Real.exp_mul, Real.exp_log two_pos, Real.rpow_natCast]

/-- The `p` of `_inverse_both` has a small relative error. -/
theorem invPD_rel (hA : IsDoubleErf A) {v : ℝ} (hv : A.rnd v = v) (h : -700 ≤ v) :
    ∃ p, invPD A (fin v) = fin p ∧ |p - logistic v| ≤ 720 * uu * logistic v := by
  have hu := uu_pos
  have hd := hA.logs.double
  have hus : uu ≤ 1 / 1000000 := by unfold uu; norm_num
  obtain ⟨y, y1, y2, y3⟩ := softplusD hA hv
  unfold invPD
  rw [y1, fin_neg]
  refine ⟨A.exp (-y), rfl, ?_⟩
  have h1 := hd.exp_near (-y) (by linarith)
  have hu2 : (2⁻¹ : ℝ) ^ 52 = 2 * uu := by unfold uu; norm_num
  rw [hu2] at h1
  set Y := Real.log (1 + Real.exp (-v)) with hY
  have hP : logistic v = Real.exp (-Y) := logistic_eq_exp v
  have hY701 : Y ≤ 701 := by
    have h2 : 1 + Real.exp (-v) ≤ Real.exp 701 := by
      have a1 : Real.exp (-v) ≤ Real.exp 700 := Real.exp_le_exp.mpr (by linarith)
      have a2 : (1 : ℝ) ≤ Real.exp 700 := Real.one_le_exp (by norm_num)
      have a3 : Real.exp 701 = Real.exp 700 * Real.exp 1 := by rw [← Real.exp_add]; norm_num
      have a4 := Real.exp_one_gt_d9
      have a5 : Real.exp 700 * 2 ≤ Real.exp 700 * Real.exp 1 := mul_le_mul_of_nonneg_left (by linarith) (by linarith)
      linarith
    rw [hY, Real.log_le_iff_le_exp (by positivity)]
    exact h2
  have t1 : (2⁻¹ : ℝ) ^ 1074 ≤ uu * logistic v := by
    have a1 : Real.exp 701 ≤ 2 ^ 1021 := exp_le_two_pow (by norm_num)
    have a2 : (2⁻¹ : ℝ) ^ 1021 ≤ logistic v := by
      rw [hP, inv_pow]
      calc ((2 : ℝ) ^ 1021)⁻¹ ≤ (Real.exp 701)⁻¹ := inv_anti₀ (Real.exp_pos _) a1
        _ = Real.exp (-701) := (Real.exp_neg _).symm
        _ ≤ _ := Real.exp_le_exp.mpr (by linarith)
    calc (2⁻¹ : ℝ) ^ 1074 = 2⁻¹ ^ 53 * 2⁻¹ ^ 1021 := by rw [← pow_add]
      _ = uu * 2⁻¹ ^ 1021 := by unfold uu; rfl
      _ ≤ _ := mul_le_mul_of_nonneg_left a2 hu.le
  generalize (2⁻¹ : ℝ) ^ 1074 = t at *
  have hm : Max.max (-v) 0 ≤ 700 := max_le (by linarith) (by norm_num)
  have hum : uu * Max.max (-v) 0 ≤ uu * 700 := mul_le_mul_of_nonneg_left hm hu.le
  have hyY : |y - Y| ≤ 708 * uu := y3.trans (by linarith)
  have e2 := abs_le.mp hyY
  have h4 := exp_neg_diff (a := y) (b := Y) (c := Y - 708 * uu) (by linarith) (by linarith)
  have h6 : Real.exp (708 * uu) ≤ 1.01 := by
    have := Real.exp_bound_div_one_sub_of_interval (x := 708 * uu) (by linarith) (by linarith)
    refine this.trans ?_
    rw [div_le_iff₀ (by linarith)]
    linarith
  have h5 : Real.exp (-(Y - 708 * uu)) ≤ 1.01 * logistic v := by
    rw [show -(Y - 708 * uu) = 708 * uu + -Y by ring, Real.exp_add, ← hP]
    exact mul_le_mul_of_nonneg_right h6 (logistic_pos v).le
  have hp0 := logistic_pos v
  have h7 : |Real.exp (-y) - Real.exp (-Y)| ≤ 708 * uu * (1.01 * logistic v) :=
    h4.trans (mul_le_mul hyY h5 (Real.exp_pos _).le (by linarith))
  rw [← hP] at h7
  have h8 : uu * logistic v ≤ 1 / 1000000 * logistic v := mul_le_mul_of_nonneg_right hus hp0.le
  have e3 := abs_le.mp h7
  have h9 : Real.exp (-y) ≤ 1.01 * logistic v := by linarith
  have h10 : 2 * uu * Real.exp (-y) ≤ 2 * uu * (1.01 * logistic v) := mul_le_mul_of_nonneg_left h9 (by linarith)
  have e4 := abs_le.mp h1
  have h11 : 0 ≤ uu * logistic v := by positivity
  rw [abs_le]
  constructor <;> linarith

/-- The derivative of the exact inverse transformation. -/
theorem log_deriv_logit {lo hi : ℝ} (h : lo < hi) (v : ℝ) :
    Real.log (deriv (fun s => lo + (hi - lo) / (1 + Real.exp (-s))) v) = Real.log (hi - lo) + Real.log (logistic v) + Real.log (1 - logistic v) := by
  have hp : 0 < 1 + Real.exp (-v) := by positivity
  have e := Real.exp_pos (-v)
  have hd : HasDerivAt (fun s => lo + (hi - lo) / (1 + Real.exp (-s))) ((hi - lo) * (Real.exp (-v) / (1 + Real.exp (-v)) ^ 2)) v := by
    have h1 : HasDerivAt (fun s : ℝ => -s) (-1) v := hasDerivAt_neg v
    have h2 := ((h1.exp.const_add 1).inv hp.ne').const_mul (hi - lo)
    have h3 := h2.const_add lo
    have h4 : (hi - lo) * (-(Real.exp (-v) * -1) / (1 + Real.exp (-v)) ^ 2) = (hi - lo) * (Real.exp (-v) / (1 + Real.exp (-v)) ^ 2) := by ring
    rw [h4] at h3
    exact h3
  rw [hd.deriv]
  have h1 : 1 - logistic v = Real.exp (-v) / (1 + Real.exp (-v)) := by unfold logistic; field_simp; ring
  have h2 : Real.exp (-v) / (1 + Real.exp (-v)) ^ 2 = logistic v * (1 - logistic v) := by
    rw [h1]; unfold logistic; field_simp
  have h3 : 0 < 1 - logistic v := by rw [h1]; positivity
  rw [h2, Real.log_mul (by linarith) (mul_pos (logistic_pos v) h3).ne', Real.log_mul (logistic_pos v).ne' h3.ne', add_assoc]

/-- **C128 (partial: unconstrained values between −700 and 30; see `C128_upper_infinite`).** In double precision, for a parameter with two finite bounds and the
logit transformation, the log-Jacobian reported by `inverse` is finite and equals the logarithm of the derivative of the exact inverse
transformation up to `2⁻⁴⁰ + 2⁻⁴⁸·exp(u)`. -/
theorem C128_jacobian_partial (hA : IsDoubleErf A) {lo hi u : ℝ} (hlo : A.rnd lo = lo) (hhi : A.rnd hi = hi) (hlt : lo < hi)
    (hw : 2⁻¹ ^ 900 ≤ hi - lo) (hw1 : hi - lo ≤ 2 ^ 900) (hu : A.rnd u = u) (h0 : -700 ≤ u) (h1 : u ≤ 30) :
    ∃ J, (invCoordD A .logit (fin lo) (fin hi) (fin u)).2 = fin J ∧
      |J - Real.log (deriv (fun s => lo + (hi - lo) / (1 + Real.exp (-s))) u)| ≤ 2⁻¹ ^ 40 + 2⁻¹ ^ 48 * Real.exp u := by
  have hup := uu_pos
  have hd := hA.logs.double
  have hus : uu ≤ 1 / 1000000 := by unfold uu; norm_num
  have heta0 := eta_pos
  have heta : eta ≤ uu / 4 := by
    have : uu / 4 = 2⁻¹ ^ 55 := by unfold uu; norm_num
    rw [this]; exact eta_le _ (by norm_num)
  have hetaw : eta ≤ uu * (hi - lo) := by
    have a1 : eta ≤ uu * 2⁻¹ ^ 900 := by unfold uu; rw [← pow_add]; exact eta_le _ (by norm_num)
    exact a1.trans (mul_le_mul_of_nonneg_left hw hup.le)
  have hlog2 := Real.log_two_lt_d9
  have hlog20 := Real.log_two_gt_d9
  have hLw : |Real.log (hi - lo)| ≤ 624 := by
    have a1 := Real.log_le_log (by positivity) hw
    have a2 := Real.log_le_log (by linarith) hw1
    rw [Real.log_pow, Real.log_inv] at a1
    rw [Real.log_pow] at a2
    push_cast at a1 a2
    rw [abs_le]
    clear hw hw1
    constructor <;> linarith
  clear hw hw1
  rw [invCoordD_both, log_deriv_logit hlt]
  obtain ⟨p, p1, p2⟩ := invPD_rel hA hu h0
  obtain ⟨p', q1, q2, q3, q4, q5⟩ := invPD_fin hA hu
  have hpp : p' = p := by rw [p1] at q1; cases q1; rfl
  subst hpp
  clear q1
  show ∃ J, A.round (A.round (A.logF (A.round (fin hi - fin lo)) + A.logF (invPD A (fin u))) + A.logF (A.round (fin 1 - invPD A (fin u)))) = fin J ∧ _
  rw [p1, fin_sub, fin_sub]
  have hP0 := logistic_pos u
  set P := logistic u with hP
  -- the three logarithms
  have eW := hd.err (hi - lo)
  have hwpos : 0 < hi - lo := by linarith
  rw [abs_of_pos hwpos] at eW
  obtain ⟨w0, w1⟩ := logD_err hA (ρ := 2 * uu) hwpos (by linarith) (by linarith) (eW.trans (by linarith)) hLw
  have hQ : (1 - P) * (1 + Real.exp u) = 1 := by
    have := logistic_neg u
    rw [← hP] at this
    rw [← this]
    unfold logistic
    rw [neg_neg]
    have := Real.exp_pos u
    field_simp
  have heu := Real.exp_pos u
  have hQ0 : 0 < 1 - P := by
    by_contra hc
    have := mul_nonpos_of_nonpos_of_nonneg (not_lt.mp hc) (show 0 ≤ 1 + Real.exp u by linarith)
    linarith
  have hLQ : Real.log (1 - P) = -Real.log (1 + Real.exp u) := by
    rw [← Real.log_inv]; congr 1; exact eq_inv_of_mul_eq_one_left hQ
  have hLP : Real.log P = -Real.log (1 + Real.exp (-u)) := by
    rw [hP, logistic_eq_exp, Real.log_exp]
  have hsoft : ∀ s c : ℝ, s ≤ c → 0 ≤ c → Real.log (1 + Real.exp s) ≤ c + 1 := by
    intro s c hs hc
    rw [Real.log_le_iff_le_exp (by positivity)]
    have a1 : Real.exp s ≤ Real.exp c := Real.exp_le_exp.mpr hs
    have a2 : (1 : ℝ) ≤ Real.exp c := Real.one_le_exp hc
    have a4 := Real.exp_one_gt_d9
    rw [Real.exp_add]
    have a5 : Real.exp c * 2 ≤ Real.exp c * Real.exp 1 := mul_le_mul_of_nonneg_left (by linarith) (by linarith)
    linarith
  have hbP : |Real.log P| ≤ 701 := by
    rw [hLP, abs_neg, abs_of_nonneg (Real.log_nonneg (by linarith [Real.exp_pos (-u)]))]
    linarith [hsoft (-u) 700 (by linarith) (by norm_num)]
  have hbQ : |Real.log (1 - P)| ≤ 31 := by
    rw [hLQ, abs_neg, abs_of_nonneg (Real.log_nonneg (by linarith))]
    linarith [hsoft u 30 h1 (by norm_num)]
  obtain ⟨r0, r1⟩ := logD_err hA (ρ := 720 * uu) hP0 (by linarith) (by linarith) p2 hbP
  have hE : Real.exp u ≤ 2 ^ 44 := exp_le_two_pow (by norm_num; linarith)
  have huE : uu * Real.exp u ≤ 1 / 512 := by
    calc uu * Real.exp u ≤ uu * 2 ^ 44 := mul_le_mul_of_nonneg_left hE hup.le
      _ = 1 / 512 := by unfold uu; norm_num
  have huE0 : 0 ≤ uu * Real.exp u := by positivity
  have eQ := hd.err (1 - p')
  rw [abs_of_nonneg (show 0 ≤ 1 - p' by linarith)] at eQ
  have eQ1 : uu * (1 - p') ≤ uu * 1 := mul_le_mul_of_nonneg_left (by linarith) hup.le
  have eQ2 : |A.rnd (1 - p') - (1 - P)| ≤ 15.5 * uu := by
    have b1 := abs_le.mp eQ
    have b2 := abs_le.mp q5
    rw [abs_le]; constructor <;> linarith
  have eQ3 : 15.5 * uu = (15.5 * (uu + uu * Real.exp u)) * (1 - P) := by linear_combination (-15.5 * uu) * hQ
  obtain ⟨s0, s1⟩ := logD_err hA (ρ := 15.5 * (uu + uu * Real.exp u)) hQ0 (by linarith) (by linarith) (eQ2.trans eQ3.le) hbQ
  -- putting them together
  refine ⟨A.rnd (A.rnd (A.log (A.rnd (hi - lo)) + A.log p') + A.log (A.rnd (1 - p'))), ?_, ?_⟩
  · show A.round (A.round (A.logF (fin (A.rnd (hi - lo))) + A.logF (fin p')) + A.logF (fin (A.rnd (1 - p')))) = _
    rw [logF_pos w0, logF_pos r0, logF_pos s0]
    rfl
  have c1 := abs_le.mp w1
  have c2 := abs_le.mp r1
  have c3 := abs_le.mp s1
  have d1 := abs_le.mp hLw
  have d2 := abs_le.mp hbP
  have d3 := abs_le.mp hbQ
  have f1 := hd.err (A.log (A.rnd (hi - lo)) + A.log p')
  have g1 : |A.log (A.rnd (hi - lo)) + A.log p'| ≤ 1326 := by rw [abs_le]; constructor <;> linarith
  have f2 : uu * |A.log (A.rnd (hi - lo)) + A.log p'| ≤ uu * 1326 := mul_le_mul_of_nonneg_left g1 hup.le
  have k1 := abs_le.mp f1
  have f3 := hd.err (A.rnd (A.log (A.rnd (hi - lo)) + A.log p') + A.log (A.rnd (1 - p')))
  have g3 : |A.rnd (A.log (A.rnd (hi - lo)) + A.log p') + A.log (A.rnd (1 - p'))| ≤ 1359 := by rw [abs_le]; constructor <;> linarith
  have f4 : uu * |A.rnd (A.log (A.rnd (hi - lo)) + A.log p') + A.log (A.rnd (1 - p'))| ≤ uu * 1359 := mul_le_mul_of_nonneg_left g3 hup.le
  have k3 := abs_le.mp f3
  have h40 : (2⁻¹ : ℝ) ^ 40 = 8192 * uu := by unfold uu; norm_num
  have h48 : (2⁻¹ : ℝ) ^ 48 * Real.exp u = 32 * (uu * Real.exp u) := by unfold uu; ring
  rw [h40, h48, abs_le]
  constructor <;> linarith

/-- **C128 fails near the upper bound.** At `u = 64` the log-Jacobian reported by `inverse` is `-inf`, whatever the two bounds: the computed `p` is 1. -/
theorem C128_upper_infinite : ∃ A : ArithErf, IsDoubleErf A ∧ ∃ u : ℝ, A.rnd u = u ∧ ∀ lo hi, A.rnd lo = lo → A.rnd hi = hi → lo < hi →
    (invCoordD A .logit (fin lo) (fin hi) (fin u)).2 = ninf ∧ 0 < deriv (fun s => lo + (hi - lo) / (1 + Real.exp (-s))) u := by
  refine ⟨demoErf, demo_doubleErf, 64, ?_, ?_⟩
  · show round53 64 = 64
    exact_mod_cast round53_nat 64 (by norm_num)
  intro lo hi hlo hhi hlt
  constructor
  · rw [invCoordD_both]
    show demoErf.round (demoErf.round (demoErf.logF (demoErf.round (fin hi - fin lo)) + demoErf.logF (invPD demoErf (fin 64))) +
      demoErf.logF (demoErf.round (fin 1 - invPD demoErf (fin 64)))) = ninf
    rw [demo_p64, fin_sub, fin_sub]
    show demoErf.round (demoErf.round (demoErf.logF (fin (demoErf.rnd (hi - lo))) + demoErf.logF (fin 1)) + demoErf.logF (fin (round53 (1 - 1)))) = ninf
    rw [logF_pos (demo_doubleErf.sub_pos lo hi hlo hhi hlt), logF_pos one_pos, sub_self, round53_zero]
    have : demoErf.logF (fin 0) = ninf := by simp [ArithLog.logF]
    rw [this]
    rfl
  · have h1 := log_deriv_logit hlt 64
    have e := Real.exp_pos (-64)
    have hd : HasDerivAt (fun s => lo + (hi - lo) / (1 + Real.exp (-s))) ((hi - lo) * (Real.exp (-64) / (1 + Real.exp (-64)) ^ 2)) 64 := by
      have h1 : HasDerivAt (fun s : ℝ => -s) (-1) 64 := hasDerivAt_neg 64
      have h2 := ((h1.exp.const_add 1).inv (by positivity)).const_mul (hi - lo)
      have h3 := h2.const_add lo
      have h4 : (hi - lo) * (-(Real.exp (-64) * -1) / (1 + Real.exp (-64)) ^ 2) = (hi - lo) * (Real.exp (-64) / (1 + Real.exp (-64)) ^ 2) := by ring
      rw [h4] at h3
      exact h3
    rw [hd.deriv]
    exact mul_pos (by linarith) (by positivity)

/-- The hypotheses of `C128_jacobian_partial` are met: the unit interval, `u = 30`. -/
example : ∃ J, (invCoordD demoErf .logit (fin 0) (fin 1) (fin 30)).2 = fin J ∧
    |J - Real.log (deriv (fun s => (0 : ℝ) + (1 - 0) / (1 + Real.exp (-s))) 30)| ≤ 2⁻¹ ^ 40 + 2⁻¹ ^ 48 * Real.exp 30 := by
  have hp : (2⁻¹ : ℝ) ^ 900 ≤ 1 := pow_le_one₀ (by norm_num) (by norm_num)
  have hq : (1 : ℝ) ≤ 2 ^ 900 := one_le_pow₀ (by norm_num)
  refine C128_jacobian_partial demo_doubleErf round53_zero round53_one (by norm_num) (by rw [sub_zero]; exact hp) (by rw [sub_zero]; exact hq) ?_
    (by norm_num) le_rfl
  show round53 30 = 30
  exact_mod_cast round53_nat 30 (by norm_num)

/-- **C128**, the other parameters.  For a parameter with one bound or none the reported log-Jacobian is exactly the logarithm of the absolute value of the
derivative of the exact map, at every `u` and on every machine; a parameter without bounds is not changed at all. -/
theorem C128_exact (A : ArithErf) (t : Transform) (u : ℝ) :
    (∀ lo : ℝ, (invCoordD A t (fin lo) pinf (fin u)).2 = fin (Real.log |deriv (fun s => Real.exp s + lo) u|)) ∧
    (∀ hi : ℝ, (invCoordD A t ninf (fin hi) (fin u)).2 = fin (Real.log |deriv (fun s => hi - Real.exp s) u|)) ∧
    invCoordD A t ninf pinf (fin u) = (fin u, fin (Real.log |deriv (fun s : ℝ => s) u|)) := by
  refine ⟨fun lo => ?_, fun hi => ?_, ?_⟩
  · rw [invCoordD_left]
    have h : deriv (fun s => Real.exp s + lo) u = Real.exp u := ((Real.hasDerivAt_exp u).add_const lo).deriv
    rw [h, abs_of_pos (Real.exp_pos u), Real.log_exp]
    rfl
  · rw [invCoordD_right]
    have h : deriv (fun s => hi - Real.exp s) u = -Real.exp u := ((Real.hasDerivAt_exp u).const_sub hi).deriv
    rw [h, abs_neg, abs_of_pos (Real.exp_pos u), Real.log_exp]
    rfl
  · have h : deriv (fun s : ℝ => s) u = 1 := deriv_id u
    rw [h, abs_one, Real.log_one]
    simp [invCoordD, createMasks, F.isfinite]

/-- A parameter bounded above by 1, at `u = -3`: the derivative there is negative. -/
example : (invCoordD demoErf .probit ninf (fin 1) (fin (-3))).2 = fin (-3) ∧ deriv (fun s => (1 : ℝ) - Real.exp s) (-3) < 0 := by
  have h : deriv (fun s => (1 : ℝ) - Real.exp s) (-3) = -Real.exp (-3) := ((Real.hasDerivAt_exp (-3)).const_sub 1).deriv
  refine ⟨?_, by rw [h]; linarith [Real.exp_pos (-3)]⟩
  rw [(C128_exact demoErf .probit (-3)).2.1 1, h, abs_neg, abs_of_pos (Real.exp_pos _), Real.log_exp]

end Poco
