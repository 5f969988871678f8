import Verif.Spec.DoubleScaler
import Verif.Lemmas.DoubleLogw

/-! Rounding errors of the logistic transformation (for C126-C128). -/

namespace Poco
open F Spec

variable {A : ArithErf}

/-- The logistic function. -/
noncomputable def logistic (s : ℝ) : ℝ := 1 / (1 + Real.exp (-s))

theorem logistic_pos (s : ℝ) : 0 < logistic s := by unfold logistic; positivity
theorem logistic_le_one (s : ℝ) : logistic s ≤ 1 := by
  unfold logistic
  rw [div_le_one (by positivity)]
  linarith [Real.exp_pos (-s)]

theorem logistic_neg (s : ℝ) : logistic (-s) = 1 - logistic s := by
  unfold logistic
  have h : Real.exp s * Real.exp (-s) = 1 := by rw [← Real.exp_add]; simp
  have h1 := Real.exp_pos s
  have h2 := Real.exp_pos (-s)
  rw [neg_neg]
  field_simp
  linear_combination -h

theorem logistic_eq_exp (s : ℝ) : logistic s = Real.exp (-Real.log (1 + Real.exp (-s))) := by
  unfold logistic
  rw [Real.exp_neg (Real.log _), Real.exp_log (by positivity), one_div]

theorem logistic_log {r : ℝ} (hr : 0 < r) : logistic (Real.log r) = r / (1 + r) := by
  unfold logistic
  rw [Real.exp_neg, Real.exp_log hr]
  field_simp
  ring

theorem exp_neg_diff {a b c : ℝ} (ha : c ≤ a) (hb : c ≤ b) : |Real.exp (-a) - Real.exp (-b)| ≤ |a - b| * Real.exp (-c) := by
  wlog hab : a ≤ b with H
  · rw [abs_sub_comm, abs_sub_comm a]; exact H hb ha (le_of_not_ge hab)
  have h1 : Real.exp (-b) ≤ Real.exp (-a) := Real.exp_le_exp.mpr (by linarith)
  rw [abs_of_nonneg (by linarith), abs_of_nonpos (by linarith)]
  have h2 : Real.exp (-b) = Real.exp (-a) * Real.exp (a - b) := by rw [← Real.exp_add]; ring_nf
  have h3 := Real.add_one_le_exp (a - b)
  have h4 : Real.exp (-a) ≤ Real.exp (-c) := Real.exp_le_exp.mpr (by linarith)
  have h5 := Real.exp_pos (-a)
  calc Real.exp (-a) - Real.exp (-b) = Real.exp (-a) * (1 - Real.exp (a - b)) := by rw [h2]; ring
    _ ≤ Real.exp (-a) * (b - a) := mul_le_mul_of_nonneg_left (by linarith) h5.le
    _ ≤ Real.exp (-c) * (b - a) := mul_le_mul_of_nonneg_right h4 (by linarith)
    _ = -(a - b) * Real.exp (-c) := by ring

theorem mul_exp_neg_half {x : ℝ} (hx : 0 ≤ x) : x * Real.exp (-(x / 2)) ≤ 1 := by
  have h1 := Real.add_one_le_exp (x / 2 - 1)
  have h2 : Real.exp (x / 2) = Real.exp (x / 2 - 1) * Real.exp 1 := by rw [← Real.exp_add]; ring_nf
  have h3 := Real.exp_one_gt_d9
  have h4 : x ≤ Real.exp (x / 2) := by
    rw [h2]
    calc x = (x / 2 - 1 + 1) * 2 := by ring
      _ ≤ Real.exp (x / 2 - 1) * 2 := mul_le_mul_of_nonneg_right h1 (by norm_num)
      _ ≤ _ := mul_le_mul_of_nonneg_left (by linarith) (Real.exp_pos _).le
  rw [Real.exp_neg, ← div_eq_mul_inv, div_le_one (Real.exp_pos _)]
  exact h4

theorem logistic_diff (s t : ℝ) : |logistic s - logistic t| ≤ |Real.exp (-s) - Real.exp (-t)| := by
  unfold logistic
  have h1 := Real.exp_pos (-s)
  have h2 := Real.exp_pos (-t)
  have h3 : 1 / (1 + Real.exp (-s)) - 1 / (1 + Real.exp (-t)) = (Real.exp (-t) - Real.exp (-s)) / ((1 + Real.exp (-s)) * (1 + Real.exp (-t))) := by
    field_simp; ring
  rw [h3, abs_div, abs_sub_comm]
  apply div_le_self (abs_nonneg _)
  rw [abs_of_pos (by positivity)]
  have : 0 < Real.exp (-s) * Real.exp (-t) := by positivity
  linarith

theorem logistic_lip_nonneg {s t : ℝ} (ht : 0 ≤ t) (hs : 0 ≤ s) : |logistic s - logistic t| ≤ |s - t| := by
  refine (logistic_diff s t).trans ?_
  have := exp_neg_diff (c := 0) hs ht
  simpa using this

theorem logistic_lip (s t : ℝ) : |logistic s - logistic t| ≤ |s - t| := by
  have hneg : ∀ {s t : ℝ}, s ≤ 0 → t ≤ 0 → |logistic s - logistic t| ≤ |s - t| := by
    intro s t hs ht
    have := logistic_lip_nonneg (s := -s) (t := -t) (by linarith) (by linarith)
    rw [logistic_neg, logistic_neg, abs_sub_comm, abs_sub_comm (-s)] at this
    rwa [show 1 - logistic t - (1 - logistic s) = logistic s - logistic t by ring, show -t - -s = s - t by ring] at this
  have hmix : ∀ {s t : ℝ}, s ≤ 0 → 0 ≤ t → |logistic s - logistic t| ≤ |s - t| := by
    intro s t hs ht
    have h1 := abs_le.mp (hneg hs le_rfl)
    have h2 := abs_le.mp (logistic_lip_nonneg ht le_rfl)
    rw [show |s - 0| = -s by rw [sub_zero, abs_of_nonpos hs]] at h1
    rw [show |0 - t| = t by rw [zero_sub, abs_neg, abs_of_nonneg ht]] at h2
    rw [abs_of_nonpos (show s - t ≤ 0 by linarith), abs_le]
    constructor <;> linarith
  rcases le_total s 0 with hs | hs <;> rcases le_total t 0 with ht | ht
  · exact hneg hs ht
  · exact hmix hs ht
  · rw [abs_sub_comm, abs_sub_comm s]; exact hmix ht hs
  · exact logistic_lip_nonneg ht hs

theorem logistic_rel_nonneg {s t ε : ℝ} (ht : 0 ≤ t) (h0 : 0 ≤ ε) (h1 : ε ≤ 1 / 2) (h : |s - t| ≤ ε * t) : |logistic s - logistic t| ≤ ε := by
  have h2 : ε * t ≤ 1 / 2 * t := mul_le_mul_of_nonneg_right h1 ht
  have h3 := abs_le.mp h
  refine (logistic_diff s t).trans ((exp_neg_diff (c := t / 2) (by linarith) (by linarith)).trans ?_)
  calc |s - t| * Real.exp (-(t / 2)) ≤ ε * t * Real.exp (-(t / 2)) := mul_le_mul_of_nonneg_right h (Real.exp_pos _).le
    _ = ε * (t * Real.exp (-(t / 2))) := by ring
    _ ≤ ε * 1 := mul_le_mul_of_nonneg_left (mul_exp_neg_half ht) h0
    _ = ε := mul_one ε

theorem logistic_rel {s t ε η : ℝ} (h0 : 0 ≤ ε) (h1 : ε ≤ 1 / 2) (hη : 0 ≤ η) (h : |s - t| ≤ ε * |t| + η) : |logistic s - logistic t| ≤ ε + η := by
  obtain ⟨m, hm1, hm2⟩ : ∃ m, |m - t| ≤ ε * |t| ∧ |s - m| ≤ η := by
    have hD : 0 ≤ ε * |t| + η := by positivity
    rcases hD.eq_or_lt with hD | hD
    · rw [← hD] at h
      have : s = t := by have := abs_nonpos_iff.mp h; linarith
      exact ⟨t, by simp; positivity, by simpa [this] using hη⟩
    · refine ⟨t + (s - t) * (ε * |t| / (ε * |t| + η)), ?_, ?_⟩
      · rw [show t + (s - t) * (ε * |t| / (ε * |t| + η)) - t = (s - t) * (ε * |t| / (ε * |t| + η)) by ring, abs_mul,
          abs_of_nonneg (show 0 ≤ ε * |t| / (ε * |t| + η) by positivity)]
        calc |s - t| * (ε * |t| / (ε * |t| + η)) ≤ (ε * |t| + η) * (ε * |t| / (ε * |t| + η)) := mul_le_mul_of_nonneg_right h (by positivity)
          _ = ε * |t| := by field_simp
      · rw [show s - (t + (s - t) * (ε * |t| / (ε * |t| + η))) = (s - t) * (η / (ε * |t| + η)) by field_simp; ring, abs_mul,
          abs_of_nonneg (show 0 ≤ η / (ε * |t| + η) by positivity)]
        calc |s - t| * (η / (ε * |t| + η)) ≤ (ε * |t| + η) * (η / (ε * |t| + η)) := mul_le_mul_of_nonneg_right h (by positivity)
          _ = η := by field_simp
  have hA1 : |logistic m - logistic t| ≤ ε := by
    rcases le_total 0 t with ht | ht
    · rw [abs_of_nonneg ht] at hm1
      exact logistic_rel_nonneg ht h0 h1 hm1
    · rw [abs_of_nonpos ht] at hm1
      have := logistic_rel_nonneg (s := -m) (t := -t) (by linarith) h0 h1 (by rw [← abs_neg]; convert hm1 using 2; ring)
      rw [logistic_neg, logistic_neg, ← abs_neg] at this
      convert this using 2; ring
  have hA2 := (logistic_lip s m).trans hm2
  have e1 := abs_le.mp hA1
  have e2 := abs_le.mp hA2
  rw [abs_le]; constructor <;> linarith

/-! ### `p` of `_inverse_both` -/

/-- `np.logaddexp(0, -u)` for a double `u`. -/
theorem softplusD (hA : IsDoubleErf A) {v : ℝ} (hv : A.rnd v = v) :
    ∃ y, A.logaddexp (fin 0) (-fin v) = fin y ∧ 0 ≤ y ∧ |y - Real.log (1 + Real.exp (-v))| ≤ 8 * uu + uu * Max.max (-v) 0 := by
  have hu := uu_pos
  have hL := hA.logs
  have hd := hL.double
  have hus : uu ≤ 1 / 1000 := by unfold uu; norm_num
  have heta : eta ≤ uu / 4 := by
    have : uu / 4 = 2⁻¹ ^ 55 := by unfold uu; norm_num
    rw [this]
    unfold eta
    exact pow_le_pow_of_le_one (by norm_num) (by norm_num) (by norm_num)
  unfold ArithLog.logaddexp
  rw [fin_neg]
  by_cases h0 : (0 : ℝ) = -v
  · rw [if_pos ((fin_feq _ _).mpr h0)]
    have hv0 : v = 0 := by linarith
    subst hv0
    have hl := hL.ln2_near
    have hl2 : (2⁻¹ : ℝ) ^ 53 = uu := by unfold uu; norm_num
    rw [hl2] at hl
    have h2 := Real.log_two_gt_d9
    have h3 := Real.log_two_lt_d9
    have e1 := abs_le.mp hl
    refine ⟨A.rnd (0 + A.ln2), rfl, hd.nonneg (by linarith), ?_⟩
    have e2 := hd.err (0 + A.ln2)
    rw [zero_add, abs_of_nonneg (show 0 ≤ A.ln2 by linarith)] at e2
    have e3 : uu * A.ln2 ≤ uu * 1 := mul_le_mul_of_nonneg_left (by linarith) hu.le
    have e4 := abs_le.mp e2
    rw [zero_add, neg_zero, Real.exp_zero, show (1 : ℝ) + 1 = 2 by norm_num, max_self, mul_zero, abs_le]
    constructor <;> linarith
  · rw [if_neg (fun hc => h0 ((fin_feq _ _).mp hc))]
    have htmp : A.round (fin 0 - fin (-v)) = fin v := by
      rw [fin_sub]
      show fin (A.rnd (0 - -v)) = fin v
      rw [show (0 : ℝ) - -v = v by ring, hv]
    simp only [htmp]
    by_cases hpos : 0 < v
    · rw [if_pos (show fin v > 0 from hpos)]
      obtain ⟨s1, -, s3⟩ := soft_close hL (s := -v) (by linarith)
      have s2 := hA.log1p_nonneg _ (hd.exp_range (-v) (by linarith)).1
      refine ⟨A.rnd (0 + A.log1p (A.exp (-v))), rfl, hd.nonneg (by linarith), ?_⟩
      rw [zero_add]
      have e2 := hd.err (A.log1p (A.exp (-v)))
      rw [abs_of_nonneg s2] at e2
      have e3 : uu * A.log1p (A.exp (-v)) ≤ uu * 1 := mul_le_mul_of_nonneg_left s3 hu.le
      have e4 := abs_le.mp e2
      have e5 := abs_le.mp s1
      have e6 : 0 ≤ uu * Max.max (-v) 0 := mul_nonneg hu.le (le_max_right _ _)
      rw [abs_le]
      constructor <;> linarith
    · rw [if_neg (show ¬ fin v > 0 from hpos), if_pos (show fin v ≤ 0 from not_lt.mp hpos)]
      have hvn : v ≤ 0 := not_lt.mp hpos
      obtain ⟨s1, -, s3⟩ := soft_close hL (s := v) hvn
      have s2 := hA.log1p_nonneg _ (hd.exp_range v hvn).1
      refine ⟨A.rnd (-v + A.log1p (A.exp v)), rfl, hd.nonneg (by linarith), ?_⟩
      have e2 := hd.err (-v + A.log1p (A.exp v))
      rw [abs_of_nonneg (show 0 ≤ -v + A.log1p (A.exp v) by linarith)] at e2
      have e3 : uu * (-v + A.log1p (A.exp v)) ≤ uu * -v + uu * 1 := by rw [mul_add]; exact add_le_add_right (mul_le_mul_of_nonneg_left s3 hu.le) _
      have e4 := abs_le.mp e2
      have e5 := abs_le.mp s1
      have e7 : Real.log (1 + Real.exp (-v)) = -v + Real.log (1 + Real.exp v) := by
        have : 1 + Real.exp (-v) = Real.exp (-v) * (1 + Real.exp v) := by
          rw [mul_add, mul_one, ← Real.exp_add]; simp [add_comm]
        rw [this, Real.log_mul (Real.exp_pos _).ne' (by positivity), Real.log_exp]
      rw [e7, max_eq_left (by linarith), abs_le]
      constructor <;> linarith

/-- The `p` of `_inverse_both` with `transform="logit"`. -/
noncomputable def invPD (A : ArithErf) (u : F) : F := A.expF (-(A.logaddexp (fin 0) (-u)))

theorem eta_le (A : ℕ) (h : A ≤ 1075) : eta ≤ 2⁻¹ ^ A := by
  unfold eta; exact pow_le_pow_of_le_one (by norm_num) (by norm_num) h

theorem invPD_fin (hA : IsDoubleErf A) {v : ℝ} (hv : A.rnd v = v) :
    ∃ p, invPD A (fin v) = fin p ∧ 0 ≤ p ∧ p ≤ 1 ∧ A.rnd p = p ∧ |p - logistic v| ≤ 14 * uu := by
  have hu := uu_pos
  have hd := hA.logs.double
  have hus : uu ≤ 1 / 1000 := by unfold uu; norm_num
  obtain ⟨y, y1, y2, y3⟩ := softplusD hA hv
  unfold invPD
  rw [y1, fin_neg]
  obtain ⟨e0, e1⟩ := hd.exp_range (-y) (by linarith)
  refine ⟨A.exp (-y), rfl, e0, e1, hd.exp_double _, ?_⟩
  have h1 := hd.exp_near (-y) (by linarith)
  have h2 : Real.exp (-y) ≤ 1 := Real.exp_le_one_iff.mpr (by linarith)
  have hu2 : (2⁻¹ : ℝ) ^ 52 = 2 * uu := by unfold uu; norm_num
  rw [hu2] at h1
  have t1 : (2⁻¹ : ℝ) ^ 1074 ≤ uu := by
    unfold uu; exact pow_le_pow_of_le_one (by norm_num) (by norm_num) (by norm_num)
  generalize (2⁻¹ : ℝ) ^ 1074 = t at *
  have h3 : 2 * uu * Real.exp (-y) ≤ 2 * uu * 1 := mul_le_mul_of_nonneg_left h2 (by linarith)
  set Y := Real.log (1 + Real.exp (-v)) with hY
  set m := Max.max (-v) 0 with hm
  have hm0 : 0 ≤ m := le_max_right _ _
  have hYm : m ≤ Y := by
    rw [hY, hm]
    apply max_le
    · calc -v = Real.log (Real.exp (-v)) := (Real.log_exp _).symm
        _ ≤ _ := Real.log_le_log (Real.exp_pos _) (by linarith)
    · exact Real.log_nonneg (by linarith [Real.exp_pos (-v)])
  have e2 := abs_le.mp y3
  have hum : uu * m ≤ 1 / 1000 * m := mul_le_mul_of_nonneg_right hus hm0
  have h4 : |Real.exp (-y) - Real.exp (-Y)| ≤ |y - Y| * Real.exp (-(m / 2 - 8 * uu)) := exp_neg_diff (by linarith) (by linarith)
  have h5 : Real.exp (-(m / 2 - 8 * uu)) = Real.exp (-(m / 2)) * Real.exp (8 * uu) := by rw [← Real.exp_add]; ring_nf
  have h6 : Real.exp (8 * uu) ≤ 11 / 10 := by
    have := Real.exp_bound_div_one_sub_of_interval (x := 8 * uu) (by linarith) (by linarith)
    refine this.trans ?_
    rw [div_le_iff₀ (by linarith)]
    linarith
  have h7 : (8 * uu + uu * m) * Real.exp (-(m / 2)) ≤ 9 * uu := by
    have a1 := mul_exp_neg_half hm0
    have a2 : Real.exp (-(m / 2)) ≤ 1 := Real.exp_le_one_iff.mpr (by linarith)
    calc (8 * uu + uu * m) * Real.exp (-(m / 2)) = 8 * uu * Real.exp (-(m / 2)) + uu * (m * Real.exp (-(m / 2))) := by ring
      _ ≤ 8 * uu * 1 + uu * 1 := add_le_add (mul_le_mul_of_nonneg_left a2 (by linarith)) (mul_le_mul_of_nonneg_left a1 hu.le)
      _ = 9 * uu := by ring
  have h8 : |y - Y| * Real.exp (-(m / 2 - 8 * uu)) ≤ 10 * uu := by
    rw [h5]
    calc |y - Y| * (Real.exp (-(m / 2)) * Real.exp (8 * uu)) ≤ (8 * uu + uu * m) * (Real.exp (-(m / 2)) * Real.exp (8 * uu)) :=
          mul_le_mul_of_nonneg_right y3 (by positivity)
      _ = (8 * uu + uu * m) * Real.exp (-(m / 2)) * Real.exp (8 * uu) := by ring
      _ ≤ 9 * uu * (11 / 10) := mul_le_mul h7 h6 (Real.exp_pos _).le (by linarith)
      _ ≤ 10 * uu := by linarith
  rw [logistic_eq_exp]
  have e3 := abs_le.mp (h4.trans h8)
  have e4 := abs_le.mp h1
  rw [abs_le]; constructor <;> linarith

theorem invPD_pinf (hA : IsDoubleErf A) : invPD A pinf = fin 1 := by
  have hd := hA.logs.double
  unfold invPD ArithLog.logaddexp
  rw [neg_pinf, if_neg (by simp [feq])]
  have : A.round (fin 0 - ninf) = pinf := rfl
  simp only [this]
  rw [if_pos (show (pinf : F) > 0 from trivial)]
  show fin (A.exp (-(A.rnd (0 + A.log1p 0)))) = fin 1
  rw [hA.logs.log1p_zero, add_zero, hd.zero, neg_zero, hd.exp_zero]

theorem invPD_ninf : invPD A ninf = fin 0 := by
  unfold invPD ArithLog.logaddexp
  rw [neg_ninf, if_neg (by simp [feq])]
  have : A.round (fin 0 - pinf) = ninf := rfl
  simp only [this]
  rw [if_neg (show ¬ (ninf : F) > 0 from id), if_pos (show (ninf : F) ≤ 0 from trivial)]
  rfl

theorem logF_pos {B : ArithLog} {r : ℝ} (h : 0 < r) : B.logF (fin r) = fin (B.log r) := by
  show (if r < 0 then nan else if r = 0 then ninf else fin (B.log r)) = _
  rw [if_neg (by linarith), if_neg h.ne']

/-- The log-odds computed by `_forward_both` from the double `p`. -/
theorem logitD (hA : IsDoubleErf A) {p : ℝ} (hp : A.rnd p = p) (h0 : 0 ≤ p) (h1 : p ≤ 1) :
    (p = 1 ∧ A.logF (A.round (fin p / A.round (fin 1 - fin p))) = pinf) ∨
    (p ≤ uu ∧ A.logF (A.round (fin p / A.round (fin 1 - fin p))) = ninf) ∨
    ∃ r u, A.logF (A.round (fin p / A.round (fin 1 - fin p))) = fin u ∧ 0 < r ∧ |u - Real.log r| ≤ 2 * uu * |Real.log r| ∧
      |r / (1 + r) - p| ≤ 5 * uu ∧ A.rnd u = u := by
  have hu := uu_pos
  have hd := hA.logs.double
  have hus : uu ≤ 1 / 1000 := by unfold uu; norm_num
  have heta : eta ≤ uu / 4 := by
    have : uu / 4 = 2⁻¹ ^ 55 := by unfold uu; norm_num
    rw [this]; exact eta_le _ (by norm_num)
  have heta0 := eta_pos
  rw [fin_sub]
  show (p = 1 ∧ A.logF (A.round (fin p / fin (A.rnd (1 - p)))) = pinf) ∨ (p ≤ uu ∧ A.logF (A.round (fin p / fin (A.rnd (1 - p)))) = ninf) ∨
    ∃ r u, A.logF (A.round (fin p / fin (A.rnd (1 - p)))) = fin u ∧ 0 < r ∧ |u - Real.log r| ≤ 2 * uu * |Real.log r| ∧
      |r / (1 + r) - p| ≤ 5 * uu ∧ A.rnd u = u
  rcases h1.eq_or_lt with h1 | h1
  · refine Or.inl ⟨h1, ?_⟩
    rw [h1, sub_self, hd.zero, fin_div_zero_pos 1 one_pos]
    rfl
  have hq : 0 < A.rnd (1 - p) ∧ |A.rnd (1 - p) - (1 - p)| ≤ 2 * uu * (1 - p) := by
    rcases le_total (1 / 2) p with h2 | h2
    · rw [hA.one_sub p hp h2 h1.le]
      refine ⟨by linarith, ?_⟩
      rw [sub_self, abs_zero]
      exact mul_nonneg (by linarith) (by linarith)
    · have e := hd.err (1 - p)
      rw [abs_of_pos (show 0 < 1 - p by linarith)] at e
      have e1 := abs_le.mp e
      have e2 : uu * (1 - p) ≤ uu * 1 := mul_le_mul_of_nonneg_left (by linarith) hu.le
      have e3 : uu * (1 / 2) ≤ uu * (1 - p) := mul_le_mul_of_nonneg_left (by linarith) hu.le
      exact ⟨by linarith, e.trans (by linarith)⟩
  obtain ⟨hq0, hq1⟩ := hq
  set q := A.rnd (1 - p) with hqd
  rw [fin_div _ _ hq0.ne']
  show _ ∨ (p ≤ uu ∧ A.logF (fin (A.rnd (p / q))) = ninf) ∨ ∃ r u, A.logF (fin (A.rnd (p / q))) = fin u ∧ 0 < r ∧ |u - Real.log r| ≤ 2 * uu * |Real.log r| ∧
      |r / (1 + r) - p| ≤ 5 * uu ∧ A.rnd u = u
  have hr0 : 0 ≤ p / q := by positivity
  have hrn := hd.nonneg hr0
  set r := A.rnd (p / q) with hrd
  have er := hd.err (p / q)
  rw [abs_of_nonneg hr0, ← hrd] at er
  have e1 := abs_le.mp er
  have hqb := abs_le.mp hq1
  have h2u : 2 * uu * (1 - p) ≤ 1 / 500 * (1 - p) := mul_le_mul_of_nonneg_right (by linarith) (by linarith)
  -- `r (1 - p)` is close to `p`
  have hkey : |r * (1 - p) - p| ≤ 5 * uu := by
    have a1 : p / q * (1 - p) - p = p / q * ((1 - p) - q) := by field_simp
    have a2 : |p / q * ((1 - p) - q)| ≤ p / q * (2 * uu * (1 - p)) := by
      rw [abs_mul, abs_of_nonneg hr0, abs_sub_comm]
      exact mul_le_mul_of_nonneg_left hq1 hr0
    have a3 : p / q * (1 - p) ≤ 11 / 10 := by
      have : p / q * (1 - p) = p * ((1 - p) / q) := by ring
      rw [this]
      have b1 : (1 - p) / q ≤ 11 / 10 := by
        rw [div_le_iff₀ hq0]; linarith
      calc p * ((1 - p) / q) ≤ 1 * (11 / 10) := mul_le_mul h1.le b1 (by apply div_nonneg <;> linarith) (by norm_num)
        _ = 11 / 10 := by norm_num
    have a4 : p / q * (2 * uu * (1 - p)) ≤ 2.2 * uu := by
      calc p / q * (2 * uu * (1 - p)) = 2 * uu * (p / q * (1 - p)) := by ring
        _ ≤ 2 * uu * (11 / 10) := mul_le_mul_of_nonneg_left a3 (by linarith)
        _ = 2.2 * uu := by ring
    have a5 : |(r - p / q) * (1 - p)| ≤ 1.2 * uu + eta := by
      rw [abs_mul, abs_of_pos (show 0 < 1 - p by linarith)]
      calc |r - p / q| * (1 - p) ≤ (uu * (p / q) + eta) * (1 - p) := mul_le_mul_of_nonneg_right er (by linarith)
        _ = uu * (p / q * (1 - p)) + eta * (1 - p) := by ring
        _ ≤ uu * (11 / 10) + eta * 1 := add_le_add (mul_le_mul_of_nonneg_left a3 hu.le) (mul_le_mul_of_nonneg_left (by linarith) heta0.le)
        _ ≤ 1.2 * uu + eta := by linarith
    have a6 : r * (1 - p) - p = (r - p / q) * (1 - p) + p / q * ((1 - p) - q) := by rw [← a1]; ring
    rw [a6]
    refine (abs_add_le _ _).trans ?_
    linarith
  rcases hrn.eq_or_lt with hz | hpos
  · refine Or.inr (Or.inl ⟨?_, ?_⟩)
    · rw [← hz] at e1
      have a1 : p / q ≤ 2 * eta := by
        have : uu * (p / q) ≤ 1 / 1000 * (p / q) := mul_le_mul_of_nonneg_right hus hr0
        linarith [e1.1]
      have a2 : q ≤ 2 := by linarith
      rw [div_le_iff₀ hq0] at a1
      have a3 : 2 * eta * q ≤ 2 * eta * 2 := mul_le_mul_of_nonneg_left a2 (by linarith)
      linarith
    · rw [← hz]
      simp [ArithLog.logF]
  · refine Or.inr (Or.inr ⟨r, A.log r, ?_, hpos, ?_, ?_, hA.logs_double r⟩)
    · exact logF_pos hpos
    · have hu2 : (2⁻¹ : ℝ) ^ 52 = 2 * uu := by unfold uu; norm_num
      rw [← hu2]
      exact hA.log_near' r hpos
    · have : r / (1 + r) - p = (r * (1 - p) - p) / (1 + r) := by field_simp; ring
      rw [this, abs_div]
      refine (div_le_self (abs_nonneg _) ?_).trans hkey
      rw [abs_of_pos (by linarith)]; linarith

/-- Out and back through the affine map. -/
theorem affineD (hA : IsDoubleErf A) {mu sigma u : ℝ} (hs : 0 < sigma) (hs1 : sigma ≤ 2 ^ 500) :
    ∃ v, affineInvD A (fin mu) (fin sigma) (affineFwdD A (fin mu) (fin sigma) (fin u)) = fin v ∧ A.rnd v = v ∧
      |v - u| ≤ 6 * uu * (|u| + |mu|) + uu := by
  have hu := uu_pos
  have hd := hA.logs.double
  have hus : uu ≤ 1 / 1000 := by unfold uu; norm_num
  have heta0 := eta_pos
  have hsig : eta * sigma ≤ uu / 8 := by
    have h1 : eta * sigma ≤ eta * 2 ^ 500 := mul_le_mul_of_nonneg_left hs1 heta0.le
    have h2 : eta ≤ 2⁻¹ ^ 60 * 2⁻¹ ^ 500 := by rw [← pow_add]; exact eta_le _ (by norm_num)
    have h3 : eta * 2 ^ 500 ≤ 2⁻¹ ^ 60 * 2⁻¹ ^ 500 * 2 ^ 500 := mul_le_mul_of_nonneg_right h2 (by positivity)
    have h4 : (2⁻¹ : ℝ) ^ 60 * 2⁻¹ ^ 500 * 2 ^ 500 = 2⁻¹ ^ 60 := by
      rw [mul_assoc, ← mul_pow, inv_mul_cancel₀ two_ne_zero, one_pow, mul_one]
    have h5 : (2⁻¹ : ℝ) ^ 60 ≤ uu / 8 := by unfold uu; norm_num
    exact h1.trans (h3.trans (h4.le.trans h5))
  clear hs1
  have heta : eta ≤ uu / 8 := by
    have : uu / 8 = 2⁻¹ ^ 56 := by unfold uu; norm_num
    rw [this]; exact eta_le _ (by norm_num)
  set a := u - mu with ha
  set u1 := A.rnd a with hu1
  set u2 := A.rnd (u1 / sigma) with hu2
  set u3 := A.rnd (sigma * u2) with hu3
  refine ⟨A.rnd (mu + u3), ?_, hd.idem _, ?_⟩
  · unfold affineInvD affineFwdD
    rw [fin_sub]
    show A.round (fin mu + A.round (fin sigma * A.round (fin u1 / fin sigma))) = _
    rw [fin_div _ _ hs.ne']
    rfl
  have e1 := hd.err a
  have e2 := hd.err (u1 / sigma)
  have e3 := hd.err (sigma * u2)
  have e4 := hd.err (mu + u3)
  rw [← hu1] at e1
  rw [← hu2] at e2
  rw [← hu3] at e3
  -- sigma * u2 close to u1
  have f2 : |sigma * u2 - u1| ≤ uu * |u1| + uu / 8 := by
    have : sigma * u2 - u1 = sigma * (u2 - u1 / sigma) := by field_simp
    rw [this, abs_mul, abs_of_pos hs]
    have g := mul_le_mul_of_nonneg_left e2 hs.le
    rw [abs_div, abs_of_pos hs] at g
    have g2 : sigma * (uu * (|u1| / sigma) + eta) = uu * |u1| + eta * sigma := by field_simp
    linarith
  have b1 : |u1| ≤ |a| + (uu * |a| + eta) := by
    have := abs_add_le a (u1 - a); rw [add_sub_cancel] at this; linarith
  have b2 : |sigma * u2| ≤ |u1| + (uu * |u1| + uu / 8) := by
    have := abs_add_le u1 (sigma * u2 - u1); rw [add_sub_cancel] at this; linarith
  have hA0 := abs_nonneg a
  have m1 : uu * |a| ≤ 1 / 1000 * |a| := mul_le_mul_of_nonneg_right hus hA0
  have c1 : uu * |u1| ≤ uu * (1.01 * |a| + eta) := mul_le_mul_of_nonneg_left (by linarith) hu.le
  have c1' : uu * eta ≤ 1 / 1000 * eta := mul_le_mul_of_nonneg_right hus heta0.le
  have c2 : uu * |u1| ≤ 1.01 * (uu * |a|) + uu / 1000 := by
    have : uu * (1.01 * |a| + eta) = 1.01 * (uu * |a|) + uu * eta := by ring
    have : uu * eta ≤ uu * (1 / 1000) := mul_le_mul_of_nonneg_left (by linarith) hu.le
    linarith
  have c3 : |sigma * u2| ≤ 1.03 * |a| + uu := by linarith
  have c4 : uu * |sigma * u2| ≤ 1.03 * (uu * |a|) + uu / 1000 := by
    have h1 : uu * |sigma * u2| ≤ uu * (1.03 * |a| + uu) := mul_le_mul_of_nonneg_left c3 hu.le
    have h2 : uu * uu ≤ uu * (1 / 1000) := mul_le_mul_of_nonneg_left hus hu.le
    have h3 : uu * (1.03 * |a| + uu) = 1.03 * (uu * |a|) + uu * uu := by ring
    linarith
  have hua : 0 ≤ uu * |a| := by positivity
  have d3 : |u3 - a| ≤ 3.1 * (uu * |a|) + uu / 2 := by
    have : u3 - a = (u3 - sigma * u2) + (sigma * u2 - u1) + (u1 - a) := by ring
    rw [this]
    have h1 := abs_add_le ((u3 - sigma * u2) + (sigma * u2 - u1)) (u1 - a)
    have h2 := abs_add_le (u3 - sigma * u2) (sigma * u2 - u1)
    linarith
  have d4 : |(mu + u3) - u| ≤ 3.1 * (uu * |a|) + uu / 2 := by
    rw [show (mu + u3) - u = u3 - a by rw [ha]; ring]; exact d3
  have hab : |a| ≤ |u| + |mu| := abs_sub u mu
  have b3 : |mu + u3| ≤ |u| + (3.1 * (uu * |a|) + uu / 2) := by
    have := abs_add_le u ((mu + u3) - u); rw [add_sub_cancel] at this; linarith
  have c5 : uu * |mu + u3| ≤ uu * |u| + 0.1 * (uu * |a|) + uu / 1000 := by
    have h1 : uu * |mu + u3| ≤ uu * (|u| + (3.1 * (uu * |a|) + uu / 2)) := mul_le_mul_of_nonneg_left b3 hu.le
    have h2 : uu * (uu * |a|) ≤ 1 / 1000 * (uu * |a|) := mul_le_mul_of_nonneg_right hus (by positivity)
    have h3 : uu * uu ≤ uu * (1 / 1000) := mul_le_mul_of_nonneg_left hus hu.le
    have h4 : uu * (|u| + (3.1 * (uu * |a|) + uu / 2)) = uu * |u| + 3.1 * (uu * (uu * |a|)) + uu * uu / 2 := by ring
    linarith [show 0 ≤ uu * |a| by positivity]
  have hfin : uu * |a| ≤ uu * (|u| + |mu|) := mul_le_mul_of_nonneg_left hab hu.le
  have hfin2 : uu * |u| ≤ uu * (|u| + |mu|) := mul_le_mul_of_nonneg_left (by linarith [abs_nonneg mu]) hu.le
  have : A.rnd (mu + u3) - u = (A.rnd (mu + u3) - (mu + u3)) + ((mu + u3) - u) := by ring
  rw [this]
  refine (abs_add_le _ _).trans ?_
  linarith

end Poco
