import Verif.Lemmas.DoubleScaler
import Verif.Props.DoubleLogw

/-! # C126-C127: the transformation to the unit box and back, in double precision -/

namespace Poco
open F Spec

variable {A : ArithErf}

theorem inf_div_pinf {r : ℝ} (h : 0 < r) : (pinf : F) / fin r = pinf := by show div _ _ = _; simp [div, h.le]
theorem inf_div_ninf {r : ℝ} (h : 0 < r) : (ninf : F) / fin r = ninf := by show div _ _ = _; simp [div, h.le]
theorem mul_inf_pinf {r : ℝ} (h : 0 < r) : fin r * (pinf : F) = pinf := by show infMul r = _; simp [infMul, h, h.ne']
theorem mul_inf_ninf {r : ℝ} (h : 0 < r) : fin r * (ninf : F) = ninf := by show infMul (-r) = _; simp [infMul, h.ne', h.le]

/-! ### C126: `inverse` and the bounds -/

/-- From `p` to the point. -/
theorem fromUnit (hA : IsDoubleErf A) {lo hi p : ℝ} (hlo : A.rnd lo = lo) (hlt : lo < hi) (p0 : 0 ≤ p) (p1 : p ≤ 1) :
    lo ≤ A.rnd (A.rnd (p * A.rnd (hi - lo)) + lo) ∧
      A.rnd (A.rnd (p * A.rnd (hi - lo)) + lo) ≤ hi + 2⁻¹ ^ 51 * (|lo| + |hi|) + 2⁻¹ ^ 1000 := by
  have hd := hA.logs.double
  have hu := uu_pos
  have heta0 := eta_pos
  have hus : uu ≤ 1 / 1000 := by unfold uu; norm_num
  have hw0 : 0 ≤ A.rnd (hi - lo) := hd.nonneg (by linarith)
  set w := A.rnd (hi - lo) with hw
  have hpw : 0 ≤ p * w := mul_nonneg p0 hw0
  have hpw1 : A.rnd (p * w) ≤ w := by
    have : p * w ≤ 1 * w := mul_le_mul_of_nonneg_right p1 hw0
    rw [one_mul] at this
    calc A.rnd (p * w) ≤ A.rnd w := hd.mono this
      _ = w := by rw [hw, hd.idem]
  constructor
  · calc lo = A.rnd lo := hlo.symm
      _ ≤ _ := hd.mono (by linarith [hd.nonneg hpw])
  · have e1 := hd.err (hi - lo)
    rw [← hw, abs_of_pos (show 0 < hi - lo by linarith)] at e1
    have e2 := hd.err (w + lo)
    have m1 : A.rnd (A.rnd (p * w) + lo) ≤ A.rnd (w + lo) := hd.mono (by linarith)
    have hW : hi - lo ≤ |lo| + |hi| := by linarith [le_abs_self hi, neg_abs_le lo]
    have hW0 : 0 ≤ |lo| + |hi| := by positivity
    have a1 := abs_le.mp e1
    have a2 := abs_le.mp e2
    have a3 : |w + lo| ≤ |hi| + (uu * (hi - lo) + eta) := by
      have := abs_add_le hi (w + lo - hi)
      rw [add_sub_cancel, show w + lo - hi = w - (hi - lo) by ring] at this
      linarith
    have a4 : uu * |w + lo| ≤ uu * (|hi| + (uu * (hi - lo) + eta)) := mul_le_mul_of_nonneg_left a3 hu.le
    have a5 : uu * (hi - lo) ≤ uu * (|lo| + |hi|) := mul_le_mul_of_nonneg_left hW hu.le
    have a6 : uu * |hi| ≤ uu * (|lo| + |hi|) := mul_le_mul_of_nonneg_left (by linarith [abs_nonneg lo]) hu.le
    have a7 : uu * (uu * (hi - lo)) ≤ 1 / 1000 * (uu * (hi - lo)) := mul_le_mul_of_nonneg_right hus (mul_nonneg hu.le (by linarith))
    have a8 : uu * eta ≤ 1 / 1000 * eta := mul_le_mul_of_nonneg_right hus heta0.le
    have a9 : uu * (|hi| + (uu * (hi - lo) + eta)) = uu * |hi| + uu * (uu * (hi - lo)) + uu * eta := by ring
    have h51 : (2⁻¹ : ℝ) ^ 51 = 4 * uu := by unfold uu; norm_num
    have heta : 3 * eta ≤ 2⁻¹ ^ 1000 := by
      have h1 := eta_le 1002 (by norm_num)
      have h2 : (2⁻¹ : ℝ) ^ 1002 * 4 = 2⁻¹ ^ 1000 := by rw [pow_add (2⁻¹ : ℝ) 1000 2]; ring
      have h3 : eta * 4 ≤ (2⁻¹ : ℝ) ^ 1002 * 4 := mul_le_mul_of_nonneg_right h1 (by norm_num)
      rw [h2] at h3
      refine le_trans ?_ h3
      linarith
    rw [h51]
    generalize (2⁻¹ : ℝ) ^ 1000 = t at *
    have a10 : 0 ≤ uu * (|lo| + |hi|) := by positivity
    linarith

theorem invCoordD_both (t : Transform) (lo hi : ℝ) (u : F) : invCoordD A t (fin lo) (fin hi) u = invBothD A t (fin lo) (fin hi) u := by
  simp [invCoordD, createMasks]

theorem invCoordD_left (t : Transform) (lo : ℝ) (u : F) : invCoordD A t (fin lo) pinf u = invLeftD A (fin lo) u := by
  simp [invCoordD, createMasks, F.isfinite]

theorem invCoordD_right (t : Transform) (hi : ℝ) (u : F) : invCoordD A t ninf (fin hi) u = invRightD A (fin hi) u := by
  simp [invCoordD, createMasks, F.isfinite]

theorem logit_point (lo hi p : ℝ) (u : F) (h : invPD A u = fin p) :
    (invBothD A .logit (fin lo) (fin hi) u).1 = fin (A.rnd (A.rnd (p * A.rnd (hi - lo)) + lo)) := by
  show A.round (A.round (invPD A u * A.round (fin hi - fin lo)) + fin lo) = _
  rw [h, fin_sub]
  rfl

/-- **C126 (partial: the upper bound only up to rounding; see `C126_overshoot`).** In double precision `inverse` maps every double and both infinities to
a number that is never below a finite lower bound; with a lower bound alone or an upper bound alone it respects the bound exactly; with two finite
bounds it exceeds the upper one by at most `2⁻⁵¹·(|low| + |high|)`. Both transformations. -/
theorem C126_bounds_partial (hA : IsDoubleErf A) (t : Transform) (u : F) (hu : u ≠ nan) (hud : ∀ v, u = fin v → A.rnd v = v) :
    (∀ lo hi, A.rnd lo = lo → A.rnd hi = hi → lo < hi → ∃ x, (invCoordD A t (fin lo) (fin hi) u).1 = fin x ∧ lo ≤ x ∧
      x ≤ hi + 2⁻¹ ^ 51 * (|lo| + |hi|) + 2⁻¹ ^ 1000) ∧
    (∀ lo, A.rnd lo = lo → fin lo ≤ (invCoordD A t (fin lo) pinf u).1) ∧
    (∀ hi, A.rnd hi = hi → (invCoordD A t ninf (fin hi) u).1 ≤ fin hi) := by
  have hd := hA.logs.double
  refine ⟨?_, ?_, ?_⟩
  · intro lo hi hlo hhi hlt
    rw [invCoordD_both]
    cases t with
    | logit =>
      obtain ⟨p, hp, p0, p1⟩ : ∃ p, invPD A u = fin p ∧ 0 ≤ p ∧ p ≤ 1 := by
        cases u with
        | nan => exact absurd rfl hu
        | ninf => exact ⟨0, invPD_ninf, le_rfl, zero_le_one⟩
        | pinf => exact ⟨1, invPD_pinf hA, zero_le_one, le_rfl⟩
        | fin v =>
          obtain ⟨p, h1, h2, h3, -⟩ := invPD_fin hA (hud v rfl)
          exact ⟨p, h1, h2, h3⟩
      exact ⟨_, logit_point lo hi p u hp, fromUnit hA hlo hlt p0 p1⟩
    | probit =>
      obtain ⟨e, he, e0, e1⟩ : ∃ e, A.erfF (A.round (u / fin A.sqrt2)) = fin e ∧ -1 ≤ e ∧ e ≤ 1 := by
        cases u with
        | nan => exact absurd rfl hu
        | ninf =>
          have : (ninf : F) / fin A.sqrt2 = ninf := inf_div_ninf hA.sqrt2_pos
          rw [this]
          exact ⟨-1, rfl, le_rfl, by norm_num⟩
        | pinf =>
          have : (pinf : F) / fin A.sqrt2 = pinf := inf_div_pinf hA.sqrt2_pos
          rw [this]
          exact ⟨1, rfl, by norm_num, le_rfl⟩
        | fin v =>
          rw [fin_div _ _ hA.sqrt2_pos.ne']
          exact ⟨_, rfl, hA.erf_range _⟩
      have b1 : 0 ≤ A.rnd (e + 1) := hd.nonneg (by linarith)
      have b2 : A.rnd (e + 1) ≤ 2 := by
        have h2 : A.rnd 2 = 2 := by exact_mod_cast hd.nat 2 (by norm_num)
        calc A.rnd (e + 1) ≤ A.rnd 2 := hd.mono (by linarith)
          _ = 2 := h2
      have p0 : 0 ≤ A.rnd (A.rnd (e + 1) / 2) := hd.nonneg (by linarith)
      have p1 : A.rnd (A.rnd (e + 1) / 2) ≤ 1 := hd.le_one (by linarith)
      refine ⟨_, ?_, fromUnit hA hlo hlt p0 p1⟩
      show A.round (A.round (A.round (A.round (A.erfF (A.round (u / fin A.sqrt2)) + fin 1) / fin 2) * A.round (fin hi - fin lo)) + fin lo) = _
      rw [he, fin_add, fin_sub]
      show A.round (A.round (A.round (fin (A.rnd (e + 1)) / fin 2) * fin (A.rnd (hi - lo))) + fin lo) = _
      rw [fin_div _ _ two_ne_zero]
      rfl
  · intro lo hlo
    rw [invCoordD_left]
    cases u with
    | nan => exact absurd rfl hu
    | ninf =>
      show lo ≤ A.rnd (0 + lo)
      rw [zero_add, hlo]
    | pinf => exact trivial
    | fin v =>
      show lo ≤ A.rnd (A.exp v + lo)
      calc lo = A.rnd lo := hlo.symm
        _ ≤ _ := hd.mono (by linarith [hA.exp_nonneg v])
  · intro hi hhi
    rw [invCoordD_right]
    cases u with
    | nan => exact absurd rfl hu
    | ninf =>
      show A.rnd (hi + -0) ≤ hi
      rw [neg_zero, add_zero, hhi]
    | pinf => exact trivial
    | fin v =>
      show A.rnd (hi + -(A.exp v)) ≤ hi
      calc A.rnd (hi + -(A.exp v)) ≤ A.rnd hi := hd.mono (by linarith [hA.exp_nonneg v])
        _ = hi := hhi

/-! ### C127: there and back -/

/-- `p` at the way back differs from `p` at the way out by rounding only. -/
theorem logit_return (hA : IsDoubleErf A) {p mu sigma : ℝ} (hp : A.rnd p = p) (h0 : 0 ≤ p) (h1 : p ≤ 1) (hs : 0 < sigma) (hs1 : sigma ≤ 2 ^ 500) :
    ∃ p', invPD A (affineInvD A (fin mu) (fin sigma) (affineFwdD A (fin mu) (fin sigma) (A.logF (A.round (fin p / A.round (fin 1 - fin p)))))) = fin p' ∧
      0 ≤ p' ∧ p' ≤ 1 ∧ |p' - p| ≤ (30 + 6 * |mu|) * uu := by
  have hu := uu_pos
  have hus : uu ≤ 1 / 1000 := by unfold uu; norm_num
  have hmu := abs_nonneg mu
  have hmuu : 0 ≤ |mu| * uu := by positivity
  rcases logitD hA hp h0 h1 with ⟨a1, a2⟩ | ⟨a1, a2⟩ | ⟨r, u, a1, a2, a3, a4, -⟩
  · have e1 : affineFwdD A (fin mu) (fin sigma) pinf = pinf := by
      show A.round ((pinf : F) / fin sigma) = pinf
      have : (pinf : F) / fin sigma = pinf := inf_div_pinf hs
      rw [this]; rfl
    have e2 : affineInvD A (fin mu) (fin sigma) pinf = pinf := by
      have : fin sigma * (pinf : F) = pinf := mul_inf_pinf hs
      unfold affineInvD
      rw [this]; rfl
    rw [a2, e1, e2]
    refine ⟨1, invPD_pinf hA, zero_le_one, le_rfl, ?_⟩
    rw [a1, sub_self, abs_zero]; nlinarith
  · have e1 : affineFwdD A (fin mu) (fin sigma) ninf = ninf := by
      show A.round ((ninf : F) / fin sigma) = ninf
      have : (ninf : F) / fin sigma = ninf := inf_div_ninf hs
      rw [this]; rfl
    have e2 : affineInvD A (fin mu) (fin sigma) ninf = ninf := by
      have : fin sigma * (ninf : F) = ninf := mul_inf_ninf hs
      unfold affineInvD
      rw [this]; rfl
    rw [a2, e1, e2]
    refine ⟨0, invPD_ninf, le_rfl, zero_le_one, ?_⟩
    rw [zero_sub, abs_neg, abs_of_nonneg h0]; nlinarith
  · rw [a1]
    obtain ⟨v, v1, v2, v3⟩ := affineD hA (mu := mu) (u := u) hs hs1
    rw [v1]
    obtain ⟨p', q1, q2, q3, -, q4⟩ := invPD_fin hA v2
    refine ⟨p', q1, q2, q3, ?_⟩
    set L := Real.log r with hL
    have b1 : |u| ≤ 1.01 * |L| := by
      have := abs_add_le L (u - L)
      rw [add_sub_cancel] at this
      have h2 : 2 * uu * |L| ≤ 1 / 500 * |L| := mul_le_mul_of_nonneg_right (by linarith) (abs_nonneg _)
      linarith [abs_nonneg L]
    have b2 : |v - L| ≤ 9 * uu * |L| + (6 * |mu| + 1) * uu := by
      have h3 := abs_add_le (v - u) (u - L)
      rw [show v - u + (u - L) = v - L by ring] at h3
      have h4 : 6 * uu * (|u| + |mu|) ≤ 6 * uu * (1.01 * |L| + |mu|) := mul_le_mul_of_nonneg_left (by linarith) (by linarith)
      have h5 : 6 * uu * (1.01 * |L| + |mu|) = 6.06 * (uu * |L|) + 6 * |mu| * uu := by ring
      have h6 : 0 ≤ uu * |L| := by positivity
      have h7 : (6 * |mu| + 1) * uu = 6 * |mu| * uu + uu := by ring
      have h8 : 9 * uu * |L| = 9 * (uu * |L|) := by ring
      have h9 : 2 * uu * |L| = 2 * (uu * |L|) := by ring
      linarith
    have b3 := logistic_rel (by linarith) (by linarith) (by positivity) b2
    rw [hL, logistic_log a2] at b3
    have e1 := abs_le.mp b3
    have e2 := abs_le.mp q4
    have e3 := abs_le.mp a4
    have e4 : (6 * |mu| + 1) * uu = 6 * (|mu| * uu) + uu := by ring
    have e5 : (30 + 6 * |mu|) * uu = 30 * uu + 6 * (|mu| * uu) := by ring
    rw [e4] at e1
    rw [e5, abs_le]
    constructor <;> linarith

/-- **C127.** In double precision, for a coordinate with two finite bounds and the logit transformation, `inverse(forward(x))` returns to `x`, for
every double `x` in the closed interval, the end points included, up to `2⁻⁴⁷·(1 + |mu|)·(|low| + |high|)`, where `mu` is the mean
learned by `fit`. -/
theorem C127_round_trip (hA : IsDoubleErf A) {lo hi mu sigma x : ℝ} (hlo : A.rnd lo = lo) (hhi : A.rnd hi = hi) (hlt : lo < hi)
    (hx : lo ≤ x) (hx1 : x ≤ hi) (hs : 0 < sigma) (hs1 : sigma ≤ 2 ^ 500) (hmu : |mu| ≤ 2 ^ 30) :
    ∃ y, inverseCoordD A .logit (fin lo) (fin hi) (fin mu) (fin sigma) (forwardLogitD A (fin lo) (fin hi) (fin mu) (fin sigma) (fin x)) = fin y ∧
      |y - x| ≤ 2⁻¹ ^ 47 * (1 + |mu|) * (|lo| + |hi|) + 2⁻¹ ^ 1000 := by
  have hd := hA.logs.double
  have hu := uu_pos
  have heta0 := eta_pos
  have hus : uu ≤ 1 / 1000 := by unfold uu; norm_num
  have hw0 : 0 < A.rnd (hi - lo) := hA.sub_pos lo hi hlo hhi hlt
  set w := A.rnd (hi - lo) with hw
  set a := A.rnd (x - lo) with ha
  have ha0 : 0 ≤ a := hd.nonneg (by linarith)
  have haw : a ≤ w := hd.mono (by linarith)
  set p := A.rnd (a / w) with hp
  have hq0 : 0 ≤ a / w := by positivity
  have hq1 : a / w ≤ 1 := (div_le_one hw0).mpr haw
  have p0 : 0 ≤ p := hd.nonneg hq0
  have p1 : p ≤ 1 := hd.le_one hq1
  obtain ⟨p', r1, r2, r3, r4⟩ := logit_return hA (mu := mu) (p := p) (by rw [hp, hd.idem]) p0 p1 hs hs1
  have hrun : inverseCoordD A .logit (fin lo) (fin hi) (fin mu) (fin sigma) (forwardLogitD A (fin lo) (fin hi) (fin mu) (fin sigma) (fin x)) =
      fin (A.rnd (A.rnd (p' * w) + lo)) := by
    unfold inverseCoordD forwardLogitD
    rw [invCoordD_both]
    have hf : fwdLogitD A (fin lo) (fin hi) (fin x) = A.logF (A.round (fin p / A.round (fin 1 - fin p))) := by
      unfold fwdLogitD
      have : A.round (A.round (fin x - fin lo) / A.round (fin hi - fin lo)) = fin p := by
        rw [fin_sub, fin_sub]
        show A.round (fin a / fin w) = fin p
        rw [fin_div _ _ hw0.ne']
        rfl
      simp only [this]
    rw [hf]
    exact logit_point lo hi p' _ r1
  refine ⟨_, hrun, ?_⟩
  -- error analysis
  set E := (30 + 6 * |mu|) * uu with hE
  have hmu0 := abs_nonneg mu
  have hE0 : 0 ≤ E := by positivity
  have hE1 : E ≤ 1 := by
    have h1 : (30 + 6 * |mu|) * uu ≤ (30 + 6 * 2 ^ 30) * uu := mul_le_mul_of_nonneg_right (by linarith) hu.le
    have h2 : (30 + 6 * 2 ^ 30) * uu ≤ 1 := by unfold uu; norm_num
    linarith
  set W := |lo| + |hi| with hWd
  have hW : hi - lo ≤ W := by rw [hWd]; linarith [le_abs_self hi, neg_abs_le lo]
  have hWpos : 0 < W := by linarith
  have hxW : |x| ≤ W := by
    rw [hWd, abs_le]; constructor <;> linarith [le_abs_self hi, neg_abs_le lo, abs_nonneg lo, abs_nonneg hi]
  have e1 := hd.err (hi - lo)
  rw [← hw, abs_of_pos (show 0 < hi - lo by linarith)] at e1
  have e2 := hd.err (x - lo)
  rw [← ha, abs_of_nonneg (show 0 ≤ x - lo by linarith)] at e2
  have e3 := hd.err (a / w)
  rw [← hp, abs_of_nonneg hq0] at e3
  have f1 : uu * (hi - lo) ≤ uu * W := mul_le_mul_of_nonneg_left hW hu.le
  have f2 : uu * (x - lo) ≤ uu * W := mul_le_mul_of_nonneg_left (by linarith) hu.le
  have f3 : uu * (a / w) ≤ uu * 1 := mul_le_mul_of_nonneg_left hq1 hu.le
  have huW : uu * W ≤ 1 / 1000 * W := mul_le_mul_of_nonneg_right hus hWpos.le
  have hwW : w ≤ 1.01 * W + eta := by linarith [(abs_le.mp e1).2]
  -- p * w is close to a
  have g1 : |p * w - a| ≤ (uu + eta) * w := by
    have : p * w - a = (p - a / w) * w := by field_simp
    rw [this, abs_mul, abs_of_pos hw0]
    exact mul_le_mul_of_nonneg_right (by linarith) hw0.le
  have g2 : |p' * w - p * w| ≤ E * w := by
    rw [← sub_mul, abs_mul, abs_of_pos hw0]
    exact mul_le_mul_of_nonneg_right r4 hw0.le
  have hpw : p' * w ≤ 1 * w := mul_le_mul_of_nonneg_right r3 hw0.le
  have g3 : |A.rnd (p' * w) - p' * w| ≤ uu * w + eta := by
    have e4 := hd.err (p' * w)
    rw [abs_of_nonneg (mul_nonneg r2 hw0.le)] at e4
    have : uu * (p' * w) ≤ uu * (1 * w) := mul_le_mul_of_nonneg_left hpw hu.le
    rw [one_mul] at this
    linarith
  set s := A.rnd (p' * w) + lo with hs'
  have g4 : |s - x| ≤ (E + 2 * uu + eta) * w + uu * W + 2 * eta := by
    have i1 := abs_le.mp g1
    have i2 := abs_le.mp g2
    have i3 := abs_le.mp g3
    have i4 := abs_le.mp e2
    have : (E + 2 * uu + eta) * w = E * w + uu * w + (uu + eta) * w := by ring
    rw [this, hs', abs_le]
    constructor <;> linarith
  have heu : eta ≤ uu / 8 := by
    have : uu / 8 = 2⁻¹ ^ 56 := by unfold uu; norm_num
    rw [this]; exact eta_le _ (by norm_num)
  set G := E + 2 * uu + eta with hG
  have hG0 : 0 ≤ G := by linarith
  have hG2 : G ≤ 2 := by linarith
  have g5 : G * w ≤ 1.01 * (G * W) + 2 * eta := by
    have h1 : G * w ≤ G * (1.01 * W + eta) := mul_le_mul_of_nonneg_left hwW hG0
    have h2 : G * eta ≤ 2 * eta := mul_le_mul_of_nonneg_right hG2 heta0.le
    have h3 : G * (1.01 * W + eta) = 1.01 * (G * W) + G * eta := by ring
    linarith
  have hGW : 0 ≤ G * W := by positivity
  have hGW2 : G * W ≤ 2 * W := mul_le_mul_of_nonneg_right hG2 hWpos.le
  have g6 : |s - x| ≤ 1.01 * (G * W) + uu * W + 4 * eta := by linarith
  have g7 : |s| ≤ 4 * W + 4 * eta := by
    have := abs_add_le x (s - x)
    rw [add_sub_cancel] at this
    linarith
  have e5 := hd.err s
  have g8 : uu * |s| ≤ 4 * (uu * W) + eta := by
    have h1 : uu * |s| ≤ uu * (4 * W + 4 * eta) := mul_le_mul_of_nonneg_left g7 hu.le
    have h2 : uu * eta ≤ 1 / 1000 * eta := mul_le_mul_of_nonneg_right hus heta0.le
    have h3 : uu * (4 * W + 4 * eta) = 4 * (uu * W) + 4 * (uu * eta) := by ring
    linarith
  have g9 : |A.rnd s - x| ≤ 1.01 * (G * W) + 5 * (uu * W) + 6 * eta := by
    have := abs_add_le (A.rnd s - s) (s - x)
    rw [show A.rnd s - s + (s - x) = A.rnd s - x by ring] at this
    linarith
  refine g9.trans ?_
  have h47 : (2⁻¹ : ℝ) ^ 47 = 64 * uu := by unfold uu; norm_num
  have heta : 6 * eta ≤ 2⁻¹ ^ 1000 := by
    have h1 := eta_le 1003 (by norm_num)
    have h2 : (2⁻¹ : ℝ) ^ 1003 * 8 = 2⁻¹ ^ 1000 := by rw [pow_add (2⁻¹ : ℝ) 1000 3]; ring
    have h3 : eta * 8 ≤ (2⁻¹ : ℝ) ^ 1003 * 8 := mul_le_mul_of_nonneg_right h1 (by norm_num)
    rw [h2] at h3
    refine le_trans ?_ h3
    linarith
  rw [h47]
  generalize (2⁻¹ : ℝ) ^ 1000 = t at *
  have hGl : G ≤ (33 + 6 * |mu|) * uu := by
    rw [hG, hE]
    have : (33 + 6 * |mu|) * uu = (30 + 6 * |mu|) * uu + 3 * uu := by ring
    linarith
  have hGW3 : G * W ≤ (33 + 6 * |mu|) * uu * W := mul_le_mul_of_nonneg_right hGl hWpos.le
  have k1 : (33 + 6 * |mu|) * uu * W = 33 * (uu * W) + 6 * (|mu| * (uu * W)) := by ring
  have k2 : 64 * uu * (1 + |mu|) * W = 64 * (uu * W) + 64 * (|mu| * (uu * W)) := by ring
  have k3 : 0 ≤ uu * W := by positivity
  have k4 : 0 ≤ |mu| * (uu * W) := by positivity
  linarith

end Poco
