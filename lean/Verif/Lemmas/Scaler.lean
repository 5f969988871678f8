import Verif.Lemmas.Float
import Verif.Lemmas.Erf
import Verif.Spec.Scaler
import Mathlib.Analysis.Calculus.Deriv.Inv
import Mathlib.Analysis.SpecialFunctions.ExpDeriv
import Mathlib.LinearAlgebra.Matrix.ToLin
import Mathlib.LinearAlgebra.Matrix.NonsingularInverse
import Mathlib.Analysis.Calculus.FDeriv.Pi
import Mathlib.Topology.Algebra.Module.FiniteDimension
import Mathlib.Analysis.Normed.Module.FiniteDimension
import Mathlib.Tactic.Positivity
import Mathlib.Tactic.FieldSimp

/-! The coordinate and row transformations on finite values. -/

namespace Poco
open F Spec

/-- What one coordinate transformation does, over the reals: `g` is the inverse map (u to x), `g'` its derivative,
`f` the forward map. -/
structure CoordOk (t : Transform) (low high : F) (g g' f : ℝ → ℝ) : Prop where
  inv : ∀ u, invCoord t low high (fin u) = (fin (g u), fin (Real.log |g' u|))
  deriv : ∀ u, HasDerivAt g (g' u) u
  ne : ∀ u, g' u ≠ 0
  inside : ∀ u, (∀ l, low = fin l → l < g u) ∧ (∀ h, high = fin h → g u < h)
  fwd : ∀ x, (∀ l, low = fin l → l < x) → (∀ h, high = fin h → x < h) → fwdCoord t low high (fin x) = fin (f x)
  gf : ∀ x, (∀ l, low = fin l → l < x) → (∀ h, high = fin h → x < h) → g (f x) = x
  fg : ∀ u, f (g u) = u

/-- logistic function, as computed by the code -/
noncomputable def sigm (u : ℝ) : ℝ := Real.exp (-Real.log (1 + Real.exp (-u)))

theorem sigm_eq (u : ℝ) : sigm u = 1 / (1 + Real.exp (-u)) := by
  unfold sigm
  rw [Real.exp_neg, Real.exp_log (by positivity), one_div]

theorem sigm_pos (u : ℝ) : 0 < sigm u := Real.exp_pos _
theorem one_sub_sigm (u : ℝ) : 1 - sigm u = Real.exp (-u) / (1 + Real.exp (-u)) := by
  rw [sigm_eq]; field_simp; ring
theorem sigm_lt_one (u : ℝ) : sigm u < 1 := by
  have : 0 < 1 - sigm u := by rw [one_sub_sigm]; positivity
  linarith

theorem hasDerivAt_sigm (u : ℝ) : HasDerivAt sigm (sigm u * (1 - sigm u)) u := by
  have h1 : HasDerivAt (fun u : ℝ => 1 + Real.exp (-u)) (-Real.exp (-u)) u := by
    have := ((hasDerivAt_neg u).exp).const_add 1
    simpa using this
  have h2 := h1.inv (by positivity)
  have e : sigm = fun u => (1 + Real.exp (-u))⁻¹ := by
    funext v; rw [sigm_eq, one_div]
  rw [e]
  refine h2.congr_deriv ?_
  simp only
  field_simp
  ring

theorem logit_sigm (u : ℝ) : Real.log (sigm u / (1 - sigm u)) = u := by
  have : sigm u / (1 - sigm u) = Real.exp u := by
    rw [one_sub_sigm, sigm_eq, Real.exp_neg]
    have := Real.exp_pos u
    field_simp
  rw [this, Real.log_exp]

theorem sigm_logit {p : ℝ} (h0 : 0 < p) (h1 : p < 1) : sigm (Real.log (p / (1 - p))) = p := by
  have hq : 0 < 1 - p := by linarith
  rw [sigm_eq, Real.exp_neg, Real.exp_log (div_pos h0 hq)]
  field_simp
  ring

theorem masks_none {low high : F} (h1 : low.isfinite = false) (h2 : high.isfinite = false) :
    createMasks low high = ⟨true, false, false, false⟩ := by simp [createMasks, h1, h2]
theorem masks_right {low high : F} (h1 : low.isfinite = false) (h2 : high.isfinite = true) :
    createMasks low high = ⟨false, false, true, false⟩ := by simp [createMasks, h1, h2]
theorem masks_left {low high : F} (h1 : low.isfinite = true) (h2 : high.isfinite = false) :
    createMasks low high = ⟨false, true, false, false⟩ := by simp [createMasks, h1, h2]
theorem masks_both {low high : F} (h1 : low.isfinite = true) (h2 : high.isfinite = true) :
    createMasks low high = ⟨false, false, false, true⟩ := by simp [createMasks, h1, h2]

theorem not_finite_ne {a : F} (h : a.isfinite = false) (r : ℝ) : a ≠ fin r := by
  rintro rfl; simp at h

theorem coordOk_none (t : Transform) {low high : F} (h1 : low.isfinite = false) (h2 : high.isfinite = false) :
    CoordOk t low high id (fun _ => 1) id where
  inv u := by simp [invCoord, masks_none h1 h2]
  deriv u := hasDerivAt_id u
  ne u := one_ne_zero
  inside u := ⟨fun l h => absurd h (not_finite_ne h1 l), fun l h => absurd h (not_finite_ne h2 l)⟩
  fwd x _ _ := by simp [fwdCoord, masks_none h1 h2]
  gf x _ _ := rfl
  fg u := rfl

theorem coordOk_left (t : Transform) (l : ℝ) {high : F} (h2 : high.isfinite = false) :
    CoordOk t (fin l) high (fun u => Real.exp u + l) Real.exp (fun x => Real.log (x - l)) where
  inv u := by simp [invCoord, masks_left (isfinite_fin l) h2, invLeft, abs_of_pos (Real.exp_pos u)]
  deriv u := (Real.hasDerivAt_exp u).add_const l
  ne u := (Real.exp_pos u).ne'
  inside u := ⟨fun l' h => by
    simp only [fin_inj] at h; subst h
    have := Real.exp_pos u; linarith, fun l h => absurd h (not_finite_ne h2 l)⟩
  fwd x hl _ := by
    have := hl l rfl
    simp only [fwdCoord, masks_left (isfinite_fin l) h2, fwdLeft, fin_sub]
    rw [log_fin _ (by linarith)]
    simp
  gf x hl _ := by
    have := hl l rfl
    rw [Real.exp_log (by linarith)]; ring
  fg u := by simp

theorem coordOk_right (t : Transform) (h : ℝ) {low : F} (h1 : low.isfinite = false) :
    CoordOk t low (fin h) (fun u => h - Real.exp u) (fun u => -Real.exp u) (fun x => Real.log (h - x)) where
  inv u := by simp [invCoord, masks_right h1 (isfinite_fin h), invRight]
  deriv u := (Real.hasDerivAt_exp u).const_sub h
  ne u := neg_ne_zero.mpr (Real.exp_pos u).ne'
  inside u := ⟨fun l h => absurd h (not_finite_ne h1 l), fun l' h => by
    simp only [fin_inj] at h; subst h
    have := Real.exp_pos u; linarith⟩
  fwd x _ hl := by
    have := hl h rfl
    simp only [fwdCoord, masks_right h1 (isfinite_fin h), fwdRight, fin_sub]
    rw [log_fin _ (by linarith)]
    simp
  gf x _ hl := by
    have := hl h rfl
    rw [Real.exp_log (by linarith)]; ring
  fg u := by simp

theorem coordOk_logit (l h : ℝ) (hlh : l < h) :
    CoordOk .logit (fin l) (fin h) (fun u => sigm u * (h - l) + l) (fun u => sigm u * (1 - sigm u) * (h - l))
      (fun x => Real.log ((x - l) / (h - l) / (1 - (x - l) / (h - l)))) where
  inv u := by
    have hw : 0 < h - l := by linarith
    have hp := sigm_pos u
    have hq : 0 < 1 - sigm u := by have := sigm_lt_one u; linarith
    have e : exp (-(logaddexp (fin 0) (-(fin u)))) = fin (sigm u) := by
      rw [fin_neg, logaddexp_fin]; simp [sigm]
    simp only [invCoord, masks_both (isfinite_fin l) (isfinite_fin h), invBoth, e, fin_sub, fin_mul, fin_add]
    rw [log_fin _ hw, log_fin _ hp, log_fin _ hq]
    simp only [Bool.false_eq_true, if_false, if_true, fin_add, Prod.mk.injEq, true_and, fin_inj]
    rw [abs_of_pos (by positivity), Real.log_mul (by positivity) hw.ne', Real.log_mul hp.ne' hq.ne']
    ring
  deriv u := ((hasDerivAt_sigm u).mul_const (h - l)).add_const l
  ne u := by
    have hw : 0 < h - l := by linarith
    have hp := sigm_pos u
    have hq : 0 < 1 - sigm u := by have := sigm_lt_one u; linarith
    positivity
  inside u := by
    have hw : 0 < h - l := by linarith
    have hp := sigm_pos u
    have hq := sigm_lt_one u
    refine ⟨fun l' e => ?_, fun h' e => ?_⟩
    · simp only [fin_inj] at e; subst e; nlinarith
    · simp only [fin_inj] at e; subst e; nlinarith
  fwd x hl hh := by
    have h1 := hl l rfl
    have h2 := hh h rfl
    have hw : 0 < h - l := by linarith
    have hp : 0 < (x - l) / (h - l) := div_pos (by linarith) hw
    have hq : 0 < 1 - (x - l) / (h - l) := by
      rw [sub_pos, div_lt_one hw]; linarith
    simp only [fwdCoord, masks_both (isfinite_fin l) (isfinite_fin h), fwdBoth, fin_sub]
    rw [fin_div _ _ hw.ne', fin_sub, fin_div _ _ hq.ne', log_fin _ (div_pos hp hq)]
    simp
  gf x hl hh := by
    have h1 := hl l rfl
    have h2 := hh h rfl
    have hw : 0 < h - l := by linarith
    rw [sigm_logit (div_pos (by linarith) hw) (by rw [div_lt_one hw]; linarith), div_mul_cancel₀ _ hw.ne']; ring
  fg u := by
    have hw : 0 < h - l := by linarith
    simp only [add_sub_cancel_right]
    rw [mul_div_cancel_right₀ _ hw.ne', logit_sigm]

/-- normal cdf as computed by the code -/
noncomputable def phi (u : ℝ) : ℝ := (erfR (u / Real.sqrt 2) + 1) / 2

theorem phi_pos (u : ℝ) : 0 < phi u := by
  have := neg_one_lt_erfR (u / Real.sqrt 2); unfold phi; linarith
theorem phi_lt_one (u : ℝ) : phi u < 1 := by
  have := erfR_lt_one (u / Real.sqrt 2); unfold phi; linarith

theorem hasDerivAt_phi (u : ℝ) : HasDerivAt phi (Real.exp (-u ^ 2 / 2) / Real.sqrt (2 * Real.pi)) u := by
  have h1 : HasDerivAt (fun u : ℝ => u / Real.sqrt 2) (1 / Real.sqrt 2) u := (hasDerivAt_id u).div_const _
  have h2 := (((hasDerivAt_erfR (u / Real.sqrt 2)).comp u h1).add_const 1).div_const 2
  refine h2.congr_deriv ?_
  have hs : Real.sqrt 2 ≠ 0 := (Real.sqrt_pos.mpr two_pos).ne'
  have hp : Real.sqrt Real.pi ≠ 0 := (Real.sqrt_pos.mpr Real.pi_pos).ne'
  rw [div_pow, Real.sq_sqrt (by norm_num), Real.sqrt_mul (by norm_num), neg_div]
  field_simp

theorem coordOk_probit (l h : ℝ) (hlh : l < h) :
    CoordOk .probit (fin l) (fin h) (fun u => phi u * (h - l) + l)
      (fun u => Real.exp (-u ^ 2 / 2) / Real.sqrt (2 * Real.pi) * (h - l))
      (fun x => Real.sqrt 2 * erfinvR (2 * ((x - l) / (h - l)) - 1)) where
  inv u := by
    have hw : 0 < h - l := by linarith
    have hs : Real.sqrt 2 ≠ 0 := (Real.sqrt_pos.mpr two_pos).ne'
    have h2p : 0 < 2 * Real.pi := by positivity
    have hsp : 0 < Real.sqrt (2 * Real.pi) := Real.sqrt_pos.mpr h2p
    have e : (erf (fin u / fin (Real.sqrt 2)) + fin 1) / fin 2 = fin (phi u) := by
      rw [fin_div _ _ hs]
      simp only [erf, fin_add]
      rw [fin_div _ _ two_ne_zero]; rfl
    simp only [invCoord, masks_both (isfinite_fin l) (isfinite_fin h), invBoth, e, fin_sub, fin_mul, fin_add, sq_fin,
      fin_neg]
    rw [log_fin _ hw, sqrt_fin _ h2p.le, log_fin _ hsp, fin_div _ _ two_ne_zero]
    simp only [Bool.false_eq_true, if_false, if_true, fin_add, fin_sub, Prod.mk.injEq, true_and, fin_inj]
    have hpos : 0 < Real.exp (-u ^ 2 / 2) / Real.sqrt (2 * Real.pi) := by positivity
    rw [abs_of_pos (mul_pos hpos hw), Real.log_mul hpos.ne' hw.ne', Real.log_div (Real.exp_ne_zero _) hsp.ne',
      Real.log_exp]
    ring
  deriv u := ((hasDerivAt_phi u).mul_const (h - l)).add_const l
  ne u := by
    have hw : 0 < h - l := by linarith
    have : 0 < Real.sqrt (2 * Real.pi) := Real.sqrt_pos.mpr (by positivity)
    positivity
  inside u := by
    have hw : 0 < h - l := by linarith
    have hp := phi_pos u
    have hq := phi_lt_one u
    refine ⟨fun l' e => ?_, fun h' e => ?_⟩
    · simp only [fin_inj] at e; subst e; nlinarith
    · simp only [fin_inj] at e; subst e; nlinarith
  fwd x hl hh := by
    have h1 := hl l rfl
    have h2 := hh h rfl
    have hw : 0 < h - l := by linarith
    have hp : 0 < (x - l) / (h - l) := div_pos (by linarith) hw
    have hq : (x - l) / (h - l) < 1 := by rw [div_lt_one hw]; linarith
    simp only [fwdCoord, masks_both (isfinite_fin l) (isfinite_fin h), fwdBoth, fin_sub]
    rw [fin_div _ _ hw.ne', fin_mul, fin_sub]
    simp only [erfinv]
    rw [if_pos trivial, if_neg (by linarith), if_neg (by linarith), if_pos ⟨by linarith, by linarith⟩, fin_mul]
  gf x hl hh := by
    have h1 := hl l rfl
    have h2 := hh h rfl
    have hw : 0 < h - l := by linarith
    have hs : Real.sqrt 2 ≠ 0 := (Real.sqrt_pos.mpr two_pos).ne'
    have hp : 0 < (x - l) / (h - l) := div_pos (by linarith) hw
    have hq : (x - l) / (h - l) < 1 := by rw [div_lt_one hw]; linarith
    simp only [phi]
    rw [mul_div_cancel_left₀ _ hs, erfR_erfinvR (by linarith) (by linarith)]
    have : (2 * ((x - l) / (h - l)) - 1 + 1) / 2 = (x - l) / (h - l) := by ring
    rw [this, div_mul_cancel₀ _ hw.ne']; ring
  fg u := by
    have hw : 0 < h - l := by linarith
    have hs : Real.sqrt 2 ≠ 0 := (Real.sqrt_pos.mpr two_pos).ne'
    simp only [add_sub_cancel_right]
    rw [mul_div_cancel_right₀ _ hw.ne']
    have : 2 * phi u - 1 = erfR (u / Real.sqrt 2) := by unfold phi; ring
    rw [this, erfinvR_erfR, mul_div_cancel₀ _ hs]

/-- Every proper pair of bounds has real coordinate maps. -/
theorem coordOk_exists (t : Transform) (low high : F) (hp : ∀ l h, low = fin l → high = fin h → l < h) :
    ∃ g g' f, CoordOk t low high g g' f := by
  cases hl : low.isfinite with
  | false =>
    cases hh : high.isfinite with
    | false => exact ⟨_, _, _, coordOk_none t hl hh⟩
    | true =>
      obtain ⟨h, rfl⟩ := isfinite_iff.mp hh
      exact ⟨_, _, _, coordOk_right t h hl⟩
  | true =>
    obtain ⟨l, rfl⟩ := isfinite_iff.mp hl
    cases hh : high.isfinite with
    | false => exact ⟨_, _, _, coordOk_left t l hh⟩
    | true =>
      obtain ⟨h, rfl⟩ := isfinite_iff.mp hh
      cases t with
      | logit => exact ⟨_, _, _, coordOk_logit l h (hp l h rfl rfl)⟩
      | probit => exact ⟨_, _, _, coordOk_probit l h (hp l h rfl rfl)⟩

/-! ### affine part -/

variable {d : ℕ}

theorem sum_ofFn_fin (f : Fin d → ℝ) : F.sum (List.ofFn fun i => fin (f i)) = fin (∑ i, f i) := by
  have : (List.ofFn fun i => fin (f i)) = (List.ofFn f).map fin := by simp [List.map_ofFn, Function.comp_def]
  rw [this, sum_fin, List.sum_ofFn]

theorem Affine.Ok.real {a : Affine d} (h : a.Ok) :
    ∃ (m : Fin d → ℝ) (M N : Matrix (Fin d) (Fin d) ℝ), M * N = 1 ∧ N * M = 1 ∧ M.det ≠ 0 ∧
      (∀ u : Fin d → ℝ, a.inverse (fun i => fin (u i)) = ((fun i => fin (m i + (M.mulVec u) i)),
        fin (Real.log |M.det|))) ∧
      (∀ x : Fin d → ℝ, a.forward (fun i => fin (x i)) = fun i => fin ((N.mulVec (x - m)) i)) := by
  cases a with
  | diag mu sigma =>
    obtain ⟨m, s, rfl, rfl, hs⟩ := h
    refine ⟨m, Matrix.diagonal s, Matrix.diagonal fun i => (s i)⁻¹, ?_, ?_, ?_, ?_, ?_⟩
    · rw [Matrix.diagonal_mul_diagonal]
      have : (fun i => s i * (s i)⁻¹) = 1 := by funext i; simp [(hs i).ne']
      rw [this]; exact Matrix.diagonal_one
    · rw [Matrix.diagonal_mul_diagonal]
      have : (fun i => (s i)⁻¹ * s i) = 1 := by funext i; simp [(hs i).ne']
      rw [this]; exact Matrix.diagonal_one
    · rw [Matrix.det_diagonal]
      exact Finset.prod_ne_zero_iff.mpr fun i _ => (hs i).ne'
    · intro u
      simp only [Affine.inverse]
      refine Prod.ext ?_ ?_
      · funext i
        simp [Matrix.mulVec_diagonal]
      · have e : (List.ofFn fun i => log (fin (s i))) = List.ofFn fun i => fin (Real.log (s i)) := by
          congr 1; funext i; exact log_fin _ (hs i)
        simp only
        rw [e, sum_ofFn_fin, Matrix.det_diagonal, Finset.abs_prod,
          Real.log_prod (fun i _ => abs_ne_zero.mpr (hs i).ne')]
        simp
    · intro x
      simp only [Affine.forward]
      funext i
      rw [fin_sub, fin_div _ _ (hs i).ne', Matrix.mulVec_diagonal]
      congr 1
      simp [div_eq_inv_mul]
  | full mu L Linv ld =>
    obtain ⟨m, M, N, rfl, rfl, rfl, hMN, rfl⟩ := h
    have hNM : N * M = 1 := mul_eq_one_comm.mp hMN
    refine ⟨m, M, N, hMN, hNM, ?_, ?_, ?_⟩
    · intro hc
      have := congrArg Matrix.det hMN
      rw [Matrix.det_mul, hc, Matrix.det_one, zero_mul] at this
      exact zero_ne_one this
    · intro u
      simp only [Affine.inverse]
      refine Prod.ext ?_ rfl
      funext i
      simp only [fin_mul]
      rw [sum_ofFn_fin, fin_add]
      rfl
    · intro x
      simp only [Affine.forward]
      funext i
      simp only [fin_sub, fin_mul]
      rw [sum_ofFn_fin]
      rfl

/-- All the real maps behind a usable scaler. -/
theorem Scaler.Ok.real {s : Scaler d} (hs : s.Ok) :
    ∃ (G Fw : (Fin d → ℝ) → (Fin d → ℝ)) (J : (Fin d → ℝ) → Matrix (Fin d) (Fin d) ℝ),
      (∀ u, s.inverseRow (fun i => fin (u i)) = .ok ((fun i => fin (G u i)), fin (Real.log |(J u).det|))) ∧
      (∀ u, HasFDerivAt G (LinearMap.toContinuousLinearMap (Matrix.toLin' (J u))) u) ∧
      (∀ u, (J u).det ≠ 0) ∧
      (∀ u, StrictlyInside s.low s.high (G u)) ∧
      (∀ x, StrictlyInside s.low s.high x → s.forwardRow (fun i => fin (x i)) = .ok (fun i => fin (Fw x i)) ∧
        G (Fw x) = x) ∧
      (∀ u, Fw (G u) = u) := by
  obtain ⟨hb, ha⟩ := hs
  have hco : ∀ i, ∃ g g' f, CoordOk s.transform (s.low i) (s.high i) g g' f :=
    fun i => coordOk_exists _ _ _ (hb i).2.2
  choose g g' f hc using hco
  -- the affine part, the identity when `scale` is off
  have haff : ∃ (m : Fin d → ℝ) (M N : Matrix (Fin d) (Fin d) ℝ), M * N = 1 ∧ N * M = 1 ∧ M.det ≠ 0 ∧
      (∀ u : Fin d → ℝ, s.inverseRow (fun i => fin (u i)) = .ok
        ((s.invRow (fun i => fin (m i + (M.mulVec u) i))).1,
          fin (Real.log |M.det|) + (s.invRow (fun i => fin (m i + (M.mulVec u) i))).2)) ∧
      (∀ x y : Fin d → ℝ, s.fwdRow (fun i => fin (x i)) = (fun i => fin (y i)) →
        s.forwardRow (fun i => fin (x i)) = .ok fun i => fin ((N.mulVec (y - m)) i)) := by
    cases hsc : s.scale with
    | true =>
      obtain ⟨a, ha1, ha2⟩ := ha hsc
      obtain ⟨m, M, N, h1, h2, h3, h4, h5⟩ := ha2.real
      refine ⟨m, M, N, h1, h2, h3, ?_, ?_⟩
      · intro u
        simp only [Scaler.inverseRow, hsc, if_true, ha1, h4]
      · intro x y hxy
        simp only [Scaler.forwardRow, hsc, if_true, ha1, hxy, h5]
    | false =>
      refine ⟨0, 1, 1, by simp, by simp, by simp, ?_, ?_⟩
      · intro u
        simp only [Scaler.inverseRow, hsc, Bool.false_eq_true, if_false, Matrix.one_mulVec, Matrix.det_one, abs_one,
          Real.log_one, Pi.zero_apply, zero_add]
        have : ∀ z : F, fin 0 + z = z := fun z => F.zero_add' z
        rw [this]
      · intro x y hxy
        simp only [Scaler.forwardRow, hsc, Bool.false_eq_true, if_false, hxy, Matrix.one_mulVec, sub_zero]
  obtain ⟨m, M, N, hMN, hNM, hdet, hinv, hfwd⟩ := haff
  have hrow : ∀ v : Fin d → ℝ, s.invRow (fun i => fin (v i))
      = ((fun i => fin (g i (v i))), fin (∑ i, Real.log |g' i (v i)|)) := by
    intro v
    unfold Scaler.invRow
    simp only [(hc _).inv]
    rw [sum_ofFn_fin]
  refine ⟨fun u i => g i (m i + (M.mulVec u) i), fun x => N.mulVec ((fun i => f i (x i)) - m),
    fun u => Matrix.diagonal (fun i => g' i (m i + (M.mulVec u) i)) * M, ?_, ?_, ?_, ?_, ?_, ?_⟩
  · intro u
    rw [hinv, hrow]
    simp only [fin_add, Except.ok.injEq, Prod.mk.injEq, true_and, fin_inj]
    rw [Matrix.det_mul, Matrix.det_diagonal, abs_mul, Real.log_mul _ (abs_ne_zero.mpr hdet), Finset.abs_prod,
      Real.log_prod (fun i _ => abs_ne_zero.mpr ((hc i).ne _))]
    · ring
    · rw [Finset.abs_prod]
      exact Finset.prod_ne_zero_iff.mpr fun i _ => abs_ne_zero.mpr ((hc i).ne _)
  · intro u
    rw [hasFDerivAt_pi']
    intro i
    have h1 : HasFDerivAt (fun u : Fin d → ℝ => m i + (M.mulVec u) i)
        ((ContinuousLinearMap.proj i).comp (LinearMap.toContinuousLinearMap (Matrix.toLin' M))) u := by
      have := ((ContinuousLinearMap.proj (R := ℝ) (φ := fun _ : Fin d => ℝ) i).comp
        (LinearMap.toContinuousLinearMap (Matrix.toLin' M))).hasFDerivAt (x := u)
      exact this.const_add (m i)
    have h2 := ((hc i).deriv (m i + (M.mulVec u) i)).hasFDerivAt.comp u h1
    refine h2.congr_fderiv ?_
    ext v
    simp [Matrix.mulVec_diagonal, ← Matrix.mulVec_mulVec, mul_comm]
  · intro u
    rw [Matrix.det_mul, Matrix.det_diagonal]
    exact mul_ne_zero (Finset.prod_ne_zero_iff.mpr fun i _ => (hc i).ne _) hdet
  · intro u i
    exact (hc i).inside _
  · intro x hx
    refine ⟨hfwd x _ ?_, ?_⟩
    · funext i
      exact (hc i).fwd (x i) (hx i).1 (hx i).2
    · funext i
      simp only
      have : (M.mulVec (N.mulVec ((fun i => f i (x i)) - m))) i = f i (x i) - m i := by
        rw [Matrix.mulVec_mulVec, hMN, Matrix.one_mulVec]; rfl
      rw [this, add_sub_cancel, (hc i).gf (x i) (hx i).1 (hx i).2]
  · intro u
    simp only
    have : ((fun i => f i (g i (m i + (M.mulVec u) i))) - m) = M.mulVec u := by
      funext i
      simp only [Pi.sub_apply, (hc i).fg, add_sub_cancel_left]
    rw [this, Matrix.mulVec_mulVec, hNM, Matrix.one_mulVec]

end Poco
