import Verif.Spec.Geometry
import Verif.Lemmas.Run
import Mathlib.Algebra.Order.Chebyshev

/-! C71, C87, C88, C89: the Student-t fit and `Geometry.fit`. -/

namespace Poco
open Spec

variable {d : ℕ}

/-! ### quadratic forms -/

noncomputable def quadForm (S : Matrix (Fin d) (Fin d) ℝ) (v : Vec d) : ℝ := ∑ j, ∑ k, v j * S j k * v k

theorem quad_eq (S : Matrix (Fin d) (Fin d) ℝ) (v : Vec d) : quadForm S v = v ⬝ᵥ S.mulVec v := by
  unfold quadForm
  simp only [dotProduct, Matrix.mulVec, Finset.mul_sum, mul_assoc]

/-- the quadratic form of a weighted sum of products -/
theorem quad_scatter (l : List (ℝ × Vec d)) (c : ℝ) (v : Vec d) :
    quadForm (fun j k => (l.map fun p => p.1 * p.2 j * p.2 k).sum / c) v = (l.map fun p => p.1 * (v ⬝ᵥ p.2) ^ 2).sum / c := by
  unfold quadForm
  induction l with
  | nil => simp
  | cons p l ih =>
    simp only [List.map_cons, List.sum_cons, add_div, mul_add, add_mul, Finset.sum_add_distrib, ih]
    congr 1
    rw [sq, dotProduct, Finset.sum_mul_sum, Finset.mul_sum, Finset.sum_div]
    apply Finset.sum_congr rfl
    intro j _
    rw [Finset.mul_sum, Finset.sum_div]
    apply Finset.sum_congr rfl
    intro k _
    ring

theorem sum_nonneg_of {α : Type} (l : List α) (f : α → ℝ) (h : ∀ a ∈ l, 0 ≤ f a) : 0 ≤ (l.map f).sum := by
  apply List.sum_nonneg
  intro x hx
  obtain ⟨a, ha, rfl⟩ := List.mem_map.mp hx
  exact h a ha

theorem isCov_scatter (l : List (ℝ × Vec d)) (c : ℝ) (hc : 0 ≤ c) (hw : ∀ p ∈ l, 0 ≤ p.1) :
    IsCov (fun j k => (l.map fun p => p.1 * p.2 j * p.2 k).sum / c : Matrix (Fin d) (Fin d) ℝ) := by
  refine ⟨fun j k => ?_, fun v => ?_⟩
  · have : (l.map fun p => p.1 * p.2 j * p.2 k) = l.map fun p => p.1 * p.2 k * p.2 j :=
      List.map_congr_left fun p _ => by ring
    exact congrArg (fun q : List ℝ => q.sum / c) this
  · have := quad_scatter l c v
    unfold quadForm at this
    rw [this]
    exact div_nonneg (sum_nonneg_of _ _ fun p hp => mul_nonneg (hw p hp) (sq_nonneg _)) hc

/-! ### the initial shape matrix -/

theorem startSigma_eq (X : List (Vec d)) (hn : 2 ≤ X.length) (j k : Fin d) :
    startSigma X j k = ((X.map fun x => ((1 : ℝ), x - colMean X)).map fun p => p.1 * p.2 j * p.2 k).sum / X.length
      + 1 / X.length * (if j = k then sampleVar X j else 0) := by
  unfold startSigma sampleCov
  have h1 : ((X.length : ℝ) - 1) ≠ 0 := by
    have : (2 : ℝ) ≤ X.length := by exact_mod_cast hn
    linarith
  rw [div_mul_cancel₀ _ h1]
  congr 3
  rw [List.map_map]
  apply List.map_congr_left
  intro x _
  simp [Function.comp]

theorem sampleVar_nonneg (X : List (Vec d)) (j : Fin d) : 0 ≤ sampleVar X j :=
  div_nonneg (sum_nonneg_of _ _ fun _ _ => sq_nonneg _) (by positivity)

theorem quad_startSigma (X : List (Vec d)) (hn : 2 ≤ X.length) (v : Vec d) :
    quadForm (startSigma X) v = (X.map fun x => (v ⬝ᵥ (x - colMean X)) ^ 2).sum / X.length
      + 1 / X.length * ∑ j, sampleVar X j * v j ^ 2 := by
  have h1 := quad_scatter (X.map fun x => ((1 : ℝ), x - colMean X)) X.length v
  rw [List.map_map] at h1
  have h2 : quadForm (startSigma X) v = quadForm (fun j k => ((X.map fun x => ((1 : ℝ), x - colMean X)).map
      fun p => p.1 * p.2 j * p.2 k).sum / X.length) v + quadForm (fun j k => 1 / X.length * (if j = k then sampleVar X j else 0)) v := by
    unfold quadForm
    rw [← Finset.sum_add_distrib]
    apply Finset.sum_congr rfl
    intro j _
    rw [← Finset.sum_add_distrib]
    apply Finset.sum_congr rfl
    intro k _
    rw [startSigma_eq X hn]
    ring
  rw [h2, h1]
  congr 1
  · congr 2
    apply List.map_congr_left
    intro x _
    simp [Function.comp]
  · unfold quadForm
    rw [Finset.mul_sum]
    apply Finset.sum_congr rfl
    intro j _
    rw [Finset.sum_eq_single j]
    · simp; ring
    · intro k _ hk
      simp [Ne.symm hk]
    · simp

theorem startSigma_cov (X : List (Vec d)) (hn : 2 ≤ X.length) : IsCov (startSigma X) := by
  refine ⟨fun j k => ?_, fun v => ?_⟩
  · rw [startSigma_eq X hn, startSigma_eq X hn]
    congr 1
    · have : ((X.map fun x => ((1 : ℝ), x - colMean X)).map fun p => p.1 * p.2 j * p.2 k) =
          (X.map fun x => ((1 : ℝ), x - colMean X)).map fun p => p.1 * p.2 k * p.2 j :=
        List.map_congr_left fun p _ => by ring
      rw [this]
    · by_cases h : j = k
      · subst h; rfl
      · rw [if_neg h, if_neg (Ne.symm h)]
  · have := quad_startSigma X hn v
    unfold quadForm at this
    rw [this]
    have h1 : 0 ≤ (X.map fun x => (v ⬝ᵥ (x - colMean X)) ^ 2).sum / (X.length : ℝ) :=
      div_nonneg (sum_nonneg_of _ _ fun _ _ => sq_nonneg _) (by positivity)
    have h2 : 0 ≤ ∑ j, sampleVar X j * v j ^ 2 :=
      Finset.sum_nonneg fun j _ => mul_nonneg (sampleVar_nonneg X j) (sq_nonneg _)
    have h3 : (0 : ℝ) ≤ 1 / X.length := by positivity
    have := mul_nonneg h3 h2
    linarith

theorem sum_map_zero {α : Type} {l : List α} {f : α → ℝ} (h : ∀ a ∈ l, 0 ≤ f a) (hs : (l.map f).sum = 0) :
    ∀ a ∈ l, f a = 0 := by
  induction l with
  | nil => intro a ha; cases ha
  | cons b l ih =>
    rw [List.map_cons, List.sum_cons] at hs
    have h1 := h b (by simp)
    have h2 := sum_nonneg_of l f fun a ha => h a (by simp [ha])
    intro a ha
    rcases List.mem_cons.mp ha with rfl | ha
    · linarith
    · exact ih (fun a ha => h a (by simp [ha])) (by linarith) a ha

theorem sampleVar_zero_iff (X : List (Vec d)) (hn : 0 < X.length) (j : Fin d) :
    sampleVar X j = 0 ↔ ∀ x ∈ X, ∀ y ∈ X, x j = y j := by
  have hpos : (0 : ℝ) < X.length := by exact_mod_cast hn
  constructor
  · intro h
    unfold sampleVar at h
    have h0 : (X.map fun x => (x j - colMean X j) ^ 2).sum = 0 := by
      rcases div_eq_zero_iff.mp h with h | h
      · exact h
      · exact absurd h hpos.ne'
    have := sum_map_zero (fun a _ => sq_nonneg (a j - colMean X j)) h0
    intro x hx y hy
    have h1 := pow_eq_zero_iff (two_ne_zero) |>.mp (this x hx)
    have h2 := pow_eq_zero_iff (two_ne_zero) |>.mp (this y hy)
    linarith
  · intro h
    have hm : ∀ x ∈ X, x j = colMean X j := by
      intro x hx
      unfold colMean
      have : (X.map fun y => y j) = X.map fun _ => x j := List.map_congr_left fun y hy => h y hy x hx
      rw [this, List.map_const', List.sum_replicate, nsmul_eq_mul]
      field_simp
    unfold sampleVar
    have : (X.map fun x => (x j - colMean X j) ^ 2) = X.map fun _ => (0 : ℝ) :=
      List.map_congr_left fun x hx => by rw [hm x hx]; ring
    rw [this]
    simp

theorem startSigma_pos (X : List (Vec d)) (hn : 2 ≤ X.length) (h : ¬ Degenerate X) : IsPosCov (startSigma X) := by
  refine ⟨(startSigma_cov X hn).1, fun v hv => ?_⟩
  have := quad_startSigma X hn v
  unfold quadForm at this
  rw [this]
  have hpos : (0 : ℝ) < X.length := by exact_mod_cast (by omega : 0 < X.length)
  have h1 : 0 ≤ (X.map fun x => (v ⬝ᵥ (x - colMean X)) ^ 2).sum / (X.length : ℝ) :=
    div_nonneg (sum_nonneg_of _ _ fun _ _ => sq_nonneg _) hpos.le
  obtain ⟨j, hj⟩ : ∃ j, v j ≠ 0 := by
    by_contra hc
    push Not at hc
    exact hv (funext hc)
  have hvar : 0 < sampleVar X j := by
    refine lt_of_le_of_ne (sampleVar_nonneg X j) fun h0 => h ⟨j, ?_⟩
    exact (sampleVar_zero_iff X (by omega) j).mp h0.symm
  have h2 : 0 < ∑ j, sampleVar X j * v j ^ 2 :=
    Finset.sum_pos' (fun j _ => mul_nonneg (sampleVar_nonneg X j) (sq_nonneg _))
      ⟨j, Finset.mem_univ j, mul_pos hvar (by positivity)⟩
  have := mul_pos (one_div_pos.mpr hpos) h2
  linarith

theorem isPosCov_det {S : Matrix (Fin d) (Fin d) ℝ} (h : IsPosCov S) : S.det ≠ 0 := by
  intro h0
  obtain ⟨v, hv, hz⟩ := Matrix.exists_mulVec_eq_zero_iff.mpr h0
  have h1 := h.2 v hv
  have h2 := quad_eq S v
  unfold quadForm at h2
  rw [h2, hz, dotProduct_zero] at h1
  exact lt_irrefl _ h1

/-- The initial shape matrix is singular exactly when the particles agree in some coordinate. -/
theorem startSigma_det_iff (X : List (Vec d)) (hn : 2 ≤ X.length) : (startSigma X).det = 0 ↔ Degenerate X := by
  constructor
  · intro h
    by_contra hc
    exact isPosCov_det (startSigma_pos X hn hc) h
  · rintro ⟨j, hj⟩
    have hv : sampleVar X j = 0 := (sampleVar_zero_iff X (by omega) j).mpr hj
    apply Matrix.det_eq_zero_of_row_eq_zero j
    intro k
    rw [startSigma_eq X hn, hv, ite_self, mul_zero, add_zero, List.map_map]
    have hx : ∀ x ∈ X, x j - colMean X j = 0 := by
      have h0 : (X.map fun x => (x j - colMean X j) ^ 2).sum = 0 := by
        unfold sampleVar at hv
        rcases div_eq_zero_iff.mp hv with h | h
        · exact h
        · exact absurd h (by positivity)
      intro x hx
      exact pow_eq_zero_iff (two_ne_zero) |>.mp (sum_map_zero (fun a _ => sq_nonneg (a j - colMean X j)) h0 x hx)
    have : (X.map ((fun p : ℝ × Vec d => p.1 * p.2 j * p.2 k) ∘ fun x => ((1 : ℝ), x - colMean X))) = X.map fun _ => (0 : ℝ) := by
      apply List.map_congr_left
      intro x hxx
      simp [Function.comp, hx x hxx]
    rw [this]
    simp

/-! ### distances -/

theorem delta_nonneg {S : Matrix (Fin d) (Fin d) ℝ} (hS : IsCov S) (hdet : S.det ≠ 0) (v : Vec d) :
    0 ≤ v ⬝ᵥ S⁻¹.mulVec v := by
  have hu : IsUnit S.det := isUnit_iff_ne_zero.mpr hdet
  have h := hS.2 (S⁻¹.mulVec v)
  have h2 := quad_eq S (S⁻¹.mulVec v)
  unfold quadForm at h2
  rw [h2, Matrix.mulVec_mulVec, Matrix.mul_nonsing_inv _ hu, Matrix.one_mulVec, dotProduct_comm] at h
  exact h

theorem deltaObs_nonneg {S : Matrix (Fin d) (Fin d) ℝ} (hS : IsCov S) (hdet : S.det ≠ 0) (mu : Vec d) (X : List (Vec d)) :
    ∀ δ ∈ deltaObs mu S X, 0 ≤ δ := by
  intro δ hδ
  obtain ⟨x, -, rfl⟩ := List.mem_map.mp hδ
  exact delta_nonneg hS hdet _

theorem emSigma_eq (X : List (Vec d)) (mu : Vec d) (w : List ℝ) :
    emSigma X mu w = fun j k => ((List.zipWith (fun v (x : Vec d) => (v, x - mu)) w X).map
      fun p => p.1 * p.2 j * p.2 k).sum / X.length := by
  funext j k
  unfold emSigma
  rw [List.map_zipWith]
  rfl

theorem emSigma_cov (X : List (Vec d)) (mu : Vec d) (w : List ℝ) (hw : ∀ v ∈ w, 0 ≤ v) : IsCov (emSigma X mu w) := by
  rw [emSigma_eq]
  apply isCov_scatter _ _ (by positivity)
  intro p hp
  obtain ⟨i, hi, rfl⟩ := List.mem_iff_getElem.mp hp
  rw [List.getElem_zipWith]
  exact hw _ (List.getElem_mem _)

theorem emWeights_pos {δ : List ℝ} (hδ : ∀ x ∈ δ, 0 ≤ x) {nu : ℝ} (hnu : 0 < nu) : ∀ v ∈ emWeights d δ nu, 0 ≤ v := by
  intro v hv
  obtain ⟨x, hx, rfl⟩ := List.mem_map.mp hv
  have := hδ x hx
  positivity

/-! ### C71 -/

set_option exponentiation.threshold 400 in
theorem optNu_pos {E : FitEnv} (hE : RootInRange E) {δ : List ℝ} {nu : ℝ} (h : E.optNu d δ = .ok (some nu)) : 0 < nu := by
  unfold FitEnv.optNu at h
  split_ifs at h with h1
  · cases h
  cases hb : E.bisect (E.func0 d δ) 1e-300 1e300 with
  | error x => rw [hb] at h; cases h
  | ok r =>
    rw [hb] at h
    cases h
    have := (hE _ _ _ _ hb).1
    have : (0 : ℝ) < 1e-300 := by norm_num
    linarith

theorem emLoop_ok {E : FitEnv} (hE : RootInRange E) (X : List (Vec d)) (tol : ℝ) : ∀ (k : ℕ) (last nu : ℝ) (mu : Vec d)
    (S : Matrix (Fin d) (Fin d) ℝ) (r : TFit d), 0 < nu → IsCov S → emLoop E X tol k last nu mu S = .ok r →
    r.iters ≤ k ∧ IsCov r.Sigma ∧ ∀ ν, r.nu = some ν → 0 < ν := by
  intro k
  induction k with
  | zero =>
    intro last nu mu S r hnu hS h
    cases h
    exact ⟨le_refl _, hS, fun ν h => by cases h; exact hnu⟩
  | succ k ih =>
    intro last nu mu S r hnu hS h
    unfold emLoop at h
    split_ifs at h with h1 h2
    · cases ho : E.optNu d (deltaObs mu S X) with
      | error x => rw [ho] at h; cases h
      | ok o =>
        rw [ho] at h
        cases o with
        | none =>
          cases h
          exact ⟨by simp, hS, fun ν h => by cases h⟩
        | some nu' =>
          dsimp only at h
          have hnu' := optNu_pos hE ho
          cases he : emLoop E X tol k nu nu' (emMu X (emWeights d (deltaObs mu S X) nu'))
              (emSigma X mu (emWeights d (deltaObs mu S X) nu')) with
          | error x => rw [he] at h; cases h
          | ok r' =>
            rw [he] at h
            cases h
            obtain ⟨h3, h4, h5⟩ := ih _ _ _ _ _ hnu'
              (emSigma_cov X mu _ (emWeights_pos (deltaObs_nonneg hS h2 mu X) hnu')) he
            exact ⟨Nat.succ_le_succ h3, h4, h5⟩
    · cases h
      exact ⟨Nat.zero_le _, hS, fun ν h => by cases h; exact hnu⟩

/-- C71.  Whatever the data, tolerance and iteration limit, and whatever the rounding, `psi` and the root finder do
(within its interval): if the fit returns, it made at most `max_iter` iterations, the returned matrix is a covariance
matrix, and the degrees of freedom are positive or infinite. -/
theorem C71_fit (E : FitEnv) (hE : RootInRange E) (X : List (Vec d)) (tol : ℝ) (maxIter : ℕ) (r : TFit d)
    (h : fitMvstud E X tol maxIter = .ok r) :
    r.iters ≤ maxIter ∧ IsCov r.Sigma ∧ ∀ ν, r.nu = some ν → 0 < ν := by
  unfold fitMvstud at h
  split_ifs at h with h1 h2
  exact emLoop_ok hE X tol maxIter 0 20 _ _ r (by norm_num) (startSigma_cov X (by omega)) h

/-! ### a bound on the distances -/

theorem dev_sq_le (X : List (Vec d)) (j : Fin d) {x : Vec d} (hx : x ∈ X) :
    (x j - colMean X j) ^ 2 ≤ X.length * sampleVar X j := by
  have hpos : (0 : ℝ) < X.length := by exact_mod_cast List.length_pos_of_mem hx
  unfold sampleVar
  rw [mul_div_cancel₀ _ hpos.ne']
  exact List.single_le_sum (by
    intro y hy
    obtain ⟨z, -, rfl⟩ := List.mem_map.mp hy
    exact sq_nonneg _) _ (List.mem_map.mpr ⟨x, hx, rfl⟩)

theorem median_mem {l : List ℝ} (hl : l ≠ []) : ∃ a ∈ l, ∃ b ∈ l, median l = (a + b) / 2 := by
  have hlen : (l.insertionSort (· ≤ ·)).length = l.length := List.length_insertionSort ..
  have hpos : 0 < l.length := List.length_pos_iff.mpr hl
  have hget : ∀ i < l.length, (l.insertionSort (· ≤ ·)).getD i 0 ∈ l := by
    intro i hi
    rw [List.getD_eq_getElem?_getD, List.getElem?_eq_getElem (by omega)]
    exact (List.perm_insertionSort (· ≤ ·) l).mem_iff.mp (List.getElem_mem _)
  exact ⟨_, hget _ (by omega), _, hget _ (by omega), rfl⟩

theorem median_dev_sq_le (X : List (Vec d)) (hX : X ≠ []) (j : Fin d) :
    (colMean X j - startMu X j) ^ 2 ≤ X.length * sampleVar X j := by
  obtain ⟨a, ha, b, hb, hm⟩ := median_mem (l := X.map fun x => x j) (by simpa using hX)
  obtain ⟨x, hx, rfl⟩ := List.mem_map.mp ha
  obtain ⟨y, hy, rfl⟩ := List.mem_map.mp hb
  have h1 := dev_sq_le X j hx
  have h2 := dev_sq_le X j hy
  have : startMu X j = (x j + y j) / 2 := hm
  rw [this]
  nlinarith [sq_nonneg ((x j - colMean X j) - (y j - colMean X j))]

/-- No particle is far from the median in the metric of the initial shape matrix. -/
theorem delta_le (X : List (Vec d)) (hn : 2 ≤ X.length) (h : ¬ Degenerate X) :
    ∀ δ ∈ deltaObs (startMu X) (startSigma X) X, δ ≤ 2 * X.length * (1 + X.length * d) := by
  intro δ hδ
  obtain ⟨x, hx, rfl⟩ := List.mem_map.mp hδ
  have hpos : (0 : ℝ) < X.length := by exact_mod_cast (by omega : 0 < X.length)
  have hdet := isPosCov_det (startSigma_pos X hn h)
  have hu : IsUnit (startSigma X).det := isUnit_iff_ne_zero.mpr hdet
  set y := (startSigma X)⁻¹.mulVec (x - startMu X) with hy
  set s := (x - startMu X) ⬝ᵥ y with hs
  have hq : quadForm (startSigma X) y = s := by
    rw [quad_eq, hy, Matrix.mulVec_mulVec, Matrix.mul_nonsing_inv _ hu, Matrix.one_mulVec, dotProduct_comm]
  rw [quad_startSigma X hn] at hq
  have hsum1 : 0 ≤ (X.map fun x => (y ⬝ᵥ (x - colMean X)) ^ 2).sum := sum_nonneg_of _ _ fun _ _ => sq_nonneg _
  have hsum2 : 0 ≤ ∑ j, sampleVar X j * y j ^ 2 :=
    Finset.sum_nonneg fun j _ => mul_nonneg (sampleVar_nonneg X j) (sq_nonneg _)
  have hq' : (X.map fun x => (y ⬝ᵥ (x - colMean X)) ^ 2).sum + ∑ j, sampleVar X j * y j ^ 2 = X.length * s := by
    rw [← hq]
    field_simp
  have h1 : (y ⬝ᵥ (x - colMean X)) ^ 2 ≤ X.length * s := by
    have : (y ⬝ᵥ (x - colMean X)) ^ 2 ≤ (X.map fun x => (y ⬝ᵥ (x - colMean X)) ^ 2).sum :=
      List.single_le_sum (by
        intro y' hy'
        obtain ⟨z, -, rfl⟩ := List.mem_map.mp hy'
        exact sq_nonneg _) _ (List.mem_map.mpr ⟨x, hx, rfl⟩)
    linarith
  have h2 : (y ⬝ᵥ (colMean X - startMu X)) ^ 2 ≤ d * (X.length * (X.length * s)) := by
    have a1 : (y ⬝ᵥ (colMean X - startMu X)) ^ 2 ≤ d * ∑ j, (y j * (colMean X j - startMu X j)) ^ 2 := by
      have := sq_sum_le_card_mul_sum_sq (s := (Finset.univ : Finset (Fin d)))
        (f := fun j => y j * (colMean X j - startMu X j))
      simpa [dotProduct] using this
    have a2 : ∑ j, (y j * (colMean X j - startMu X j)) ^ 2 ≤ X.length * ∑ j, sampleVar X j * y j ^ 2 := by
      rw [Finset.mul_sum]
      apply Finset.sum_le_sum
      intro j _
      have := median_dev_sq_le X (List.ne_nil_of_mem hx) j
      rw [mul_pow]
      have := mul_le_mul_of_nonneg_left this (sq_nonneg (y j))
      linarith
    have a3 : ∑ j, sampleVar X j * y j ^ 2 ≤ X.length * s := by linarith
    have a4 : (X.length : ℝ) * ∑ j, sampleVar X j * y j ^ 2 ≤ X.length * (X.length * s) :=
      mul_le_mul_of_nonneg_left a3 hpos.le
    exact a1.trans (mul_le_mul_of_nonneg_left (a2.trans a4) (by positivity))
  have h3 : s = y ⬝ᵥ (x - colMean X) + y ⬝ᵥ (colMean X - startMu X) := by
    rw [hs, ← dotProduct_add, dotProduct_comm]
    congr 1
    abel
  have hs0 : 0 ≤ s := by
    have : 0 ≤ X.length * s := by linarith
    exact nonneg_of_mul_nonneg_right this hpos
  rcases hs0.eq_or_lt with h0 | h0
  · rw [← h0]; positivity
  · have h4 : s * s ≤ s * (2 * X.length * (1 + X.length * d)) := by
      have : s ^ 2 ≤ 2 * (y ⬝ᵥ (x - colMean X)) ^ 2 + 2 * (y ⬝ᵥ (colMean X - startMu X)) ^ 2 := by
        rw [h3]
        nlinarith [sq_nonneg (y ⬝ᵥ (x - colMean X) - y ⬝ᵥ (colMean X - startMu X))]
      nlinarith
    exact le_of_mul_le_mul_left h4 h0

/-! ### the equation for the degrees of freedom in double precision -/

theorem foldl_zero {rnd : ℝ → ℝ} (h0 : rnd 0 = 0) (n : ℕ) : (List.replicate n (0 : ℝ)).foldl (fun a x => rnd (a + x)) 0 = 0 := by
  induction n with
  | zero => rfl
  | succ n ih => rw [List.replicate_succ, List.foldl_cons, add_zero, h0, ih]

theorem foldl_ones {rnd : ℝ → ℝ} (h : ∀ k : ℕ, k ≤ 2 ^ 53 → rnd k = k) (n : ℕ) : ∀ m : ℕ, m + n ≤ 2 ^ 53 →
    (List.replicate n (1 : ℝ)).foldl (fun a x => rnd (a + x)) m = (m + n : ℕ) := by
  induction n with
  | zero => intro m _; simp
  | succ n ih =>
    intro m hm
    rw [List.replicate_succ, List.foldl_cons, show (m : ℝ) + 1 = ((m + 1 : ℕ) : ℝ) by push_cast; ring, h _ (by omega),
      ih (m + 1) (by omega)]
    congr 1
    omega

theorem func0_big {E : FitEnv} (hE : DoubleLike E.rnd)
    (hpsi : E.psi (E.rnd (E.rnd 1e300 / 2)) = E.rnd (Real.log (E.rnd (E.rnd 1e300 / 2))))
    (δ : List ℝ) (hδ : ∀ x ∈ δ, 0 ≤ x ∧ x ≤ 1e280) (hd : d ≤ 2 ^ 53) (hn : 0 < δ.length) (hn' : δ.length ≤ 2 ^ 53) :
    E.func0 d δ (E.rnd 1e300) = 0 := by
  have h0 : E.rnd 0 = 0 := by simpa using hE.nat 0 (by norm_num)
  have h1 : E.rnd 1 = 1 := by simpa using hE.nat 1 (by norm_num)
  have hbig : E.rnd 1e300 ≠ 0 := by
    intro hb
    have := hE.absorb 1 (by norm_num)
    rw [hb, zero_add, h1] at this
    exact one_ne_zero this
  have hdd : E.rnd (E.rnd 1e300 + d) = E.rnd 1e300 := by
    apply hE.absorb
    rw [abs_of_nonneg (by positivity)]
    calc (d : ℝ) ≤ (2 ^ 53 : ℕ) := by exact_mod_cast hd
      _ ≤ 1e280 := by norm_num
  have hw : E.obsWeights d δ (E.rnd 1e300) = List.replicate δ.length 1 := by
    unfold FitEnv.obsWeights
    rw [← List.map_const']
    apply List.map_congr_left
    intro x hx
    obtain ⟨a, b⟩ := hδ x hx
    rw [hdd, hE.absorb x (by rwa [abs_of_nonneg a]), div_self hbig, h1]
  have hnn : (δ.length : ℝ) ≠ 0 := by exact_mod_cast hn.ne'
  have s1 : E.sum ((List.replicate δ.length (1 : ℝ)).map fun v => E.rnd (Real.log v)) = 0 := by
    rw [List.map_replicate, Real.log_one, h0]
    exact foldl_zero h0 _
  have s2 : E.sum (List.replicate δ.length (1 : ℝ)) = δ.length := by
    have := foldl_ones hE.nat δ.length 0 (by omega)
    unfold FitEnv.sum
    simpa using this
  unfold FitEnv.func0
  simp only [hw, hdd, s1, s2, hpsi]
  have hL := hE.idem (Real.log (E.rnd (E.rnd 1e300 / 2)))
  generalize E.rnd (Real.log (E.rnd (E.rnd 1e300 / 2))) = L at *
  simp [div_self hnn, h0, h1, hE.neg, hL]

/-! ### C88, C87 -/

/-- C88.  In double precision, with at least two particles and the default limits, the fit raises LinAlgError exactly when
the particles agree in some coordinate; otherwise it returns the coordinatewise median, the initial shape matrix and
infinite degrees of freedom after a single iteration: no data make the EM update run. -/
theorem C88_fit (E : FitEnv) (hE : DoubleLike E.rnd)
    (hpsi : E.psi (E.rnd (E.rnd 1e300 / 2)) = E.rnd (Real.log (E.rnd (E.rnd 1e300 / 2))))
    (X : List (Vec d)) (hn : 2 ≤ X.length) (hn' : X.length ≤ 2 ^ 53) (hd : d ≤ 2 ^ 53) (tol : ℝ) (htol : tol < 20)
    (maxIter : ℕ) (hmax : 0 < maxIter) :
    (Degenerate X → fitMvstud E X tol maxIter = .error .linAlgError) ∧
      (¬ Degenerate X → fitMvstud E X tol maxIter = .ok ⟨startMu X, startSigma X, none, 1⟩) := by
  obtain ⟨k, rfl⟩ : ∃ k, maxIter = k + 1 := ⟨maxIter - 1, by omega⟩
  have ht : |(0 : ℝ) - 20| > tol := by rw [zero_sub, abs_neg, abs_of_pos (by norm_num)]; exact htol
  unfold fitMvstud
  rw [if_neg (by omega), if_neg (by omega)]
  unfold emLoop
  rw [if_pos ht]
  constructor
  · intro h
    rw [if_pos ((startSigma_det_iff X hn).mpr h)]
  · intro h
    have hdet := isPosCov_det (startSigma_pos X hn h)
    rw [if_neg hdet]
    have hlen : (deltaObs (startMu X) (startSigma X) X).length = X.length := List.length_map ..
    have hf := func0_big (d := d) hE hpsi (deltaObs (startMu X) (startSigma X) X) (fun x hx => by
      refine ⟨deltaObs_nonneg (startSigma_cov X hn) hdet _ _ x hx, (delta_le X hn h x hx).trans ?_⟩
      have a1 : (X.length : ℝ) ≤ 2 ^ 53 := by exact_mod_cast hn'
      have a2 : (d : ℝ) ≤ 2 ^ 53 := by exact_mod_cast hd
      have a3 : (X.length : ℝ) * d ≤ 2 ^ 53 * 2 ^ 53 := mul_le_mul a1 a2 (by positivity) (by positivity)
      calc 2 * (X.length : ℝ) * (1 + X.length * d) ≤ 2 * 2 ^ 53 * (1 + 2 ^ 53 * 2 ^ 53) := by gcongr
        _ ≤ 1e280 := by norm_num) hd (by omega) (by omega)
    have : E.optNu d (deltaObs (startMu X) (startSigma X) X) = .ok none := by
      unfold FitEnv.optNu
      rw [if_pos (by rw [hf])]
    rw [this]

theorem systematicResample_length {n : ℕ} {w : List F} {u : ℝ} {l : List ℕ} (h : systematicResample n w u = .ok l) :
    l.length = n := by
  unfold systematicResample at h
  dsimp only at h
  cases h1 : (sysWeights w)[0]? with
  | none => rw [h1] at h; cases h
  | some c =>
    rw [h1] at h
    rw [sysLoop_length h]
    simp [sysPositions]

theorem tData_length {theta data : List (Vec d)} {w : Option (List ℝ)} {u : ℝ} (h : tData theta w u = .ok data) :
    data.length = theta.length := by
  cases w with
  | none => cases h; rfl
  | some w =>
    obtain ⟨idx, h1, h2⟩ := bind_ok h
    rw [(gather_ok h2).1, systematicResample_length h1]

theorem geometryFit_ok {E : FitEnv} {theta : List (Vec d)} {w : Option (List ℝ)} {u : ℝ} {g : Geo d}
    (h : geometryFit E theta w u = .ok g) : ∃ m c data f, normalMean theta w = .ok m ∧ normalCov theta m w = .ok c ∧
      tData theta w u = .ok data ∧ fitMvstud E data = .ok f ∧
      g = { normalMean := fun j => F.fin (m j), normalCov := c, tMean := fun j => F.fin (f.mu j)
            tCov := fun j k => F.fin (f.Sigma j k), tNu := F.fin (finiteNu f.nu) } := by
  unfold geometryFit at h
  obtain ⟨m, h1, h⟩ := bind_ok h
  obtain ⟨c, h2, h⟩ := bind_ok h
  obtain ⟨data, h3, h⟩ := bind_ok h
  obtain ⟨f, h4, h⟩ := bind_ok h
  cases h
  exact ⟨m, c, data, f, h1, h2, h3, h4, rfl⟩

/-- C71.  `Geometry.fit`, with or without weights, leaves a finite mean, a finite covariance matrix and a finite positive
number of degrees of freedom. -/
theorem C71_geometry (E : FitEnv) (hE : RootInRange E) (theta : List (Vec d)) (w : Option (List ℝ)) (u : ℝ) (g : Geo d)
    (h : geometryFit E theta w u = .ok g) :
    (∃ m : Vec d, g.tMean = fun j => F.fin (m j)) ∧
      (∃ S : Matrix (Fin d) (Fin d) ℝ, IsCov S ∧ g.tCov = fun j k => F.fin (S j k)) ∧ ∃ ν, 0 < ν ∧ g.tNu = F.fin ν := by
  obtain ⟨m, c, data, f, -, -, -, h4, rfl⟩ := geometryFit_ok h
  obtain ⟨-, h5, h6⟩ := C71_fit E hE data _ _ f h4
  refine ⟨⟨f.mu, rfl⟩, ⟨f.Sigma, h5, rfl⟩, ⟨finiteNu f.nu, ?_, rfl⟩⟩
  cases hn : f.nu with
  | none => norm_num [finiteNu]
  | some ν => exact h6 ν hn

/-- C87 (the negation of the property).  In double precision the number of degrees of freedom does not reflect the
particles: for any particles and weights, if `Geometry.fit` returns, it is the fallback 1e6.  The location is the
coordinatewise median of the (resampled) particles and the shape matrix the initial one, which is positive definite. -/
theorem C87_nu_fixed (E : FitEnv) (hE : DoubleLike E.rnd)
    (hpsi : E.psi (E.rnd (E.rnd 1e300 / 2)) = E.rnd (Real.log (E.rnd (E.rnd 1e300 / 2))))
    (theta : List (Vec d)) (hn : theta.length ≤ 2 ^ 53) (hd : d ≤ 2 ^ 53) (w : Option (List ℝ)) (u : ℝ) (g : Geo d)
    (h : geometryFit E theta w u = .ok g) :
    g.tNu = F.fin 1e6 ∧ ∃ data, tData theta w u = .ok data ∧ ¬ Degenerate data ∧
      (∀ j, g.tMean j = F.fin (median (data.map fun x => x j))) ∧
      IsPosCov (startSigma data) ∧ ∀ j k, g.tCov j k = F.fin (startSigma data j k) := by
  obtain ⟨m, c, data, f, -, -, h3, h4, rfl⟩ := geometryFit_ok h
  have hl := tData_length h3
  have h2 : 2 ≤ data.length := by
    unfold fitMvstud at h4
    split_ifs at h4
    omega
  obtain ⟨h5, h6⟩ := C88_fit E hE hpsi data h2 (by omega) hd 1e-6 (by norm_num) 100 (by norm_num)
  by_cases hdeg : Degenerate data
  · rw [h5 hdeg] at h4; cases h4
  · rw [h6 hdeg] at h4
    cases h4
    exact ⟨rfl, data, h3, hdeg, fun j => rfl, startSigma_pos data h2 hdeg, fun j k => rfl⟩

/-- C88.  `Geometry.fit` in double precision: once the weights are accepted and the particles resampled (at least two of
them), it raises LinAlgError exactly when the resampled particles agree in some coordinate, for instance when they are all
copies of one particle. -/
theorem C88_geometry (E : FitEnv) (hE : DoubleLike E.rnd)
    (hpsi : E.psi (E.rnd (E.rnd 1e300 / 2)) = E.rnd (Real.log (E.rnd (E.rnd 1e300 / 2))))
    (theta : List (Vec d)) (h2 : 2 ≤ theta.length) (hn : theta.length ≤ 2 ^ 53) (hd : d ≤ 2 ^ 53) (w : Option (List ℝ)) (u : ℝ)
    (m : Vec d) (c : Fin d → Fin d → F) (data : List (Vec d))
    (h3 : normalMean theta w = .ok m) (h4 : normalCov theta m w = .ok c) (h5 : tData theta w u = .ok data) :
    (Degenerate data ↔ geometryFit E theta w u = .error .linAlgError) ∧
      (¬ Degenerate data ↔ ∃ g, geometryFit E theta w u = .ok g) := by
  have hl := tData_length h5
  obtain ⟨h6, h7⟩ := C88_fit E hE hpsi data (by omega) (by omega) hd 1e-6 (by norm_num) 100 (by norm_num)
  have key : geometryFit E theta w u = (fitMvstud E data).map fun f =>
      { normalMean := fun j => F.fin (m j), normalCov := c, tMean := fun j => F.fin (f.mu j)
        tCov := fun j k => F.fin (f.Sigma j k), tNu := F.fin (finiteNu f.nu) } := by
    unfold geometryFit
    rw [h3]
    simp only [bind, Except.bind]
    rw [h4]
    simp only
    rw [h5]
    simp only
    cases fitMvstud E data <;> rfl
  rw [key]
  by_cases hdeg : Degenerate data
  · rw [h6 hdeg]
    exact ⟨⟨fun _ => rfl, fun _ => hdeg⟩, ⟨fun h => absurd hdeg h, fun ⟨g, h⟩ => by cases h⟩⟩
  · rw [h7 hdeg]
    exact ⟨⟨fun h => absurd h hdeg, fun h => by cases h⟩, ⟨fun _ => ⟨_, rfl⟩, fun _ => hdeg⟩⟩

/-! ### binary64 -/

theorem round53_pos {x : ℝ} (hx : 0 < x) :
    round53 x = (round (x / 2 ^ (Int.log 2 x - 52)) : ℤ) * (2 : ℝ) ^ (Int.log 2 x - 52) := by
  unfold round53
  rw [abs_of_pos hx, sign_pos hx]
  simp

theorem round53_neg (x : ℝ) : round53 (-x) = -round53 x := by
  unfold round53
  rw [abs_neg, Left.sign_neg]
  simp

theorem round53_zero : round53 0 = 0 := by simp [round53]

theorem log2_eq {x : ℝ} {e : ℤ} (h1 : (2 : ℝ) ^ e ≤ x) (h2 : x < 2 ^ (e + 1)) : Int.log 2 x = e := by
  have hx : 0 < x := lt_of_lt_of_le (by positivity) h1
  have a := (Int.zpow_le_iff_le_log (b := 2) one_lt_two hx).mp (by simpa using h1)
  have b := (Int.lt_zpow_iff_log_lt (b := 2) one_lt_two hx).mp (by simpa using h2)
  omega

theorem round53_exact {x : ℝ} (hx : 0 < x) (m : ℤ) (h : x = m * (2 : ℝ) ^ (Int.log 2 x - 52)) : round53 x = x := by
  rw [round53_pos hx]
  have hp : (2 : ℝ) ^ (Int.log 2 x - 52) ≠ 0 := by positivity
  have : x / 2 ^ (Int.log 2 x - 52) = m := by
    conv_lhs => rw [h]
    rw [show (2 : ℝ) ^ (Int.log 2 (m * (2 : ℝ) ^ (Int.log 2 x - 52)) - 52) = 2 ^ (Int.log 2 x - 52) by rw [← h]]
    field_simp
  rw [this, round_intCast]
  exact h.symm

theorem round53_nat (k : ℕ) (hk : k ≤ 2 ^ 53) : round53 k = k := by
  rcases Nat.eq_zero_or_pos k with rfl | hpos
  · simp [round53_zero]
  have hkr : (0 : ℝ) < k := by exact_mod_cast hpos
  have hlog : Int.log 2 (k : ℝ) = Nat.log 2 k := Int.log_natCast 2 k
  have hle : Nat.log 2 k ≤ 53 := by
    have := Nat.log_mono_right (b := 2) hk
    rwa [Nat.log_pow one_lt_two] at this
  rcases Nat.lt_or_ge (Nat.log 2 k) 53 with hlt | hge
  · apply round53_exact hkr ((k : ℤ) * 2 ^ (52 - Nat.log 2 k))
    rw [hlog]
    have : ((Nat.log 2 k : ℤ) - 52) = -((52 - Nat.log 2 k : ℕ) : ℤ) := by omega
    rw [this, zpow_neg, zpow_natCast]
    push_cast
    field_simp
  · have h53 : Nat.log 2 k = 53 := le_antisymm hle hge
    have : 2 ^ 53 ≤ k := by rw [← h53]; exact Nat.pow_log_le_self 2 hpos.ne'
    have hk' : k = 2 ^ 53 := le_antisymm hk this
    apply round53_exact hkr (2 ^ 52)
    rw [hlog, h53, hk']
    norm_num

theorem round53_idem_pos {x : ℝ} (hx : 0 < x) : round53 (round53 x) = round53 x := by
  set e := Int.log 2 x with he
  have hp : (0 : ℝ) < 2 ^ (e - 52) := by positivity
  set m := round (x / 2 ^ (e - 52)) with hm
  have hy : round53 x = m * (2 : ℝ) ^ (e - 52) := round53_pos hx
  have hs : (2 : ℝ) ^ e = 2 ^ 52 * 2 ^ (e - 52) := by
    rw [← zpow_natCast (2 : ℝ) 52, ← zpow_add₀ two_ne_zero]; congr 1; push_cast; ring
  have hs1 : (2 : ℝ) ^ (e + 1) = 2 ^ 53 * 2 ^ (e - 52) := by
    rw [← zpow_natCast (2 : ℝ) 53, ← zpow_add₀ two_ne_zero]; congr 1; push_cast; ring
  have h1 : (2 : ℝ) ^ 52 ≤ x / 2 ^ (e - 52) := by
    rw [le_div_iff₀ hp, ← hs]
    exact_mod_cast Int.zpow_log_le_self (b := 2) one_lt_two hx
  have h2 : x / 2 ^ (e - 52) < 2 ^ 53 := by
    rw [div_lt_iff₀ hp, ← hs1]
    exact_mod_cast Int.lt_zpow_succ_log_self (b := 2) one_lt_two x
  have hr := abs_le.mp (abs_sub_round (x / 2 ^ (e - 52)))
  rw [← hm] at hr
  have h3 : (2 : ℤ) ^ 52 ≤ m := by
    have : ((2 : ℤ) ^ 52 - 1 : ℤ) < m := by
      have : (((2 : ℤ) ^ 52 - 1 : ℤ) : ℝ) < m := by push_cast; linarith [hr.2]
      exact_mod_cast this
    omega
  have h4 : m ≤ (2 : ℤ) ^ 53 := by
    have : (m : ℝ) < (((2 : ℤ) ^ 53 + 1 : ℤ) : ℝ) := by push_cast; linarith [hr.1]
    have : m < (2 : ℤ) ^ 53 + 1 := by exact_mod_cast this
    omega
  have h3r : (2 : ℝ) ^ 52 ≤ m := by exact_mod_cast h3
  have hypos : 0 < round53 x := by rw [hy]; positivity
  rcases h4.lt_or_eq with h5 | h5
  · have h5r : (m : ℝ) < 2 ^ 53 := by exact_mod_cast h5
    have hl : Int.log 2 (round53 x) = e := by
      apply log2_eq
      · rw [hy, hs]; gcongr
      · rw [hy, hs1]; gcongr
    exact round53_exact hypos m (by rw [hl]; exact hy)
  · have hy2 : round53 x = 2 ^ (e + 1) := by rw [hy, h5, hs1]; push_cast; ring
    have hl : Int.log 2 (round53 x) = e + 1 := by
      apply log2_eq
      · rw [hy2]
      · rw [hy2]; exact zpow_lt_zpow_right₀ one_lt_two (by omega)
    refine round53_exact hypos (2 ^ 52) ?_
    rw [hl, hy2, Int.cast_pow, Int.cast_ofNat]
    rw [← zpow_natCast (2 : ℝ) 52, ← zpow_add₀ two_ne_zero]; congr 1; push_cast; ring

theorem round53_idem (x : ℝ) : round53 (round53 x) = round53 x := by
  rcases lt_trichotomy x 0 with h | h | h
  · have := round53_idem_pos (neg_pos.mpr h)
    rw [round53_neg, round53_neg] at this
    linarith
  · rw [h, round53_zero, round53_zero]
  · exact round53_idem_pos h

set_option exponentiation.threshold 2000 in
theorem round53_absorb (x : ℝ) (hx : |x| ≤ 1e280) : round53 (round53 1e300 + x) = round53 1e300 := by
  have hlog : Int.log 2 (1e300 : ℝ) = 996 := by
    apply log2_eq
    · norm_num
    · norm_num
  have hp : (0 : ℝ) < 2 ^ (944 : ℤ) := by positivity
  set m := round ((1e300 : ℝ) / 2 ^ (944 : ℤ)) with hm
  have hbig : round53 1e300 = m * (2 : ℝ) ^ (944 : ℤ) := by
    rw [round53_pos (by norm_num), hlog]
    norm_num [hm]
  have hr := abs_le.mp (abs_sub_round ((1e300 : ℝ) / 2 ^ (944 : ℤ)))
  rw [← hm] at hr
  have b1 : (2 : ℝ) ^ 52 + 2 ≤ 1e300 / 2 ^ (944 : ℤ) := by rw [le_div_iff₀ hp]; norm_num
  have b2 : (1e300 : ℝ) / 2 ^ (944 : ℤ) ≤ 2 ^ 53 - 2 := by rw [div_le_iff₀ hp]; norm_num
  have b3 : |x / 2 ^ (944 : ℤ)| < 1 / 2 := by
    rw [abs_div, abs_of_pos hp, div_lt_iff₀ hp]
    exact lt_of_le_of_lt hx (by norm_num)
  have b3' := abs_lt.mp b3
  have hsum : round53 1e300 + x = (m + x / 2 ^ (944 : ℤ)) * 2 ^ (944 : ℤ) := by
    rw [hbig, add_mul, div_mul_cancel₀ _ hp.ne']
  have e1 : (2 : ℝ) ^ (996 : ℤ) = 2 ^ 52 * 2 ^ (944 : ℤ) := by norm_num
  have e2 : (2 : ℝ) ^ (996 + 1 : ℤ) = 2 ^ 53 * 2 ^ (944 : ℤ) := by norm_num
  have hl : Int.log 2 (round53 1e300 + x) = 996 := by
    apply log2_eq
    · rw [hsum, e1]
      exact mul_le_mul_of_nonneg_right (by linarith [hr.1, hr.2, b3'.1]) hp.le
    · rw [hsum, e2]
      exact mul_lt_mul_of_pos_right (by linarith [hr.1, hr.2, b3'.2]) hp
  have hpos : 0 < round53 1e300 + x := by
    rw [hsum]
    exact mul_pos (by linarith [hr.1, hr.2, b3'.1, (by positivity : (0 : ℝ) < 2 ^ 52)]) hp
  rw [round53_pos hpos, hl, hbig]
  congr 2
  rw [← hbig, hsum, show (996 - 52 : ℤ) = 944 by norm_num, mul_div_cancel_right₀ _ hp.ne', round_intCast_add, 
    round_eq_zero_iff.mpr ⟨by linarith [b3'.1], b3'.2⟩, add_zero]

/-- Rounding to 53 binary digits has the four properties used. -/
theorem round53_double : DoubleLike round53 := ⟨round53_nat, round53_idem, round53_neg, round53_absorb⟩

/-! ### C87: what the equation would give in exact arithmetic -/

theorem emLoop_root {E : FitEnv} (hroot : ∀ f a b r, E.bisect f a b = .ok r → f r = 0) (X : List (Vec d)) (tol : ℝ) :
    ∀ (k : ℕ) (last nu : ℝ) (mu : Vec d) (S : Matrix (Fin d) (Fin d) ℝ) (r : TFit d) (ν : ℝ),
    emLoop E X tol k last nu mu S = .ok r → r.nu = some ν → (r.iters = 0 ∧ ν = nu) ∨
      ∃ mu' S', E.func0 d (deltaObs mu' S' X) ν = 0 := by
  intro k
  induction k with
  | zero =>
    intro last nu mu S r ν h hν
    cases h
    cases hν
    exact Or.inl ⟨rfl, rfl⟩
  | succ k ih =>
    intro last nu mu S r ν h hν
    unfold emLoop at h
    split_ifs at h with h1 h2
    · cases ho : E.optNu d (deltaObs mu S X) with
      | error x => rw [ho] at h; cases h
      | ok o =>
        rw [ho] at h
        cases o with
        | none => cases h; cases hν
        | some nu' =>
          dsimp only at h
          cases he : emLoop E X tol k nu nu' (emMu X (emWeights d (deltaObs mu S X) nu'))
              (emSigma X mu (emWeights d (deltaObs mu S X) nu')) with
          | error x => rw [he] at h; cases h
          | ok r' =>
            rw [he] at h
            cases h
            rcases ih _ _ _ _ _ ν he hν with ⟨-, rfl⟩ | h'
            · refine Or.inr ⟨mu, S, ?_⟩
              unfold FitEnv.optNu at ho
              split_ifs at ho with h3
              · cases ho
              · cases hb : E.bisect (E.func0 d (deltaObs mu S X)) 1e-300 1e300 with
                | error x => rw [hb] at ho; cases ho
                | ok q =>
                  rw [hb] at ho
                  cases ho
                  exact hroot _ _ _ _ hb
            · exact Or.inr h'
    · cases h
      cases hν
      exact Or.inl ⟨rfl, rfl⟩

theorem foldl_id_sum (l : List ℝ) : ∀ a : ℝ, l.foldl (fun a x => a + x) a = a + l.sum := by
  induction l with
  | nil => intro a; simp
  | cons x l ih => intro a; rw [List.foldl_cons, ih, List.sum_cons]; ring

/-- C87, partial: in exact arithmetic and with a root finder that finds a root, a finite number of degrees of freedom
returned after at least one iteration solves the likelihood equation for squared distances of the particles from some
location in some metric.  Missing: double precision, where the equation is never solved (`C87_nu_fixed`). -/
theorem C87_root_partial (E : FitEnv) (hid : ∀ x, E.rnd x = x) (hroot : ∀ f a b r, E.bisect f a b = .ok r → f r = 0)
    (X : List (Vec d)) (tol : ℝ) (maxIter : ℕ) (r : TFit d) (ν : ℝ) (h : fitMvstud E X tol maxIter = .ok r)
    (hν : r.nu = some ν) (hit : 0 < r.iters) :
    ∃ (mu : Vec d) (S : Matrix (Fin d) (Fin d) ℝ),
      -(E.psi (ν / 2)) + Real.log (ν / 2)
        + ((deltaObs mu S X).map fun δ => Real.log ((ν + d) / (ν + δ))).sum / X.length
        - ((deltaObs mu S X).map fun δ => (ν + d) / (ν + δ)).sum / X.length + 1
        + E.psi ((ν + d) / 2) - Real.log ((ν + d) / 2) = 0 := by
  unfold fitMvstud at h
  split_ifs at h
  rcases emLoop_root hroot X tol maxIter 0 20 _ _ r ν h hν with ⟨h0, -⟩ | ⟨mu, S, h1⟩
  · omega
  · refine ⟨mu, S, ?_⟩
    have hlen : (deltaObs mu S X).length = X.length := List.length_map ..
    unfold FitEnv.func0 FitEnv.obsWeights FitEnv.sum at h1
    simp only [hid, foldl_id_sum, zero_add, List.map_map, hlen] at h1
    exact h1

/-! ### C89 -/

theorem median_affine {l : List ℝ} (hl : l ≠ []) {a : ℝ} (ha : 0 < a) (b : ℝ) :
    median (l.map fun x => a * x + b) = a * median l + b := by
  have hs : (l.map fun x => a * x + b).insertionSort (· ≤ ·) = (l.insertionSort (· ≤ ·)).map fun x => a * x + b := by
    refine (List.map_insertionSort (r := (· ≤ ·)) (s := (· ≤ ·)) (fun x => a * x + b) l ?_).symm
    intro x _ y _
    constructor
    · intro h; nlinarith
    · intro h; nlinarith
  have hpos : 0 < l.length := List.length_pos_iff.mpr hl
  have hget : ∀ i < l.length, ((l.insertionSort (· ≤ ·)).map fun x => a * x + b).getD i 0
      = a * (l.insertionSort (· ≤ ·)).getD i 0 + b := by
    intro i hi
    have : i < (l.insertionSort (· ≤ ·)).length := by rwa [List.length_insertionSort]
    rw [List.getD_eq_getElem?_getD, List.getD_eq_getElem?_getD, List.getElem?_map, List.getElem?_eq_getElem this]
    rfl
  unfold median
  rw [hs, List.length_map, hget _ (by omega), hget _ (by omega)]
  ring

theorem median_perm {l l' : List ℝ} (h : l.Perm l') : median l = median l' := by
  have hs : l.insertionSort (· ≤ ·) = l'.insertionSort (· ≤ ·) := by
    apply List.Perm.eq_of_pairwise (le := (· ≤ ·)) (fun a b _ _ h1 h2 => le_antisymm h1 h2)
    · exact List.pairwise_insertionSort _ _
    · exact List.pairwise_insertionSort _ _
    · exact (List.perm_insertionSort _ l).trans (h.trans (List.perm_insertionSort _ l').symm)
  unfold median
  rw [hs, h.length_eq]

theorem colMean_perm {X Y : List (Vec d)} (h : X.Perm Y) : colMean X = colMean Y := by
  funext j
  unfold colMean
  rw [(h.map _).sum_eq, h.length_eq]

theorem startSigma_perm {X Y : List (Vec d)} (h : X.Perm Y) : startSigma X = startSigma Y := by
  funext j k
  unfold startSigma sampleCov sampleVar
  rw [colMean_perm h, (h.map fun x => (x j - colMean Y j) * (x k - colMean Y k)).sum_eq,
    (h.map fun x => (x j - colMean Y j) ^ 2).sum_eq, h.length_eq]

/-- The particles after the change of units and origin `x_j ↦ a_j x_j + b_j`. -/
def changeUnits (a b : Vec d) (X : List (Vec d)) : List (Vec d) := X.map fun x j => a j * x j + b j

theorem colMean_rescale (a b : Vec d) (X : List (Vec d)) (hX : X ≠ []) (j : Fin d) :
    colMean (changeUnits a b X) j = a j * colMean X j + b j := by
  have hpos : (X.length : ℝ) ≠ 0 := by exact_mod_cast (List.length_pos_iff.mpr hX).ne'
  unfold colMean changeUnits
  rw [List.map_map, List.length_map]
  have : ((fun x : Vec d => x j) ∘ fun x j => a j * x j + b j) = fun x : Vec d => a j * x j + b j := rfl
  rw [this, List.sum_map_add, List.sum_map_mul_left, List.map_const', List.sum_replicate, nsmul_eq_mul]
  field_simp

theorem startSigma_rescale (a b : Vec d) (X : List (Vec d)) (hX : X ≠ []) (j k : Fin d) :
    startSigma (changeUnits a b X) j k = a j * a k * startSigma X j k := by
  have h1 : ∀ j k, ((changeUnits a b X).map fun x => (x j - colMean (changeUnits a b X) j) * (x k - colMean (changeUnits a b X) k)).sum
      = a j * a k * (X.map fun x => (x j - colMean X j) * (x k - colMean X k)).sum := by
    intro j k
    rw [← List.sum_map_mul_left, changeUnits, List.map_map]
    congr 1
    apply List.map_congr_left
    intro x _
    simp only [Function.comp]
    have e1 := colMean_rescale a b X hX j
    have e2 := colMean_rescale a b X hX k
    unfold changeUnits at e1 e2
    rw [e1, e2]
    ring
  have h2 : ∀ j, sampleVar (changeUnits a b X) j = a j * a j * sampleVar X j := by
    intro j
    have := h1 j j
    unfold sampleVar
    simp only [sq]
    rw [this, changeUnits, List.length_map]
    ring
  unfold startSigma sampleCov
  rw [h1, h2, changeUnits, List.length_map]
  by_cases h : j = k
  · subst h
    simp only [if_true]
    ring
  · simp only [if_neg h]
    ring

/-- C89.  In double precision the fit does not depend on the order of the particles, and it moves with the units and the
origin of each coordinate. -/
theorem C89_equivariant (E : FitEnv) (hE : DoubleLike E.rnd)
    (hpsi : E.psi (E.rnd (E.rnd 1e300 / 2)) = E.rnd (Real.log (E.rnd (E.rnd 1e300 / 2))))
    (X : List (Vec d)) (hn' : X.length ≤ 2 ^ 53) (hd : d ≤ 2 ^ 53) :
    (∀ Y : List (Vec d), X.Perm Y → fitMvstud E Y = fitMvstud E X) ∧
      ∀ a b : Vec d, (∀ j, 0 < a j) → fitMvstud E (X.map fun x j => a j * x j + b j) =
        (fitMvstud E X).map fun r => { r with mu := fun j => a j * r.mu j + b j, Sigma := fun j k => a j * a k * r.Sigma j k } := by
  by_cases h2 : 2 ≤ X.length
  swap
  · constructor
    · intro Y hY
      unfold fitMvstud
      rw [hY.length_eq]
      have := hY.length_eq
      rcases (by omega : Y.length = 0 ∨ Y.length = 1) with h | h
      · rw [if_pos h, if_pos h]
      · have h0 : ¬ Y.length = 0 := by omega
        simp only [if_neg h0, if_pos h]
    · intro a b _
      unfold fitMvstud
      rw [List.length_map]
      rcases (by omega : X.length = 0 ∨ X.length = 1) with h | h
      · rw [if_pos h, if_pos h]; rfl
      · have h0 : ¬ X.length = 0 := by omega
        simp only [if_neg h0, if_pos h]
        rfl
  have hX : X ≠ [] := by intro h; rw [h] at h2; simp at h2
  obtain ⟨h5, h6⟩ := C88_fit E hE hpsi X h2 hn' hd 1e-6 (by norm_num) 100 (by norm_num)
  constructor
  · intro Y hY
    obtain ⟨h7, h8⟩ := C88_fit E hE hpsi Y (by rw [← hY.length_eq]; exact h2) (by rw [← hY.length_eq]; exact hn') hd 1e-6
      (by norm_num) 100 (by norm_num)
    have hdeg : Degenerate X ↔ Degenerate Y := by
      unfold Degenerate
      simp only [hY.mem_iff]
    by_cases h : Degenerate X
    · rw [h5 h, h7 (hdeg.mp h)]
    · rw [h6 h, h8 (fun h' => h (hdeg.mpr h')), startSigma_perm hY]
      congr 2
      funext j
      exact (median_perm (hY.map _)).symm
  · intro a b ha
    obtain ⟨h7, h8⟩ := C88_fit E hE hpsi (changeUnits a b X) (by rwa [changeUnits, List.length_map]) (by rwa [changeUnits, List.length_map])
      hd 1e-6 (by norm_num) 100 (by norm_num)
    have hdeg : Degenerate X ↔ Degenerate (changeUnits a b X) := by
      unfold Degenerate changeUnits
      constructor
      · rintro ⟨j, hj⟩
        refine ⟨j, fun x hx y hy => ?_⟩
        obtain ⟨x', hx', rfl⟩ := List.mem_map.mp hx
        obtain ⟨y', hy', rfl⟩ := List.mem_map.mp hy
        simp only [hj x' hx' y' hy']
      · rintro ⟨j, hj⟩
        refine ⟨j, fun x hx y hy => ?_⟩
        have := hj _ (List.mem_map.mpr ⟨x, hx, rfl⟩) _ (List.mem_map.mpr ⟨y, hy, rfl⟩)
        have := mul_left_cancel₀ (ha j).ne' (add_right_cancel this)
        exact this
    have goal : fitMvstud E (changeUnits a b X) =
        (fitMvstud E X).map fun r => { r with mu := fun j => a j * r.mu j + b j, Sigma := fun j k => a j * a k * r.Sigma j k } := by
      by_cases h : Degenerate X
      · rw [h5 h, h7 (hdeg.mp h)]; rfl
      · rw [h6 h, h8 (fun h' => h (hdeg.mpr h'))]
        simp only [Except.map]
        congr 2
        · funext j
          unfold startMu changeUnits
          rw [List.map_map]
          have := median_affine (l := X.map fun x => x j) (by simpa using hX) (ha j) (b j)
          rw [List.map_map] at this
          exact this
        · funext j k
          exact startSigma_rescale a b X hX j k
    exact goal

/-! ### C71: the normal part -/

/-- C71, the normal approximation: if two different particles carry weight (so that `sum w - sum w² / sum w` is positive),
`Geometry.fit` leaves a finite weighted mean and a finite covariance matrix. -/
theorem C71_normal (E : FitEnv) (theta : List (Vec d)) (w : List ℝ) (u : ℝ) (g : Geo d)
    (h : geometryFit E theta (some w) u = .ok g) (hw : 0 < w.sum - (w.map (· ^ 2)).sum / w.sum) :
    w.length = theta.length ∧ (∀ v ∈ w, 0 ≤ v) ∧
    (∀ j, g.normalMean j = F.fin ((List.zipWith (fun v (x : Vec d) => v * x j) w theta).sum / w.sum)) ∧
      ∃ S : Matrix (Fin d) (Fin d) ℝ, IsCov S ∧ g.normalCov = fun j k => F.fin (S j k) := by
  obtain ⟨m, c, data, f, h1, h2, -, -, rfl⟩ := geometryFit_ok h
  unfold normalMean at h1
  dsimp only at h1
  split_ifs at h1 with hl hs
  cases h1
  unfold normalCov at h2
  dsimp only at h2
  split_ifs at h2 with hneg
  cases h2
  have hnn : ∀ v ∈ w, 0 ≤ v := by
    intro v hv
    by_contra hc
    exact hneg (List.any_eq_true.mpr ⟨v, hv, by simpa using hc⟩)
  refine ⟨not_not.mp hl, hnn, fun j => rfl, ?_⟩
  generalize hm : (fun j => (List.zipWith (fun v (x : Vec d) => v * x j) w theta).sum / w.sum) = m
  set c := w.sum - (w.map (· ^ 2)).sum / w.sum with hc
  refine ⟨fun j k => ((List.zipWith (fun v (x : Vec d) => (v, x - m)) w theta).map
      fun p => p.1 * p.2 j * p.2 k).sum / c, isCov_scatter _ _ hw.le ?_, ?_⟩
  · intro p hp
    obtain ⟨i, hi, rfl⟩ := List.mem_iff_getElem.mp hp
    rw [List.getElem_zipWith]
    exact hnn _ (List.getElem_mem _)
  · funext j k
    subst hm
    dsimp only
    rw [List.map_zipWith, max_eq_left hw.le, F.fin_div _ _ hw.ne', F.fin_mul, mul_one_div]
    rfl

/-! ### the hypotheses are met -/

/-- Double precision rounding, `psi` as scipy computes it for large arguments, and a root finder that always answers 20. -/
noncomputable def exampleFit : FitEnv where
  rnd := round53
  psi := fun x => round53 (Real.log x)
  bisect := fun _ a b => if a ≤ 20 ∧ 20 ≤ b then .ok 20 else .error .valueError

theorem exampleFit_root : RootInRange exampleFit := by
  intro f a b r h
  unfold exampleFit at h
  dsimp only at h
  split_ifs at h with hc
  cases h
  exact hc

theorem exampleFit_psi : exampleFit.psi (exampleFit.rnd (exampleFit.rnd 1e300 / 2)) =
    exampleFit.rnd (Real.log (exampleFit.rnd (exampleFit.rnd 1e300 / 2))) := rfl

/-- Three particles in the plane, spread in both coordinates. -/
def exampleData : List (Vec 2) := [![0, 0], ![1, 0], ![5, 3]]

theorem exampleData_spread : ¬ Degenerate exampleData := by
  rintro ⟨j, hj⟩
  have := hj ![0, 0] (by simp [exampleData]) ![5, 3] (by simp [exampleData])
  fin_cases j <;> simp at this

example : ∃ g, geometryFit exampleFit exampleData none 0 = .ok g ∧ g.tNu = F.fin 1e6 := by
  obtain ⟨-, h⟩ := C88_geometry exampleFit round53_double exampleFit_psi exampleData (by simp [exampleData])
    (by simp [exampleData]) (by norm_num) none 0 _ _ _ rfl rfl rfl
  obtain ⟨g, hg⟩ := h.mp exampleData_spread
  exact ⟨g, hg, (C87_nu_fixed exampleFit round53_double exampleFit_psi exampleData (by simp [exampleData]) (by norm_num)
    none 0 g hg).1⟩

example : geometryFit exampleFit [![0, 0], ![1, 0], ![(5 : ℝ), 0]] none 0 = .error .linAlgError := by
  obtain ⟨h, -⟩ := C88_geometry exampleFit round53_double exampleFit_psi [![0, 0], ![1, 0], ![(5 : ℝ), 0]] (by simp)
    (by simp) (by norm_num) none 0 _ _ _ rfl rfl rfl
  apply h.mp
  refine ⟨1, fun x hx y hy => ?_⟩
  simp at hx hy
  rcases hx with rfl | rfl | rfl <;> rcases hy with rfl | rfl | rfl <;> rfl

example : ∃ r, fitMvstud exampleFit exampleData = .ok r ∧ IsCov r.Sigma := by
  obtain ⟨-, h⟩ := C88_fit exampleFit round53_double exampleFit_psi exampleData (by simp [exampleData]) (by simp [exampleData])
    (by norm_num) 1e-6 (by norm_num) 100 (by norm_num)
  exact ⟨_, h exampleData_spread, (C71_fit exampleFit exampleFit_root exampleData _ _ _ (h exampleData_spread)).2.1⟩

end Poco
