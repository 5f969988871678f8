import Verif.Model.ScalerFull
import Verif.Props.Scaler
import Mathlib.Analysis.Matrix.PosDef
import Mathlib.Analysis.Matrix.Order

/-! C92, C93: `fit` with `diagonal=False`. -/

namespace Poco
open F Spec Matrix

variable {d : ℕ}

/-- The mean of a coordinate over a batch. -/
noncomputable def Spec.avg (us : List (Fin d → ℝ)) (i : Fin d) : ℝ := (us.map (· i)).sum / us.length

/-- The sample covariance of two coordinates over a batch, with `n - 1` in the denominator. -/
noncomputable def Spec.sampleCov (us : List (Fin d → ℝ)) (i j : Fin d) : ℝ :=
  (us.map fun u => (u i - avg us i) * (u j - avg us j)).sum / (us.length - 1)

/-- The centred data as a matrix. -/
noncomputable def centred (us : List (Fin d → ℝ)) : Matrix (Fin us.length) (Fin d) ℝ :=
  fun k i => us[k] i - avg us i

theorem list_sum_fin {α : Type} (l : List α) (f : α → ℝ) : (l.map f).sum = ∑ k : Fin l.length, f l[k] := by
  exact (Fin.sum_univ_fun_getElem l f).symm

theorem sampleCov_eq (us : List (Fin d → ℝ)) :
    (of (sampleCov us) : Matrix (Fin d) (Fin d) ℝ) = ((us.length : ℝ) - 1)⁻¹ • ((centred us)ᵀ * centred us) := by
  ext i j
  simp only [of_apply, Matrix.smul_apply, mul_apply, transpose_apply, smul_eq_mul, Spec.sampleCov, centred]
  rw [list_sum_fin]
  field_simp

theorem npCov_fin (us : List (Fin d → ℝ)) (h : 1 < us.length) : npCov (us.map pt) = mat (of (sampleCov us)) := by
  have hne : us ≠ [] := by rintro rfl; simp at h
  have hm : ∀ i, mean ((us.map pt).map (· i)) = fin (avg us i) := by
    intro i
    have : (us.map pt).map (· i) = (us.map (· i)).map fin := by simp [pt, Function.comp_def]
    rw [this, mean_fin _ (by simpa using hne)]
    simp [Spec.avg]
  funext i j
  have hn : ((us.length - 1 : ℕ) : ℝ) = (us.length : ℝ) - 1 := by
    rw [Nat.cast_sub h.le]; simp
  have hn0 : (us.length : ℝ) - 1 ≠ 0 := by
    have : (1 : ℝ) < us.length := by exact_mod_cast h
    linarith
  unfold npCov mat
  simp only [hm, of_apply]
  have : ((us.map pt).map fun r => (r i - fin (avg us i)) * (r j - fin (avg us j))) =
      (us.map fun u => (u i - avg us i) * (u j - avg us j)).map fin := by
    simp [pt, Function.comp_def]
  rw [this, sum_fin]
  simp only [F.ofNat, List.length_map, hn]
  rw [fin_div _ _ hn0, fin_mul]
  simp [Spec.sampleCov, div_eq_mul_inv]

/-- No linear combination of the coordinates is constant over the batch. -/
def Spec.Spread (us : List (Fin d → ℝ)) : Prop :=
  ∀ a : Fin d → ℝ, a ≠ 0 → ∃ u ∈ us, ∃ v ∈ us, ∑ i, a i * u i ≠ ∑ i, a i * v i

theorem avg_comb (us : List (Fin d → ℝ)) (a : Fin d → ℝ) :
    ∑ i, a i * avg us i = (us.map fun u => ∑ i, a i * u i).sum / us.length := by
  rw [list_sum_fin, Finset.sum_comm, Finset.sum_div]
  refine Finset.sum_congr rfl fun i _ => ?_
  rw [Spec.avg, list_sum_fin, ← Finset.mul_sum, mul_div_assoc]

theorem centred_injective {us : List (Fin d → ℝ)} (h : Spread us) : Function.Injective (centred us).mulVec := by
  have h0 : ∀ a, (centred us).mulVec a = 0 → a = 0 := by
    intro a ha
    by_contra hne
    obtain ⟨u, hu, v, hv, huv⟩ := h a hne
    have key : ∀ w ∈ us, ∑ i, a i * w i = ∑ i, a i * avg us i := by
      intro w hw
      obtain ⟨k, hk, rfl⟩ := List.mem_iff_getElem.mp hw
      have := congrFun ha ⟨k, hk⟩
      simp only [mulVec, dotProduct, centred, Pi.zero_apply, Fin.getElem_fin] at this
      rw [← sub_eq_zero, ← Finset.sum_sub_distrib, ← this]
      exact Finset.sum_congr rfl fun i _ => by ring
    exact huv ((key u hu).trans (key v hv).symm)
  intro a b hab
  have := h0 (a - b) (by rw [mulVec_sub, hab, sub_self])
  exact sub_eq_zero.mp this

theorem sampleCov_posDef {us : List (Fin d → ℝ)} (hn : 1 < us.length) :
    (of (sampleCov us) : Matrix (Fin d) (Fin d) ℝ).PosDef ↔ Spread us := by
  have h1 : (0 : ℝ) < us.length - 1 := by
    have : (1 : ℝ) < us.length := by exact_mod_cast hn
    linarith
  constructor
  · intro hp a ha
    by_contra hcon
    push Not at hcon
    have := hp.dotProduct_mulVec_pos ha
    have hz : (centred us).mulVec a = 0 := by
      funext k
      have hall : ∀ u ∈ us, ∑ i, a i * u i = ∑ i, a i * us[k] i := fun u hu => hcon u hu _ (List.getElem_mem _)
      have hs := avg_comb us a
      have : (us.map fun u => ∑ i, a i * u i).sum = us.length * ∑ i, a i * us[k] i := by
        rw [List.map_congr_left hall]; simp
      rw [this] at hs
      have hl : (us.length : ℝ) ≠ 0 := by linarith
      rw [mul_div_cancel_left₀ _ hl] at hs
      simp only [mulVec, dotProduct, centred, Pi.zero_apply]
      have : ∑ i, (us[k] i - avg us i) * a i = ∑ i, a i * us[k] i - ∑ i, a i * avg us i := by
        rw [← Finset.sum_sub_distrib]
        exact Finset.sum_congr rfl fun i _ => by ring
      rw [this, hs, sub_self]
    rw [sampleCov_eq, smul_mulVec, ← mulVec_mulVec, hz] at this
    simp at this
  · intro h
    rw [sampleCov_eq]
    have : ((centred us)ᴴ * centred us).PosDef := PosDef.conjTranspose_mul_self _ (centred_injective h)
    rw [conjTranspose_eq_transpose_of_trivial] at this
    exact this.smul (inv_pos.mpr h1)

theorem sampleCov_symm (us : List (Fin d → ℝ)) : (of (sampleCov us) : Matrix (Fin d) (Fin d) ℝ).IsSymm := by
  rw [sampleCov_eq]
  unfold IsSymm
  rw [transpose_smul, transpose_mul, transpose_transpose]

/-- The transformed batch. -/
theorem fwdRow_of_forward {s : Scaler d} (hb : ProperBounds s.low s.high) {xs us : List (Fin d → ℝ)}
    (hx : ∀ x ∈ xs, StrictlyInside s.low s.high x)
    (hus : ({ s with scale := false } : Scaler d).forward (xs.map pt) = .ok (us.map pt)) :
    withinInterval s.low s.high (xs.map pt) = true ∧ (xs.map pt).map s.fwdRow = us.map pt ∧ us.length = xs.length := by
  have hw := withinInterval_strict hb xs hx
  have hw' : withinInterval ({ s with scale := false } : Scaler d).low ({ s with scale := false } : Scaler d).high
    (xs.map pt) = true := hw
  have hm : ({ s with scale := false } : Scaler d).forward (xs.map pt) = .ok ((xs.map pt).map s.fwdRow) := by
    unfold Scaler.forward
    rw [hw']
    simp only [Bool.not_true, Bool.and_false, Bool.false_eq_true, if_false]
    exact mapM_ok _ _ _ fun x _ => by simp [Scaler.forwardRow]; rfl
  rw [hm] at hus
  simp only [Except.ok.injEq] at hus
  refine ⟨hw, hus, ?_⟩
  have := congrArg List.length hus
  simpa using this.symm

theorem forwardRow_some {s : Scaler d} {a : Affine d} (hsc : s.scale = true) (ha : s.affine = some a) (x : Pt d) :
    s.forwardRow x = .ok (a.forward (s.fwdRow x)) := by
  simp only [Scaler.forwardRow, hsc, if_true, ha]

theorem avg_affine (us : List (Fin d → ℝ)) (hn : us ≠ []) (N : Matrix (Fin d) (Fin d) ℝ) (i : Fin d) :
    avg (us.map fun u => N.mulVec fun j => u j - avg us j) i = 0 := by
  have hl : (us.length : ℝ) ≠ 0 := by
    have := List.length_pos_of_ne_nil hn
    exact_mod_cast this.ne'
  unfold Spec.avg
  rw [List.map_map, list_sum_fin]
  simp only [Function.comp, mulVec, dotProduct]
  rw [Finset.sum_comm]
  have : ∀ j, ∑ k : Fin us.length, N i j * (us[k] j - (us.map (· j)).sum / us.length) = 0 := by
    intro j
    rw [← Finset.mul_sum, Finset.sum_sub_distrib, ← list_sum_fin us (fun u => u j)]
    simp only [Finset.sum_const, Finset.card_univ, Fintype.card_fin, nsmul_eq_mul]
    rw [mul_div_cancel₀ _ hl, sub_self, mul_zero]
  rw [Finset.sum_congr rfl fun j _ => this j]
  simp

/-- **C92**, partial (at least two parameters).  After `fit` with `diagonal=False`, for every training batch strictly inside the
bounds whose transformed coordinates satisfy no linear relation, the scaler is usable and `forward` of the batch has mean 0
and sample covariance equal to the identity.  Missing: one parameter, where it is false, see `C92_one_parameter`. -/
theorem C92_whitens_partial (la : LinAlg d) (hla : la.Exact) (s : Scaler d) (hb : ProperBounds s.low s.high)
    (hsc : s.scale = true) (hd : d ≠ 1) (xs us : List (Fin d → ℝ)) (hx : ∀ x ∈ xs, StrictlyInside s.low s.high x)
    (hus : ({ s with scale := false } : Scaler d).forward (xs.map pt) = .ok (us.map pt)) (hn : 1 < xs.length)
    (hsp : Spread us) :
    ∃ s', s.fitFull la (xs.map pt) = (s', none) ∧ s'.Ok ∧
      ∃ vs : List (Fin d → ℝ), s'.forward (xs.map pt) = .ok (vs.map pt) ∧ vs.length = xs.length ∧
        (∀ i, avg vs i = 0) ∧ ∀ i j, sampleCov vs i j = if i = j then 1 else 0 := by
  obtain ⟨hw, hu, hl⟩ := fwdRow_of_forward hb hx hus
  have hn' : 1 < us.length := by omega
  have hne : us ≠ [] := by rintro rfl; simp at hn'
  have hp := (sampleCov_posDef hn').mpr hsp
  obtain ⟨M, c1, c2⟩ := hla.chol _ hp
  have hdet : M.det ≠ 0 := by
    intro h0
    have := hp.det_pos
    rw [← c2, det_mul, h0, zero_mul] at this
    exact lt_irrefl _ this
  have hMN : M * M⁻¹ = 1 := mul_nonsing_inv _ (isUnit_iff_ne_zero.mpr hdet)
  have hNM : M⁻¹ * M = 1 := nonsing_inv_mul _ (isUnit_iff_ne_zero.mpr hdet)
  have hm : (fun i => mean ((us.map pt).map (· i))) = fun i => fin (avg us i) := by
    funext i
    have : (us.map pt).map (· i) = (us.map (· i)).map fin := by simp [pt, Function.comp_def]
    rw [this, mean_fin _ (by simpa using hne)]
    simp [Spec.avg]
  refine ⟨{ s with affine := some (.full (fun i => fin (avg us i)) (mat M) (mat M⁻¹) (fin (Real.log |M.det|))) }, ?_, ⟨hb, fun _ =>
    ⟨_, rfl, avg us, M, M⁻¹, rfl, rfl, rfl, hMN, rfl⟩⟩, us.map fun u => M⁻¹.mulVec fun j => u j - avg us j, ?_, by simp [hl],
    avg_affine us hne M⁻¹, ?_⟩
  · unfold Scaler.fitFull
    simp only [hw, Bool.not_true, Bool.false_eq_true, if_false, hu, hm]
    rw [choleskyOfCov, if_neg hd, npCov_fin us hn', c1]
    simp only [hla.inv M hdet, hla.slogdet M hdet]
  · unfold Scaler.forward
    simp only [hw, Bool.not_true, Bool.and_false, Bool.false_eq_true, if_false]
    have : ∀ x, Scaler.forwardRow { s with affine := some (.full (fun i => fin (avg us i)) (mat M) (mat M⁻¹)
        (fin (Real.log |M.det|))) } x = .ok ((Affine.full (fun i => fin (avg us i)) (mat M) (mat M⁻¹)
        (fin (Real.log |M.det|))).forward (s.fwdRow x)) := by
      intro x
      simp only [Scaler.forwardRow, hsc, if_true]
      rfl
    rw [mapM_ok _ _ _ fun x _ => this x]
    rw [show (xs.map pt).map (fun x => (Affine.full (fun i => fin (avg us i)) (mat M) (mat M⁻¹)
        (fin (Real.log |M.det|))).forward (s.fwdRow x)) = ((xs.map pt).map s.fwdRow).map
        (Affine.full (fun i => fin (avg us i)) (mat M) (mat M⁻¹) (fin (Real.log |M.det|))).forward by
      rw [List.map_map, List.map_map, List.map_map]; rfl, hu, List.map_map, List.map_map]
    congr 1
    refine List.map_congr_left fun u _ => ?_
    funext i
    simp only [Function.comp, Affine.forward, pt, mat, fin_sub, fin_mul, sum_ofFn_fin, mulVec, dotProduct]
  · intro i j
    have hz := avg_affine us hne M⁻¹
    have hc : M⁻¹ * of (sampleCov us) * M⁻¹ᵀ = 1 := by
      rw [← c2, ← mul_assoc, hNM, one_mul, ← transpose_mul, hNM, transpose_one]
    have hij := congrFun (congrFun hc i) j
    rw [one_apply] at hij
    rw [← hij]
    unfold Spec.sampleCov
    simp only [hz, sub_zero, List.length_map]
    rw [List.map_map, list_sum_fin]
    rw [show (of fun i j => (us.map fun u => (u i - avg us i) * (u j - avg us j)).sum / ((us.length : ℝ) - 1) :
      Matrix (Fin d) (Fin d) ℝ) = of (sampleCov us) from rfl, sampleCov_eq, Matrix.mul_smul, Matrix.smul_mul, Matrix.smul_apply,
      smul_eq_mul, div_eq_inv_mul]
    congr 1
    rw [show M⁻¹ * ((centred us)ᵀ * centred us) * M⁻¹ᵀ = (M⁻¹ * (centred us)ᵀ) * (M⁻¹ * (centred us)ᵀ)ᵀ by
      rw [transpose_mul, transpose_transpose]; simp only [Matrix.mul_assoc]]
    rw [mul_apply]
    refine Finset.sum_congr rfl fun k _ => ?_
    simp only [Function.comp, mulVec, dotProduct, mul_apply, transpose_apply, centred]

/-- **C92**, the other batches: if some linear combination of the transformed coordinates is constant over the batch, `fit`
with `diagonal=False` raises LinAlgError. -/
theorem C92_degenerate_raises (la : LinAlg d) (hla : la.Exact) (s : Scaler d) (hb : ProperBounds s.low s.high)
    (xs us : List (Fin d → ℝ)) (hx : ∀ x ∈ xs, StrictlyInside s.low s.high x)
    (hus : ({ s with scale := false } : Scaler d).forward (xs.map pt) = .ok (us.map pt)) (hn : 1 < xs.length)
    (hsp : ¬ Spread us) : (s.fitFull la (xs.map pt)).2 = some .linAlgError := by
  obtain ⟨hw, hu, hl⟩ := fwdRow_of_forward hb hx hus
  have hn' : 1 < us.length := by omega
  have hch : choleskyOfCov la (us.map pt) = .error .linAlgError := by
    unfold choleskyOfCov
    split_ifs with h
    · rfl
    · rw [npCov_fin us hn']
      exact hla.chol_fail _ (sampleCov_symm us) fun hp => hsp ((sampleCov_posDef hn').mp hp)
  unfold Scaler.fitFull
  simp only [hw, Bool.not_true, Bool.false_eq_true, if_false, hu, hch]

/-- **C92** is false for one parameter: `fit` with `diagonal=False` raises on every batch. -/
theorem C92_one_parameter (la : LinAlg 1) (s : Scaler 1) (x : List (Pt 1)) :
    (s.fitFull la x).2 = some .valueError ∨ (s.fitFull la x).2 = some .linAlgError := by
  unfold Scaler.fitFull
  split_ifs
  · exact Or.inl rfl
  · exact Or.inr rfl

/-! ### C93 -/

/-- **C93**, partial: if `fit` with `diagonal=False` raises because the batch is outside the bounds, the object is unchanged.
Missing: batches whose covariance is not positive definite, where it is false, see `C93_failed_fit_moves`. -/
theorem C93_failed_fit_partial (la : LinAlg d) (s : Scaler d) (x : List (Pt d))
    (h : ∃ row ∈ x, ∃ i, Outside (s.low i) (s.high i) (row i)) : s.fitFull la x = (s, some .valueError) := by
  rw [← withinInterval_false] at h
  simp [Scaler.fitFull, h]

/-- `fit` with `diagonal=False` returns normally only if the matrix it stores as the inverse was computed from the one it stores as the factor: whatever the
factorisation or the inversion raises is raised. -/
theorem C93_failure_reported (la : LinAlg d) (s : Scaler d) (x : List (Pt d)) (h : (s.fitFull la x).2 = none) :
    ∃ mu L Linv, (s.fitFull la x).1.affine = some (.full mu L Linv (la.slogdet L)) ∧ la.inv L = .ok Linv ∧ ∃ C, la.cholesky C = .ok L := by
  unfold Scaler.fitFull at h ⊢
  split_ifs at h ⊢
  · cases hc : choleskyOfCov la (x.map s.fwdRow) with
    | error y => simp only [hc] at h; cases h
    | ok L =>
      cases hi : la.inv L with
      | error y => simp only [hc, hi] at h; cases h
      | ok Linv =>
        simp only [hc, hi]
        refine ⟨_, L, Linv, rfl, hi, npCov (x.map s.fwdRow), ?_⟩
        unfold choleskyOfCov at hc
        split_ifs at hc
        exact hc

/-- **C93** is false: if an object that was fitted with `diagonal=False` is fitted again to a batch some linear combination of
whose transformed coordinates is constant, `fit` raises, but the mean has already been replaced: unless the two means are
equal, `forward` gives another value at every point strictly inside the bounds. -/
theorem C93_failed_fit_moves (la : LinAlg d) (hla : la.Exact) (s : Scaler d) (hs : s.Ok) (hsc : s.scale = true)
    (m : Fin d → ℝ) (L Linv : Fin d → Fin d → F) (ld : F) (ha : s.affine = some (.full (pt m) L Linv ld))
    (xs us : List (Fin d → ℝ)) (hx : ∀ x ∈ xs, StrictlyInside s.low s.high x)
    (hus : ({ s with scale := false } : Scaler d).forward (xs.map pt) = .ok (us.map pt)) (hn : 1 < xs.length)
    (hsp : ¬ Spread us) (hm : avg us ≠ m) :
    (s.fitFull la (xs.map pt)).2 = some .linAlgError ∧ (s.fitFull la (xs.map pt)).1.Ok ∧
      ∀ x, StrictlyInside s.low s.high x → ∃ u v : Fin d → ℝ, u ≠ v ∧ s.forward [pt x] = .ok [pt u] ∧
        (s.fitFull la (xs.map pt)).1.forward [pt x] = .ok [pt v] := by
  obtain ⟨hw, hu, hl⟩ := fwdRow_of_forward hs.1 hx hus
  have hn' : 1 < us.length := by omega
  have hne : us ≠ [] := by rintro rfl; simp at hn'
  have hch : choleskyOfCov la (us.map pt) = .error .linAlgError := by
    unfold choleskyOfCov
    split_ifs with h
    · rfl
    · rw [npCov_fin us hn']
      exact hla.chol_fail _ (sampleCov_symm us) fun hp => hsp ((sampleCov_posDef hn').mp hp)
  have hmu : (fun i => mean ((us.map pt).map (· i))) = pt (avg us) := by
    funext i
    have : (us.map pt).map (· i) = (us.map (· i)).map fin := by simp [pt, Function.comp_def]
    rw [this, mean_fin _ (by simpa using hne)]
    simp [Spec.avg, pt]
  have hfit : s.fitFull la (xs.map pt) = ({ s with affine := some (.full (pt (avg us)) L Linv ld) }, some .linAlgError) := by
    unfold Scaler.fitFull
    simp only [hw, Bool.not_true, Bool.false_eq_true, if_false, hu, hch, hmu, ha, Affine.withMu]
  obtain ⟨a, ha', hok⟩ := hs.2 hsc
  rw [ha, Option.some.injEq] at ha'
  subst ha'
  obtain ⟨m', M, N, h1, rfl, rfl, hMN, rfl⟩ := hok
  rw [hfit]
  refine ⟨rfl, ⟨hs.1, fun _ => ⟨_, rfl, avg us, M, N, rfl, rfl, rfl, hMN, rfl⟩⟩, fun x hxs => ?_⟩
  have hs0 : ({ s with scale := false } : Scaler d).Ok := ⟨hs.1, (fun h => by cases h)⟩
  obtain ⟨ws, hws⟩ := C43_forward_finite_partial { s with scale := false } hs0 [x] (by simpa using hxs)
  obtain ⟨hw1, hu1, hl1⟩ := fwdRow_of_forward (s := s) hs.1 (xs := [x]) (us := ws) (by simpa using hxs) hws
  obtain ⟨w, rfl⟩ := List.length_eq_one_iff.mp hl1
  simp only [List.map_cons, List.map_nil, List.cons.injEq, and_true] at hu1 hw1
  have key : ∀ (t : Scaler d) (m : Fin d → ℝ), t.low = s.low → t.high = s.high → t.scale = true → t.fwdRow = s.fwdRow →
      t.affine = some (.full (pt m) (fun i j => fin (M i j)) (fun i j => fin (N i j)) (fin (Real.log |M.det|))) →
      t.forward [pt x] = .ok [pt (N.mulVec fun j => w j - m j)] := by
    intro t m t1 t2 t3 t4 t5
    have : t.forwardRow (pt x) = .ok (pt (N.mulVec fun j => w j - m j)) := by
      rw [forwardRow_some t3 t5, t4, hu1]
      congr 1
      funext i
      simp only [Affine.forward, pt, fin_sub, fin_mul, sum_ofFn_fin, mulVec, dotProduct]
    unfold Scaler.forward
    simp [t1, t2, hw1, this, bind, Except.bind, pure, Except.pure]
  refine ⟨_, _, ?_, key s m rfl rfl hsc rfl ha, key _ (avg us) rfl rfl hsc rfl rfl⟩
  · intro he
    apply hm
    have h2 : N.mulVec (fun j => (w j - m j) - (w j - avg us j)) = 0 := by
      rw [show (fun j => (w j - m j) - (w j - avg us j)) = (fun j => w j - m j) - fun j => w j - avg us j from rfl, mulVec_sub,
        he, sub_self]
    have h3 : M.mulVec (N.mulVec (fun j => (w j - m j) - (w j - avg us j))) = fun j => (w j - m j) - (w j - avg us j) := by
      rw [mulVec_mulVec, hMN, one_mulVec]
    rw [h2, mulVec_zero] at h3
    funext j
    have := congrFun h3 j
    simp only [Pi.zero_apply] at this
    linarith

/-! ### the contract of `np.linalg` can be met, and so can the hypotheses -/

open scoped MatrixOrder in
theorem LinAlg.exists_exact (d : ℕ) : ∃ la : LinAlg d, la.Exact := by
  classical
  have hf : ∀ C : Matrix (Fin d) (Fin d) ℝ, C.PosDef → ∃ M : Matrix (Fin d) (Fin d) ℝ, M * Mᵀ = C := by
    intro C hC
    obtain ⟨y, rfl⟩ := CStarAlgebra.nonneg_iff_eq_star_mul_self.mp hC.posSemidef.nonneg
    refine ⟨yᵀ, ?_⟩
    rw [transpose_transpose, star_eq_conjTranspose, conjTranspose_eq_transpose_of_trivial]
  have hmat : Function.Injective (mat (d := d)) := by
    intro A B h
    ext i j
    have := congrFun (congrFun h i) j
    simpa [mat] using this
  choose f hf using hf
  refine ⟨⟨fun A => if h : ∃ C : Matrix (Fin d) (Fin d) ℝ, mat C = A ∧ C.PosDef then .ok (mat (f h.choose h.choose_spec.2))
    else .error .linAlgError, fun A => if h : ∃ C : Matrix (Fin d) (Fin d) ℝ, mat C = A then .ok (mat h.choose⁻¹)
    else .error .linAlgError, fun A => if h : ∃ C : Matrix (Fin d) (Fin d) ℝ, mat C = A then
      fin (Real.log |h.choose.det|) else nan⟩, ?_, ?_, ?_, ?_⟩
  · intro C hC
    have h : ∃ C' : Matrix (Fin d) (Fin d) ℝ, mat C' = mat C ∧ C'.PosDef := ⟨C, rfl, hC⟩
    refine ⟨f h.choose h.choose_spec.2, dif_pos h, ?_⟩
    rw [hf, hmat h.choose_spec.1]
  · intro C _ hC
    exact dif_neg fun ⟨C', h1, h2⟩ => hC (hmat h1 ▸ h2)
  · intro M _
    have h : ∃ C' : Matrix (Fin d) (Fin d) ℝ, mat C' = mat M := ⟨M, rfl⟩
    simp only
    rw [dif_pos h, hmat h.choose_spec]
  · intro M _
    have h : ∃ C' : Matrix (Fin d) (Fin d) ℝ, mat C' = mat M := ⟨M, rfl⟩
    simp only
    rw [dif_pos h, hmat h.choose_spec]

/-- Two parameters without bounds. -/
noncomputable def examplePlane : Scaler 2 := Scaler.init 2 (some (fun _ => ninf, fun _ => pinf)) none none .probit

theorem examplePlane_forward (xs : List (Fin 2 → ℝ)) :
    ({ examplePlane with scale := false } : Scaler 2).forward (xs.map pt) = .ok (xs.map pt) := by
  have hb : ProperBounds examplePlane.low examplePlane.high :=
    fun i => ⟨by simp [examplePlane, Scaler.init], by simp [examplePlane, Scaler.init], by simp [examplePlane, Scaler.init]⟩
  have hw : withinInterval ({ examplePlane with scale := false } : Scaler 2).low
      ({ examplePlane with scale := false } : Scaler 2).high (xs.map pt) = true :=
    withinInterval_strict hb xs fun x _ i => by simp [examplePlane, Scaler.init]
  unfold Scaler.forward
  rw [hw]
  simp only [Bool.not_true, Bool.and_false, Bool.false_eq_true, if_false]
  have := mapM_ok (Scaler.forwardRow { examplePlane with scale := false }) id (xs.map pt) (fun a _ => by
    simp only [Scaler.forwardRow, Bool.false_eq_true, if_false, id]
    congr 1)
  simpa using this

/-- C92: three points of the plane that are not on a line. -/
example (la : LinAlg 2) (hla : la.Exact) := C92_whitens_partial la hla examplePlane
  (fun i => ⟨by simp [examplePlane, Scaler.init], by simp [examplePlane, Scaler.init], by simp [examplePlane, Scaler.init]⟩)
  rfl (by norm_num) [![0, 0], ![1, 0], ![0, 1]] [![0, 0], ![1, 0], ![0, 1]]
  (fun x _ i => by simp [examplePlane, Scaler.init]) (examplePlane_forward _) (by simp)
  (by
    intro a ha
    by_cases h0 : a 0 = 0
    · refine ⟨![0, 0], by simp, ![0, 1], by simp, ?_⟩
      have h1 : a 1 ≠ 0 := fun h1 => ha (by funext i; fin_cases i <;> simp [h0, h1])
      simpa [Fin.sum_univ_two] using h1.symm
    · refine ⟨![0, 0], by simp, ![1, 0], by simp, ?_⟩
      simpa [Fin.sum_univ_two] using Ne.symm h0)

/-- C93: an object fitted with mean 0, fitted again to two equal points. -/
example (la : LinAlg 2) (hla : la.Exact) := C93_failed_fit_moves la hla
  { examplePlane with affine := some (.full (pt 0) (mat 1) (mat 1) (fin (Real.log |(1 : Matrix (Fin 2) (Fin 2) ℝ).det|))) }
  ⟨fun i => ⟨by simp [examplePlane, Scaler.init], by simp [examplePlane, Scaler.init], by simp [examplePlane, Scaler.init]⟩,
    fun _ => ⟨_, rfl, 0, 1, 1, rfl, rfl, rfl, by simp, rfl⟩⟩ rfl 0 _ _ _ rfl [![1, 1], ![1, 1]] [![1, 1], ![1, 1]]
  (fun x _ i => by simp [examplePlane, Scaler.init]) (by
    have := examplePlane_forward [![1, 1], ![1, 1]]
    exact this) (by simp)
  (fun h => by
    obtain ⟨u, hu, v, hv, huv⟩ := h ![1, 0] (fun h => by simpa using congrFun h 0)
    simp only [List.mem_cons, List.not_mem_nil, or_false, or_self] at hu hv
    exact huv (by rw [hu, hv]))
  (fun h => by
    have := congrFun h 0
    simp [Spec.avg] at this)

end Poco
