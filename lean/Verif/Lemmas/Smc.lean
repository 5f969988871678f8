import Mathlib.MeasureTheory.Function.ConditionalExpectation.PullOut
import Mathlib.MeasureTheory.Function.ConditionalExpectation.Real
import Verif.Spec.Smc

/-! Convergence in probability, and the variance of an average of conditionally independent draws. -/

namespace Poco
open Spec MeasureTheory Filter Topology

section
variable {Ω : ℕ → Type*} [∀ n, MeasurableSpace (Ω n)] {P : ∀ n, Measure (Ω n)}

/-- Whatever is close when finitely many convergent quantities are close, converges. -/
theorem inProb_of_close {ι : Type*} [Fintype ι] {Y : ι → ∀ n, Ω n → ℝ} {c : ι → ℝ} (hY : ∀ k, InProb P (Y k) (c k)) {W : ∀ n, Ω n → ℝ} {w : ℝ}
    (h : ∀ ε > 0, ∃ δ > 0, ∀ᶠ n in atTop, ∀ ω, (∀ k, |Y k n ω - c k| < δ) → |W n ω - w| < ε) : InProb P W w := by
  intro ε hε
  obtain ⟨δ, hδ, hcl⟩ := h ε hε
  have hsum : Tendsto (fun n => ∑ k, P n {ω | δ ≤ |Y k n ω - c k|}) atTop (𝓝 0) := by
    have := tendsto_finset_sum Finset.univ fun k (_ : k ∈ Finset.univ) => hY k δ hδ
    simpa using this
  refine tendsto_of_tendsto_of_tendsto_of_le_of_le' tendsto_const_nhds hsum (.of_forall fun _ => zero_le') ?_
  filter_upwards [hcl] with n hn
  refine (measure_mono ?_).trans (measure_iUnion_fintype_le (P n) fun k => {ω | δ ≤ |Y k n ω - c k|})
  intro ω hω
  by_contra hno
  simp only [Set.mem_iUnion, Set.mem_setOf_eq, not_exists, not_le] at hno
  exact absurd (hn ω hno) (not_lt.mpr hω)

theorem inProb_le {ι : Type*} [Fintype ι] {Y : ι → ∀ n, Ω n → ℝ} {c : ι → ℝ} (hY : ∀ k, InProb P (Y k) (c k)) {W : ∀ n, Ω n → ℝ} {w : ℝ}
    (L : ℝ) (h : ∀ᶠ n in atTop, ∀ ω, |W n ω - w| ≤ L * ∑ k, |Y k n ω - c k|) : InProb P W w := by
  refine inProb_of_close hY fun ε hε => ⟨ε / ((|L| + 1) * (Fintype.card ι + 1)), by positivity, ?_⟩
  filter_upwards [h] with n hn ω hω
  refine (hn ω).trans_lt ?_
  have h1 : ∑ k, |Y k n ω - c k| ≤ Fintype.card ι * (ε / ((|L| + 1) * (Fintype.card ι + 1))) := by
    refine (Finset.sum_le_sum fun k _ => (hω k).le).trans ?_
    simp
  have h0 : 0 ≤ ∑ k, |Y k n ω - c k| := Finset.sum_nonneg fun _ _ => abs_nonneg _
  calc L * ∑ k, |Y k n ω - c k| ≤ |L| * ∑ k, |Y k n ω - c k| := mul_le_mul_of_nonneg_right (le_abs_self L) h0
    _ ≤ |L| * (Fintype.card ι * (ε / ((|L| + 1) * (Fintype.card ι + 1)))) := mul_le_mul_of_nonneg_left h1 (abs_nonneg _)
    _ = ε * ((|L| / (|L| + 1)) * (Fintype.card ι / (Fintype.card ι + 1 : ℝ))) := by
        have : (|L| + 1) ≠ 0 := by positivity
        have : (Fintype.card ι + 1 : ℝ) ≠ 0 := by positivity
        field_simp
    _ < ε := by
        have a1 : |L| / (|L| + 1) < 1 := by rw [div_lt_one (by positivity)]; linarith
        have a2 : (Fintype.card ι : ℝ) / (Fintype.card ι + 1) < 1 := by rw [div_lt_one (by positivity)]; linarith
        have a3 : 0 ≤ |L| / (|L| + 1) := by positivity
        have a4 : 0 ≤ (Fintype.card ι : ℝ) / (Fintype.card ι + 1) := by positivity
        have : (|L| / (|L| + 1)) * (Fintype.card ι / (Fintype.card ι + 1 : ℝ)) < 1 := by nlinarith
        nlinarith

theorem inProb_comp {Y : ∀ n, Ω n → ℝ} {c : ℝ} (hY : InProb P Y c) (g : ℝ → ℝ) (hg : ContinuousAt g c) {W : ∀ n, Ω n → ℝ}
    (hW : ∀ᶠ n in atTop, ∀ ω, W n ω = g (Y n ω)) : InProb P W (g c) := by
  refine inProb_of_close (ι := Unit) (Y := fun _ => Y) (c := fun _ => c) (fun _ => hY) fun ε hε => ?_
  obtain ⟨δ, hδ, h⟩ := Metric.continuousAt_iff.mp hg ε hε
  refine ⟨δ, hδ, ?_⟩
  filter_upwards [hW] with n hn ω hω
  rw [hn]
  exact h (hω ())

theorem inProb_div {X Y : ∀ n, Ω n → ℝ} {a b : ℝ} (hX : InProb P X a) (hY : InProb P Y b) (hb : b ≠ 0) {W : ∀ n, Ω n → ℝ}
    (hW : ∀ᶠ n in atTop, ∀ ω, W n ω = X n ω / Y n ω) : InProb P W (a / b) := by
  refine inProb_of_close (ι := Bool) (Y := fun k => if k then X else Y) (c := fun k => if k then a else b) (fun k => ?_) fun ε hε => ?_
  · cases k
    · exact hY
    · exact hX
  have hc : ContinuousAt (fun p : ℝ × ℝ => p.1 / p.2) (a, b) := continuousAt_fst.div continuousAt_snd hb
  obtain ⟨δ, hδ, h⟩ := Metric.continuousAt_iff.mp hc ε hε
  refine ⟨δ, hδ, ?_⟩
  filter_upwards [hW] with n hn ω hω
  rw [hn]
  have := h (x := (X n ω, Y n ω)) (by rw [Prod.dist_eq]; exact max_lt (hω true) (hω false))
  exact this

theorem inProb_congr {Y W : ∀ n, Ω n → ℝ} {c : ℝ} (hY : InProb P Y c) (h : ∀ᶠ n in atTop, ∀ ω, W n ω = Y n ω) : InProb P W c :=
  inProb_comp hY id continuousAt_id h

theorem inProb_const {Y : ∀ n, Ω n → ℝ} {c : ℝ} (h : ∀ᶠ n in atTop, ∀ ω, Y n ω = c) : InProb P Y c := by
  intro ε hε
  refine tendsto_const_nhds.congr' ?_
  filter_upwards [h] with n hn
  have : {ω | ε ≤ |Y n ω - c|} = ∅ := by
    ext ω
    simp [hn ω, hε]
  rw [this, measure_empty]

end

section
variable {α Ω : Type*} [MeasurableSpace α] (m : MeasurableSpace Ω) [mΩ : MeasurableSpace Ω]

theorem drawn_variance {n : ℕ} (hn : 0 < n) (P : Measure Ω) [IsProbabilityMeasure P] (hm : m ≤ mΩ) (X : Fin n → Ω → α)
    (hX : ∀ i, Measurable (X i)) (mean : (α → ℝ) → Ω → ℝ) (hd : DrawnGiven P m X mean) (f : α → ℝ) (hf : Measurable f) (F : ℝ)
    (hF : ∀ x, |f x| ≤ F) :
    Integrable (fun ω => ((∑ i, f (X i ω)) / n - mean f ω) ^ 2) P ∧ ∫ ω, ((∑ i, f (X i ω)) / n - mean f ω) ^ 2 ∂P ≤ 4 * F ^ 2 / n := by
  have hnr : (0 : ℝ) < n := by exact_mod_cast hn
  obtain ⟨h1, h2⟩ := hd f f ⟨hf, F, hF⟩ ⟨hf, F, hF⟩
  set C : Ω → ℝ := P[fun ω => f (X ⟨0, hn⟩ ω) | m] with hC
  have hCm : StronglyMeasurable[m] C := stronglyMeasurable_condExp
  have hCe : C =ᵐ[P] mean f := h1 _
  have hFm : ∀ i, Measurable fun ω => f (X i ω) := fun i => hf.comp (hX i)
  have hbd : ∀ g : Ω → ℝ, AEStronglyMeasurable g P → ∀ B, (∀ᵐ ω ∂P, |g ω| ≤ B) → Integrable g P := fun g hg B hB =>
    Integrable.of_bound hg B (by simpa using hB)
  have hFi : ∀ i, Integrable (fun ω => f (X i ω)) P := fun i => hbd _ (hFm i).aestronglyMeasurable F (.of_forall fun ω => hF _)
  have hF0 : 0 ≤ F := by
    rcases isEmpty_or_nonempty Ω with h | ⟨⟨ω⟩⟩
    · have := measure_univ (μ := P)
      rw [Set.univ_eq_empty_iff.mpr h, measure_empty] at this
      exact absurd this zero_ne_one
    · exact (abs_nonneg _).trans (hF (X ⟨0, hn⟩ ω))
  have hCb : ∀ᵐ ω ∂P, |C ω| ≤ F := by
    have := ae_bdd_condExp_of_ae_bdd (μ := P) (m := m) (R := ⟨F, hF0⟩) (f := fun ω => f (X ⟨0, hn⟩ ω)) (.of_forall fun ω => hF _)
    exact this
  have hCae : AEStronglyMeasurable C P := (hCm.mono hm).aestronglyMeasurable
  have hCi : Integrable C P := integrable_condExp
  have hmul : ∀ g h : Ω → ℝ, AEStronglyMeasurable g P → AEStronglyMeasurable h P → (∀ᵐ ω ∂P, |g ω| ≤ F) → (∀ᵐ ω ∂P, |h ω| ≤ F) →
      Integrable (fun ω => g ω * h ω) P := by
    intro g h hg hh bg bh
    refine hbd _ (hg.mul hh) (F * F) ?_
    filter_upwards [bg, bh] with ω a b
    rw [abs_mul]
    exact mul_le_mul a b (abs_nonneg _) hF0
  have hfb : ∀ i, ∀ᵐ ω ∂P, |f (X i ω)| ≤ F := fun i => .of_forall fun ω => hF _
  have hfa : ∀ i, AEStronglyMeasurable (fun ω => f (X i ω)) P := fun i => (hFm i).aestronglyMeasurable
  -- products with what is known
  have k1 : ∀ i, ∫ ω, C ω * f (X i ω) ∂P = ∫ ω, C ω * C ω ∂P := by
    intro i
    have := condExp_mul_of_stronglyMeasurable_left (μ := P) (g := fun ω => f (X i ω)) hCm (hmul _ _ hCae (hfa i) hCb (hfb i)) (hFi i)
    rw [← integral_condExp hm (f := fun ω => C ω * f (X i ω))]
    refine integral_congr_ae ?_
    filter_upwards [this, h1 i, hCe] with ω a b c
    rw [show (fun ω => C ω * f (X i ω)) = C * fun ω => f (X i ω) from rfl, a, Pi.mul_apply, b, c]
  have k2 : ∀ i j, i ≠ j → ∫ ω, f (X i ω) * f (X j ω) ∂P = ∫ ω, C ω * C ω ∂P := by
    intro i j hij
    rw [← integral_condExp hm (f := fun ω => f (X i ω) * f (X j ω))]
    refine integral_congr_ae ?_
    filter_upwards [h2 i j hij, hCe] with ω a c
    rw [a, c]
  let Y : Fin n → Ω → ℝ := fun i ω => f (X i ω) - C ω
  have hYY : ∀ i j, Integrable (fun ω => Y i ω * Y j ω) P := by
    intro i j
    have e : (fun ω => Y i ω * Y j ω) = fun ω => f (X i ω) * f (X j ω) - C ω * f (X i ω) - C ω * f (X j ω) + C ω * C ω := by
      funext ω; simp only [Y]; ring
    rw [e]
    exact (((hmul _ _ (hfa i) (hfa j) (hfb i) (hfb j)).sub (hmul _ _ hCae (hfa i) hCb (hfb i))).sub (hmul _ _ hCae (hfa j) hCb (hfb j))).add
      (hmul _ _ hCae hCae hCb hCb)
  have cross : ∀ i j, i ≠ j → ∫ ω, Y i ω * Y j ω ∂P = 0 := by
    intro i j hij
    have e : (fun ω => Y i ω * Y j ω) = fun ω => f (X i ω) * f (X j ω) - C ω * f (X i ω) - C ω * f (X j ω) + C ω * C ω := by
      funext ω; simp only [Y]; ring
    rw [e]
    have i1 := hmul _ _ (hfa i) (hfa j) (hfb i) (hfb j)
    have i2 := hmul _ _ hCae (hfa i) hCb (hfb i)
    have i3 := hmul _ _ hCae (hfa j) hCb (hfb j)
    have i4 := hmul _ _ hCae hCae hCb hCb
    have i12 : Integrable (fun ω => f (X i ω) * f (X j ω) - C ω * f (X i ω)) P := i1.sub i2
    have i123 : Integrable (fun ω => f (X i ω) * f (X j ω) - C ω * f (X i ω) - C ω * f (X j ω)) P := i12.sub i3
    rw [integral_add i123 i4, integral_sub i12 i3, integral_sub i1 i2, k1, k1, k2 i j hij]
    ring
  have diag : ∀ i, ∫ ω, Y i ω * Y i ω ∂P ≤ 4 * F ^ 2 := by
    intro i
    have : ∫ ω, Y i ω * Y i ω ∂P ≤ ∫ _, 4 * F ^ 2 ∂P := by
      refine integral_mono_ae (hYY i i) (integrable_const _) ?_
      filter_upwards [hCb] with ω hc
      have hf' := hF (X i ω)
      rw [abs_le] at hc hf'
      have b1 : Y i ω ≤ 2 * F := by simp only [Y]; linarith
      have b2 : -(2 * F) ≤ Y i ω := by simp only [Y]; linarith
      change Y i ω * Y i ω ≤ 4 * F ^ 2
      nlinarith
    simpa using this
  have hsq : ∀ ω, ((∑ i, f (X i ω)) / n - C ω) ^ 2 = (∑ i, ∑ j, Y i ω * Y j ω) / (n * n) := by
    intro ω
    have : (∑ i, f (X i ω)) / n - C ω = (∑ i, Y i ω) / n := by
      simp only [Y, Finset.sum_sub_distrib, Finset.sum_const, Finset.card_univ, Fintype.card_fin, nsmul_eq_mul]
      field_simp
    rw [this, div_pow, sq, Finset.sum_mul_sum, sq]
  have hS : Integrable (fun ω => (∑ i, ∑ j, Y i ω * Y j ω) / ((n : ℝ) * n)) P :=
    (integrable_finset_sum _ fun i _ => integrable_finset_sum _ fun j _ => hYY i j).div_const _
  have hae : (fun ω => ((∑ i, f (X i ω)) / n - mean f ω) ^ 2) =ᵐ[P] fun ω => (∑ i, ∑ j, Y i ω * Y j ω) / ((n : ℝ) * n) := by
    filter_upwards [hCe] with ω hc
    rw [← hc, hsq]
  refine ⟨hS.congr hae.symm, ?_⟩
  rw [integral_congr_ae hae, integral_div, integral_finset_sum _ fun i _ => integrable_finset_sum _ fun j _ => hYY i j]
  have hin : ∀ i, ∫ ω, ∑ j, Y i ω * Y j ω ∂P ≤ 4 * F ^ 2 := by
    intro i
    rw [integral_finset_sum _ fun j _ => hYY i j, Finset.sum_eq_single i (fun j _ hj => cross i j hj.symm) (by simp)]
    exact diag i
  calc (∑ i, ∫ ω, ∑ j, Y i ω * Y j ω ∂P) / (n * n) ≤ (n * (4 * F ^ 2)) / (n * n) := by
        apply div_le_div_of_nonneg_right _ (by positivity)
        refine (Finset.sum_le_sum fun i _ => hin i).trans ?_
        simp
    _ = 4 * F ^ 2 / n := by field_simp

theorem drawn_chebyshev {n : ℕ} (hn : 0 < n) (P : Measure Ω) [IsProbabilityMeasure P] (hm : m ≤ mΩ) (X : Fin n → Ω → α)
    (hX : ∀ i, Measurable (X i)) (mean : (α → ℝ) → Ω → ℝ) (hd : DrawnGiven P m X mean) (f : α → ℝ) (hf : Measurable f) (F : ℝ)
    (hF : ∀ x, |f x| ≤ F) (ε : ℝ) (hε : 0 < ε) :
    P {ω | ε ≤ |(∑ i, f (X i ω)) / n - mean f ω - 0|} ≤ ENNReal.ofReal (4 * F ^ 2 / ε ^ 2 / n) := by
  obtain ⟨hi, hle⟩ := drawn_variance m hn P hm X hX mean hd f hf F hF
  have h := mul_meas_ge_le_integral_of_nonneg (.of_forall fun ω => sq_nonneg ((∑ i, f (X i ω)) / n - mean f ω)) hi (ε ^ 2)
  have he : {ω | ε ≤ |(∑ i, f (X i ω)) / n - mean f ω - 0|} = {ω | ε ^ 2 ≤ ((∑ i, f (X i ω)) / n - mean f ω) ^ 2} := by
    ext ω
    simp only [Set.mem_setOf_eq, sub_zero]
    rw [← sq_abs (_ - _), sq_le_sq₀ hε.le (abs_nonneg _)]
  rw [he, ← ofReal_measureReal]
  apply ENNReal.ofReal_le_ofReal
  rw [div_right_comm, le_div_iff₀ (by positivity), mul_comm]
  exact h.trans hle

end

section
variable {α : Type*} [MeasurableSpace α] {Ω : ℕ → Type*} (m : ∀ n, MeasurableSpace (Ω n)) [mΩ : ∀ n, MeasurableSpace (Ω n)]

theorem drawn_inProb (P : ∀ n, Measure (Ω n)) [∀ n, IsProbabilityMeasure (P n)] (hm : ∀ n, m n ≤ mΩ n)
    (X : ∀ n, Fin n → Ω n → α) (hX : ∀ n i, Measurable (X n i)) (mean : ∀ n, (α → ℝ) → Ω n → ℝ)
    (hd : ∀ n, 0 < n → DrawnGiven (P n) (m n) (X n) (mean n)) (f : α → ℝ) (hf : Tame f) (c : ℝ) (hc : InProb P (fun n => mean n f) c) :
    InProb P (fun n ω => (∑ i, f (X n i ω)) / n) c := by
  obtain ⟨hfm, F, hF⟩ := hf
  have h0 : InProb P (fun n ω => (∑ i, f (X n i ω)) / n - mean n f ω) 0 := by
    intro ε hε
    have hlim : Tendsto (fun n : ℕ => ENNReal.ofReal (4 * F ^ 2 / ε ^ 2 / n)) atTop (𝓝 0) := by
      have := ENNReal.tendsto_ofReal (tendsto_const_div_atTop_nhds_zero_nat (4 * F ^ 2 / ε ^ 2))
      simpa using this
    refine tendsto_of_tendsto_of_tendsto_of_le_of_le' tendsto_const_nhds hlim (.of_forall fun _ => zero_le') ?_
    filter_upwards [eventually_gt_atTop 0] with n hn
    exact drawn_chebyshev (m n) hn (P n) (hm n) (X n) (hX n) (mean n) (hd n hn) f hfm F hF ε hε
  refine inProb_le (ι := Bool) (Y := fun k => if k then fun n ω => (∑ i, f (X n i ω)) / n - mean n f ω else fun n => mean n f)
    (c := fun k => if k then 0 else c) (fun k => by cases k; exacts [hc, h0]) 1 (.of_forall fun n ω => ?_)
  simp only [Fintype.sum_bool, if_true, Bool.false_eq_true, if_false, one_mul, sub_zero]
  calc |(∑ i, f (X n i ω)) / n - c| = |((∑ i, f (X n i ω)) / n - mean n f ω) + (mean n f ω - c)| := by ring_nf
    _ ≤ _ := abs_add_le _ _

end
end Poco
