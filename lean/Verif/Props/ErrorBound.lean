import Mathlib.Probability.Moments.Variance
import Mathlib.Probability.Independence.Basic
import Verif.Props.Unbiased

/-! C150: how far the evidence and the averages over the history are from the true values. -/

namespace Poco
open F Spec MeasureTheory ProbabilityTheory

variable {α Ω : Type*} [MeasurableSpace α] [MeasurableSpace Ω]

/-- The mean of `n T` independent values of a bounded function. -/
theorem mean_variance {T n : ℕ} (hT : 0 < T) (hn : 0 < n) (P : Measure Ω) [IsProbabilityMeasure P]
    (X : Fin T → Fin n → Ω → α) (hX : ∀ t i, Measurable (X t i))
    (hind : Pairwise fun p q : Fin T × Fin n => IndepFun (X p.1 p.2) (X q.1 q.2) P)
    (w g : α → ℝ) (hw : Measurable w) (hg : Measurable g) (K Z : ℝ) (hw0 : ∀ x, 0 ≤ w x) (hwK : ∀ x, w x ≤ K) (hgw : ∀ x, |g x| ≤ w x)
    (hZ : ∫ ω, (∑ t, ∑ i, w (X t i ω)) / (T * n) ∂P = Z) :
    MemLp (fun ω => (∑ t, ∑ i, g (X t i ω)) / (T * n)) 2 P ∧ Var[fun ω => (∑ t, ∑ i, g (X t i ω)) / (T * n); P] ≤ K * Z / (T * n) := by
  have hTr : (0 : ℝ) < T := by exact_mod_cast hT
  have hnr : (0 : ℝ) < n := by exact_mod_cast hn
  have hmw : ∀ p : Fin T × Fin n, Integrable (fun ω => w (X p.1 p.2 ω)) P := fun p =>
    Integrable.of_bound (hw.comp (hX _ _)).aestronglyMeasurable K (.of_forall fun ω => by
      rw [Real.norm_eq_abs, abs_of_nonneg (hw0 _)]
      exact hwK _)
  have hmem : ∀ p : Fin T × Fin n, MemLp (fun ω => g (X p.1 p.2 ω)) 2 P := fun p =>
    MemLp.of_bound (hg.comp (hX _ _)).aestronglyMeasurable K (.of_forall fun ω => by
      rw [Real.norm_eq_abs]
      exact (hgw _).trans (hwK _))
  have e : (fun ω => (∑ t, ∑ i, g (X t i ω)) / (T * n)) = fun ω => (1 / (T * n : ℝ)) * (∑ p : Fin T × Fin n, fun ω => g (X p.1 p.2 ω)) ω := by
    funext ω
    rw [Finset.sum_apply, Fintype.sum_prod_type, div_eq_mul_one_div, mul_comm]
  have hmsum : MemLp (∑ p : Fin T × Fin n, fun ω => g (X p.1 p.2 ω)) 2 P := memLp_finset_sum' _ fun p _ => hmem p
  refine ⟨by rw [e]; exact hmsum.const_mul _, ?_⟩
  rw [e, variance_const_mul, IndepFun.variance_sum (fun p _ => hmem p) (fun p _ q _ hpq => (hind hpq).comp hg hg)]
  have hone : ∀ p : Fin T × Fin n, Var[fun ω => g (X p.1 p.2 ω); P] ≤ K * ∫ ω, w (X p.1 p.2 ω) ∂P := by
    intro p
    refine (variance_le_expectation_sq (hmem p).1).trans ?_
    rw [← integral_const_mul]
    refine integral_mono_of_nonneg (.of_forall fun ω => sq_nonneg _) ((hmw p).const_mul K) (.of_forall fun ω => ?_)
    simp only [Pi.pow_apply]
    have h1 := hgw (X p.1 p.2 ω)
    have h2 := hwK (X p.1 p.2 ω)
    have h3 := hw0 (X p.1 p.2 ω)
    rw [← sq_abs]
    nlinarith [abs_nonneg (g (X p.1 p.2 ω))]
  have hZ' : ∑ p : Fin T × Fin n, ∫ ω, w (X p.1 p.2 ω) ∂P = T * n * Z := by
    rw [← hZ, integral_div, ← integral_finset_sum _ fun p _ => hmw p]
    have : ∀ ω, ∑ p : Fin T × Fin n, w (X p.1 p.2 ω) = ∑ t, ∑ i, w (X t i ω) := fun ω => Fintype.sum_prod_type _
    simp only [this]
    field_simp
  calc (1 / (T * n : ℝ)) ^ 2 * ∑ p : Fin T × Fin n, Var[fun ω => g (X p.1 p.2 ω); P]
      ≤ (1 / (T * n : ℝ)) ^ 2 * ∑ p : Fin T × Fin n, K * ∫ ω, w (X p.1 p.2 ω) ∂P := by
        gcongr with p _
        exact hone p
    _ = K * Z / (T * n) := by
        rw [← Finset.mul_sum, hZ']
        field_simp

/-- **C150.** Suppose every particle of iteration `t` follows the tempered posterior at `b t`, any two particles are independent, and the stored evidences are
the true ones. Then for the inverse temperature `β` of any of the iterations (`β = 1` after a run), with `n` particles in each: the computed evidence has a
mean-square relative error of at most `1/n`, so that it is off by a fraction `ε` with probability at most `1/(n ε²)`; and the weighted average of
any function bounded by 1 has a mean-square error of at most `4/n`. None of this depends on the likelihood, the prior, the dimension or the number of iterations. -/
theorem C150_error {d T n : ℕ} {B : Type} (hT : 0 < T) (hn : 0 < n) (π : Measure α) (P : Measure Ω) [IsProbabilityMeasure P]
    (l : α → ℝ) (hl : Measurable l) (b : Fin T → ℝ) (hpos : ∀ t, 0 < evidenceAt π l (b t))
    (X : Fin T → Fin n → Ω → α) (hX : ∀ t i, Measurable (X t i)) (hlaw : ∀ t i, P.map (X t i) = tempered π l (b t))
    (hind : Pairwise fun p q : Fin T × Fin n => IndepFun (X p.1 p.2) (X q.1 q.2) P)
    (past : Ω → Cols d B List) (hp : ∀ ω, Holds (past ω) (stagesOf l b (fun t => Real.log (evidenceAt π l (b t))) fun t i => X t i ω))
    (β : ℝ) (hβ : ∃ t, b t = β) :
    ∃ (lw : Ω → List ℝ) (z : Ω → ℝ), (∀ ω, computeLogwLogz (past ω) (fin β) = .ok ((lw ω).map fin, fin (z ω))) ∧
      ∫ ω, (Real.exp (z ω) / evidenceAt π l β - 1) ^ 2 ∂P ≤ (1 : ℝ) / n ∧
      (∀ ε : ℝ, 0 < ε → P {ω | ε ≤ |Real.exp (z ω) / evidenceAt π l β - 1|} ≤ ENNReal.ofReal (1 / (n * ε ^ 2))) ∧
      ∀ f : α → ℝ, Measurable f → (∀ x, |f x| ≤ 1) →
        ∫ ω, ((List.zipWith (fun a y => Real.exp a * f y) (lw ω) (allParticles fun t i => X t i ω)).sum
          - (∫ x, f x * Real.exp (l x * β) ∂π) / evidenceAt π l β) ^ 2 ∂P ≤ (4 : ℝ) / n := by
  obtain ⟨t₀, ht₀⟩ := hβ
  have hZpos : 0 < evidenceAt π l β := by rw [← ht₀]; exact hpos t₀
  have hβi : Integrable (fun x => Real.exp (l x * β)) π := by
    by_contra h
    rw [evidenceAt, integral_undef h] at hZpos
    exact lt_irrefl _ hZpos
  have hTr : (0 : ℝ) < T := by exact_mod_cast hT
  have hnr : (0 : ℝ) < n := by exact_mod_cast hn
  have hex := fun ω => weighted_average l b (fun t => Real.log (evidenceAt π l (b t))) (fun t i => X t i ω) hT hn (past ω) (hp ω) β
  choose lw z h1 h2 hlen h3 using hex
  obtain ⟨lw', z', c1, c2, c3⟩ := C102_unbiased hT hn π P l hl b hpos X hX hlaw past hp β hβi
  have hsame : lw' = lw ∧ z' = z := by
    have : ∀ ω, lw' ω = lw ω ∧ z' ω = z ω := by
      intro ω
      have := (c1 ω).symm.trans (h1 ω)
      simp only [Except.ok.injEq, Prod.mk.injEq, fin_inj] at this
      exact ⟨(List.map_injective_iff.mpr fun a b h => by simpa using h) this.1, this.2⟩
    exact ⟨funext fun ω => (this ω).1, funext fun ω => (this ω).2⟩
  obtain ⟨rfl, rfl⟩ := hsame
  set Z := evidenceAt π l β with hZ
  let m : α → ℝ := fun x => (∑ r, Real.exp (l x * b r) / evidenceAt π l (b r)) / T
  have hmpos : ∀ x, 0 < m x := by
    intro x
    have : Nonempty (Fin T) := ⟨⟨0, hT⟩⟩
    exact div_pos (Finset.sum_pos (fun r _ => div_pos (Real.exp_pos _) (hpos r)) Finset.univ_nonempty) hTr
  have hmm : Measurable m := by fun_prop
  let w : α → ℝ := fun x => Real.exp (l x * β) / m x
  have hwm : Measurable w := by fun_prop
  have hw0 : ∀ x, 0 < w x := fun x => div_pos (Real.exp_pos _) (hmpos x)
  have hwK : ∀ x, w x ≤ T * Z := by
    intro x
    rw [div_le_iff₀ (hmpos x)]
    have h4 : Real.exp (l x * β) / Z ≤ T * m x := by
      have : T * m x = ∑ r, Real.exp (l x * b r) / evidenceAt π l (b r) := by simp only [m]; field_simp
      rw [this]
      have h5 := Finset.single_le_sum (f := fun r => Real.exp (l x * b r) / evidenceAt π l (b r)) (fun r _ => (div_pos (Real.exp_pos _) (hpos r)).le) (Finset.mem_univ t₀)
      simpa only [ht₀] using h5
    rw [div_le_iff₀ hZpos] at h4
    linarith
  have e2 : ∀ (f : α → ℝ) ω, Real.exp (z' ω) * (List.zipWith (fun a y => Real.exp a * f y) (lw' ω) (allParticles fun t i => X t i ω)).sum
      = (∑ t, ∑ i, w (X t i ω) * f (X t i ω)) / (T * n) := by
    intro f ω
    rw [h3]
    have : ∀ r, Real.exp (Real.log (evidenceAt π l (b r))) = evidenceAt π l (b r) := fun r => Real.exp_log (hpos r)
    simp only [this, w, m]
  have key : ∀ (a : List ℝ) (c : List α), a.length = c.length → List.zipWith (fun v (_ : α) => Real.exp v) a c = a.map Real.exp := by
    intro a
    induction a with
    | nil => intro c _; simp
    | cons v a ih =>
      intro c hc
      cases c with
      | nil => simp at hc
      | cons y c => simpa using ih c (by simpa using hc)
  have e3 : ∀ ω, Real.exp (z' ω) = (∑ t, ∑ i, w (X t i ω)) / (T * n) := by
    intro ω
    have := e2 (fun _ => 1) ω
    simp only [mul_one] at this
    rw [key _ _ (hlen ω), h2, mul_one] at this
    exact this
  have hZ' : ∫ ω, (∑ t, ∑ i, w (X t i ω)) / (T * n) ∂P = Z := by
    rw [← c2]
    simp only [e3]
  -- unnormalised averages
  have hmain : ∀ f : α → ℝ, Measurable f → (∀ x, |f x| ≤ 1) →
      MemLp (fun ω => (∑ t, ∑ i, w (X t i ω) * f (X t i ω)) / (T * n)) 2 P ∧
      ∫ ω, (∑ t, ∑ i, w (X t i ω) * f (X t i ω)) / (T * n) ∂P = ∫ x, f x * Real.exp (l x * β) ∂π ∧
      ∫ ω, ((∑ t, ∑ i, w (X t i ω) * f (X t i ω)) / (T * n) - ∫ x, f x * Real.exp (l x * β) ∂π) ^ 2 ∂P ≤ Z ^ 2 / n := by
    intro f hf hf1
    obtain ⟨g1, g2⟩ := mean_variance hT hn P X hX hind w (fun x => w x * f x) hwm (hwm.mul hf) (T * Z) Z (fun x => (hw0 x).le) hwK (fun x => by
      rw [abs_mul, abs_of_pos (hw0 x)]
      exact mul_le_of_le_one_right (hw0 x).le (hf1 x)) hZ'
    have hfi : Integrable (fun x => f x * Real.exp (l x * β)) π := by
      refine hβi.mono' (by fun_prop) (.of_forall fun x => ?_)
      rw [Real.norm_eq_abs, abs_mul, abs_of_pos (Real.exp_pos _)]
      exact mul_le_of_le_one_left (Real.exp_pos _).le (hf1 x)
    have g3 := c3 f hf hfi
    simp only [e2] at g3
    refine ⟨g1, g3, ?_⟩
    rw [variance_eq_integral g1.1.aemeasurable, g3] at g2
    refine g2.trans_eq ?_
    field_simp
  obtain ⟨k1, k2, k3⟩ := hmain (fun _ => 1) measurable_const (by simp)
  simp only [mul_one, one_mul] at k1 k2 k3
  have e4 : ∫ x, Real.exp (l x * β) ∂π = Z := rfl
  rw [e4] at k2 k3
  simp only [← e3] at k1 k2 k3
  have hrel : ∫ ω, (Real.exp (z' ω) / Z - 1) ^ 2 ∂P ≤ (1 : ℝ) / n := by
    have : ∀ ω, (Real.exp (z' ω) / Z - 1) ^ 2 = (Real.exp (z' ω) - Z) ^ 2 / Z ^ 2 := fun ω => by field_simp
    simp only [this]
    rw [integral_div, div_le_iff₀ (by positivity)]
    refine k3.trans_eq ?_
    ring
  have hB : MemLp (fun ω => Real.exp (z' ω) / Z) 2 P := by
    have := k1.const_mul Z⁻¹
    have e5 : (fun ω => Real.exp (z' ω) / Z) = fun ω => Z⁻¹ * Real.exp (z' ω) := funext fun ω => div_eq_inv_mul _ _
    rw [e5]
    exact this
  have hBm : ∫ ω, Real.exp (z' ω) / Z ∂P = 1 := by
    rw [integral_div, k2, div_self hZpos.ne']
  refine ⟨lw', z', h1, hrel, fun ε hε => ?_, fun f hf hf1 => ?_⟩
  · have h6 := meas_ge_le_variance_div_sq hB hε
    rw [hBm] at h6
    refine h6.trans (ENNReal.ofReal_le_ofReal ?_)
    rw [variance_eq_integral hB.1.aemeasurable, hBm]
    rw [div_le_div_iff₀ (by positivity) (by positivity), one_mul]
    have := (le_div_iff₀ hnr).mp hrel
    nlinarith [sq_nonneg ε, pow_pos hε 2]
  · obtain ⟨f1, f2, f3⟩ := hmain f hf hf1
    set I := ∫ x, f x * Real.exp (l x * β) ∂π with hI
    have hint1 : Integrable (fun ω => ((∑ t, ∑ i, w (X t i ω) * f (X t i ω)) / (T * n) - I) ^ 2) P :=
      (f1.sub (memLp_const I)).integrable_sq
    have hint2 : Integrable (fun ω => (Real.exp (z' ω) / Z - 1) ^ 2) P := (hB.sub (memLp_const 1)).integrable_sq
    have hbound : ∀ ω, ((List.zipWith (fun a y => Real.exp a * f y) (lw' ω) (allParticles fun t i => X t i ω)).sum - I / Z) ^ 2
        ≤ 2 * (((∑ t, ∑ i, w (X t i ω) * f (X t i ω)) / (T * n) - I) ^ 2 / Z ^ 2) + 2 * (Real.exp (z' ω) / Z - 1) ^ 2 := by
      intro ω
      have hA := e2 f ω
      set S := (List.zipWith (fun a y => Real.exp a * f y) (lw' ω) (allParticles fun t i => X t i ω)).sum with hS
      rw [← hA]
      have hS1 : |S| ≤ 1 := by
        have hE := Real.exp_pos (z' ω)
        have : |Real.exp (z' ω) * S| ≤ Real.exp (z' ω) := by
          rw [hA]
          conv_rhs => rw [e3]
          rw [abs_div, abs_of_pos (show (0 : ℝ) < T * n by positivity)]
          apply div_le_div_of_nonneg_right _ (by positivity)
          refine (Finset.abs_sum_le_sum_abs _ _).trans (Finset.sum_le_sum fun t _ => ?_)
          refine (Finset.abs_sum_le_sum_abs _ _).trans (Finset.sum_le_sum fun i _ => ?_)
          rw [abs_mul, abs_of_pos (hw0 _)]
          exact mul_le_of_le_one_right (hw0 _).le (hf1 _)
        rw [abs_mul, abs_of_pos hE] at this
        exact le_of_mul_le_mul_left (by simpa using this) hE
      have hsplit : S - I / Z = (Real.exp (z' ω) * S - I) / Z + S * (1 - Real.exp (z' ω) / Z) := by
        field_simp
        ring
      have hS2 : S ^ 2 ≤ 1 := by
        rw [← sq_abs]
        nlinarith [abs_nonneg S]
      rw [hsplit, ← div_pow]
      generalize (Real.exp (z' ω) * S - I) / Z = p
      generalize Real.exp (z' ω) / Z = q
      have h7 : (p + S * (1 - q)) ^ 2 ≤ 2 * p ^ 2 + 2 * (S * (1 - q)) ^ 2 := by nlinarith [sq_nonneg (p - S * (1 - q))]
      have h8 : (S * (1 - q)) ^ 2 ≤ (q - 1) ^ 2 := by
        rw [mul_pow]
        nlinarith [sq_nonneg (q - 1), sq_nonneg (1 - q)]
      linarith
    refine (integral_mono_of_nonneg (.of_forall fun ω => sq_nonneg _) (((hint1.div_const _).const_mul 2).add (hint2.const_mul 2)) (.of_forall hbound)).trans ?_
    rw [integral_add' ((hint1.div_const _).const_mul 2) (hint2.const_mul 2), integral_const_mul, integral_const_mul, integral_div]
    have h9 : (∫ ω, ((∑ t, ∑ i, w (X t i ω) * f (X t i ω)) / (T * n) - I) ^ 2 ∂P) / Z ^ 2 ≤ 1 / n := by
      rw [div_le_iff₀ (by positivity)]
      refine f3.trans_eq ?_
      ring
    have : (4 : ℝ) / n = 2 * (1 / n) + 2 * (1 / n) := by ring
    rw [this]
    linarith

/-- The hypotheses hold for two iterations of one particle each over a two-point space, at inverse temperatures 0 and 1. -/
example : ∃ (π : Measure (Fin 2)) (P : Measure (Fin 2 → Fin 2)) (_ : IsProbabilityMeasure P) (l : Fin 2 → ℝ) (X : Fin 2 → Fin 1 → (Fin 2 → Fin 2) → Fin 2),
    l 0 ≠ l 1 ∧ (∀ t i, P.map (X t i) = tempered π l ((![0, 1] : Fin 2 → ℝ) t)) ∧
    (Pairwise fun p q : Fin 2 × Fin 1 => IndepFun (X p.1 p.2) (X q.1 q.2) P) ∧
    ∃ z : (Fin 2 → Fin 2) → ℝ, (∀ ω, ∃ lw, computeLogwLogz (pastOf (stagesOf l ![0, 1]
        (fun t => Real.log (evidenceAt π l ((![0, 1] : Fin 2 → ℝ) t))) fun t i => X t i ω)) (fin 1) = .ok (lw, fin (z ω))) ∧
      ∫ ω, (Real.exp (z ω) / evidenceAt π l 1 - 1) ^ 2 ∂P ≤ 1 := by
  let l : Fin 2 → ℝ := ![0, 1]
  let b : Fin 2 → ℝ := ![0, 1]
  let π : Measure (Fin 2) := Measure.count
  have hi : ∀ b, Integrable (fun x => Real.exp (l x * b)) π := fun b => Integrable.of_finite
  have hpos : ∀ b, 0 < evidenceAt π l b := by
    intro b
    rw [evidenceAt, integral_countable' (hi b)]
    simp only [tsum_fintype, π, Measure.real, Measure.count_singleton]
    simp
    positivity
  have hpr : ∀ t, IsProbabilityMeasure (tempered π l (b t)) := fun t => tempered_prob π l _ (hi _) (hpos _)
  let P : Measure (Fin 2 → Fin 2) := Measure.pi fun t => tempered π l (b t)
  let X : Fin 2 → Fin 1 → (Fin 2 → Fin 2) → Fin 2 := fun t _ ω => ω t
  have hlaw : ∀ t i, P.map (X t i) = tempered π l (b t) := fun t i => (measurePreserving_eval _ t).map_eq
  have hind : Pairwise fun p q : Fin 2 × Fin 1 => IndepFun (X p.1 p.2) (X q.1 q.2) P := by
    intro p q hpq
    have h := iIndepFun_pi (μ := fun t => tempered π l (b t)) (X := fun _ y => y) fun t => aemeasurable_id
    refine h.indepFun ?_
    intro h'
    exact hpq (Prod.ext h' (Subsingleton.elim _ _))
  obtain ⟨lw, z, h1, h2, -⟩ := C150_error two_pos one_pos π P l measurable_from_top b (fun t => hpos _) X
    (fun t _ => measurable_pi_apply t) hlaw hind (fun ω => pastOf _) (fun ω => pastOf_holds _) 1 ⟨1, rfl⟩
  exact ⟨π, P, inferInstance, l, X, by simp [l], hlaw, hind, z, fun ω => ⟨_, h1 ω⟩, by simpa using h2⟩

end Poco
