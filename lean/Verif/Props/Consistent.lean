import Mathlib.Probability.StrongLaw
import Mathlib.Probability.Independence.InfinitePi
import Verif.Props.Unbiased

/-! C119: with more and more particles the stored evidences, the evidence and the weighted averages converge to the true values. -/

namespace Poco.Spec
variable {d : ℕ} {B : Type}

/-- The history before iteration `t`, as far as weights and evidence are concerned. -/
def before (past : Cols d B List) (t : ℕ) : Cols d B List :=
  { past with beta := past.beta.take t, logz := past.logz.take t, logl := past.logl.take t }

end Poco.Spec

namespace Poco
open F Spec MeasureTheory Filter Topology

section
variable {α : Type*} {T : ℕ}

/-- Replacing the evidences in the mixture changes it by a factor near 1, at every point. -/
theorem mixture_ratio (hT : 0 < T) (c Z Y : Fin T → ℝ) (hc : ∀ r, 0 < c r) (hZ : ∀ r, 0 < Z r) (hY : ∀ r, 0 < Y r) :
    |(∑ r, c r / Z r) / (∑ r, c r / Y r) - 1| ≤ ∑ r, |Y r / Z r - 1| := by
  have : Nonempty (Fin T) := ⟨⟨0, hT⟩⟩
  have hpos : 0 < ∑ r, c r / Y r := Finset.sum_pos (fun r _ => div_pos (hc r) (hY r)) Finset.univ_nonempty
  rw [div_sub_one hpos.ne', abs_div, abs_of_pos hpos, div_le_iff₀ hpos, ← Finset.sum_sub_distrib]
  refine (Finset.abs_sum_le_sum_abs _ _).trans ?_
  rw [Finset.mul_sum]
  apply Finset.sum_le_sum
  intro r _
  have e : c r / Z r - c r / Y r = (Y r / Z r - 1) * (c r / Y r) := by
    have := (hZ r).ne'
    have := (hY r).ne'
    field_simp
  rw [e, abs_mul, abs_of_pos (div_pos (hc r) (hY r))]
  apply mul_le_mul_of_nonneg_right _ (div_pos (hc r) (hY r)).le
  exact Finset.single_le_sum (f := fun r => |Y r / Z r - 1|) (fun r _ => abs_nonneg _) (Finset.mem_univ r)

/-- The estimate for `n` particles per iteration, with `z` as the stored log-evidences. -/
noncomputable def estimate (l : α → ℝ) (b : Fin T → ℝ) (β : ℝ) (f : α → ℝ) (x : Fin T → ℕ → α) (n : ℕ) (z : Fin T → ℝ) : ℝ :=
  (∑ t, ∑ i : Fin n, Real.exp (l (x t i) * β) / ((∑ r, Real.exp (l (x t i) * b r) / Real.exp (z r)) / T) * f (x t i)) / (T * n)

/-- The summand with the true evidences. -/
noncomputable def summand (l : α → ℝ) (b Z : Fin T → ℝ) (β : ℝ) (f : α → ℝ) (y : α) : ℝ :=
  Real.exp (l y * β) / ((∑ r, Real.exp (l y * b r) / Z r) / T) * f y

theorem estimate_tendsto (hT : 0 < T) (l : α → ℝ) (b Z : Fin T → ℝ) (hZ : ∀ r, 0 < Z r) (β : ℝ) (f : α → ℝ) (x : Fin T → ℕ → α)
    (G A : Fin T → ℝ)
    (hG : ∀ t, Tendsto (fun n : ℕ => (∑ i ∈ Finset.range n, summand l b Z β f (x t i)) / n) atTop (𝓝 (G t)))
    (hA : ∀ t, Tendsto (fun n : ℕ => (∑ i ∈ Finset.range n, |summand l b Z β f (x t i)|) / n) atTop (𝓝 (A t)))
    (z : ℕ → Fin T → ℝ) (hz : ∀ r, Tendsto (fun n => Real.exp (z n r)) atTop (𝓝 (Z r))) :
    Tendsto (fun n => estimate l b β f x n (z n)) atTop (𝓝 ((∑ t, G t) / T)) := by
  have hTr : (0 : ℝ) < T := by exact_mod_cast hT
  have : Nonempty (Fin T) := ⟨⟨0, hT⟩⟩
  let δ : ℕ → ℝ := fun n => ∑ r, |Real.exp (z n r) / Z r - 1|
  have hδ : Tendsto δ atTop (𝓝 0) := by
    have : Tendsto δ atTop (𝓝 (∑ r : Fin T, |Z r / Z r - 1|)) := by
      apply tendsto_finset_sum
      intro r _
      exact (((hz r).div_const _).sub_const _).abs
    simpa [div_self (hZ _).ne'] using this
  let g := summand l b Z β f
  have e1 : ∀ n, (∑ t, (∑ i ∈ Finset.range n, g (x t i)) / n) / T = (∑ t, ∑ i : Fin n, g (x t i)) / (T * n) := by
    intro n
    rw [← Finset.sum_div, div_div, mul_comm (n : ℝ)]
    congr 1
    apply Finset.sum_congr rfl
    intro t _
    rw [Finset.sum_range]
  have hmain : Tendsto (fun n : ℕ => (∑ t, ∑ i : Fin n, g (x t i)) / (T * n)) atTop (𝓝 ((∑ t, G t) / T)) := by
    simp only [← e1]
    exact (tendsto_finset_sum _ fun t _ => hG t).div_const _
  have hdiff : Tendsto (fun n : ℕ => δ n * ((∑ t, (∑ i ∈ Finset.range n, |g (x t i)|) / n) / T)) atTop (𝓝 0) := by
    have := hδ.mul ((tendsto_finset_sum Finset.univ fun t _ => hA t).div_const (T : ℝ))
    simpa using this
  have hclose : ∀ n, |estimate l b β f x n (z n) - (∑ t, ∑ i : Fin n, g (x t i)) / (T * n)| ≤
      δ n * ((∑ t, (∑ i ∈ Finset.range n, |g (x t i)|) / n) / T) := by
    intro n
    unfold estimate
    rw [← sub_div, ← Finset.sum_sub_distrib, abs_div, abs_of_nonneg (by positivity : (0 : ℝ) ≤ T * n), ← Finset.sum_div, div_div,
      mul_comm (n : ℝ), mul_div_assoc']
    apply div_le_div_of_nonneg_right _ (by positivity)
    refine (Finset.abs_sum_le_sum_abs _ _).trans ?_
    rw [Finset.mul_sum]
    apply Finset.sum_le_sum
    intro t _
    rw [← Finset.sum_sub_distrib, Finset.sum_range, Finset.mul_sum]
    refine (Finset.abs_sum_le_sum_abs _ _).trans ?_
    apply Finset.sum_le_sum
    intro i _
    set y := x t i
    have hr := mixture_ratio hT (fun r => Real.exp (l y * b r)) Z (fun r => Real.exp (z n r)) (fun r => Real.exp_pos _) hZ fun r => Real.exp_pos _
    have p1 : 0 < ∑ r, Real.exp (l y * b r) / Z r := Finset.sum_pos (fun r _ => div_pos (Real.exp_pos _) (hZ r)) Finset.univ_nonempty
    have p2 : 0 < ∑ r, Real.exp (l y * b r) / Real.exp (z n r) :=
      Finset.sum_pos (fun r _ => div_pos (Real.exp_pos _) (Real.exp_pos _)) Finset.univ_nonempty
    have e : Real.exp (l y * β) / ((∑ r, Real.exp (l y * b r) / Real.exp (z n r)) / T) * f y - g y =
        ((∑ r, Real.exp (l y * b r) / Z r) / (∑ r, Real.exp (l y * b r) / Real.exp (z n r)) - 1) * g y := by
      simp only [g, summand]
      generalize (∑ r, Real.exp (l y * b r) / Z r) = a at *
      generalize (∑ r, Real.exp (l y * b r) / Real.exp (z n r)) = c at *
      have := p1.ne'
      have := p2.ne'
      field_simp
    rw [e, abs_mul]
    exact mul_le_mul_of_nonneg_right hr (abs_nonneg _)
  have hz0 := squeeze_zero_norm (f := fun n => estimate l b β f x n (z n) - (∑ t, ∑ i : Fin n, g (x t i)) / (T * n)) hclose hdiff
  simpa using hz0.add hmain

end

section
variable {α Ω : Type*} [MeasurableSpace α] [MeasurableSpace Ω] {T : ℕ}

/-- The expectations of the summand under the tempered posteriors average to the integral wanted. -/
theorem summand_integral (hT : 0 < T) (π : Measure α) (l : α → ℝ) (hl : Measurable l) (b : Fin T → ℝ) (hpos : ∀ t, 0 < evidenceAt π l (b t))
    (β : ℝ) (f : α → ℝ) (hf : Measurable f) (hfi : Integrable (fun x => f x * Real.exp (l x * β)) π) :
    Measurable (summand l b (fun t => evidenceAt π l (b t)) β f) ∧
    (∀ t, Integrable (summand l b (fun t => evidenceAt π l (b t)) β f) (tempered π l (b t))) ∧
    (∑ t, ∫ x, summand l b (fun t => evidenceAt π l (b t)) β f x ∂(tempered π l (b t))) / T = ∫ x, f x * Real.exp (l x * β) ∂π := by
  let Z := fun t => evidenceAt π l (b t)
  let m : α → ℝ := fun x => (∑ r, Real.exp (l x * b r) / Z r) / T
  have hTr : (0 : ℝ) < T := by exact_mod_cast hT
  have hmpos : ∀ x, 0 < m x := by
    intro x
    have : Nonempty (Fin T) := ⟨⟨0, hT⟩⟩
    exact div_pos (Finset.sum_pos (fun r _ => div_pos (Real.exp_pos _) (hpos r)) Finset.univ_nonempty) hTr
  let g : α → ℝ := fun x => Real.exp (l x * β) / m x * f x
  have hg : summand l b (fun t => evidenceAt π l (b t)) β f = g := rfl
  have hgm : Measurable g := by fun_prop
  have hgd : ∀ t, Measurable fun x => ENNReal.ofReal (Real.exp (l x * b t) / evidenceAt π l (b t)) := fun t => by fun_prop
  have hint : ∀ t, Integrable (fun x => Real.exp (l x * b t) / Z t * g x) π := by
    intro t
    have hterm : ∀ x, Real.exp (l x * b t) / Z t ≤ T * m x := by
      intro x
      have : T * m x = ∑ r, Real.exp (l x * b r) / Z r := by simp only [m]; field_simp
      rw [this]
      exact Finset.single_le_sum (f := fun r => Real.exp (l x * b r) / Z r) (fun r _ => (div_pos (Real.exp_pos _) (hpos r)).le) (Finset.mem_univ t)
    refine Integrable.mono' (hfi.abs.const_mul (T : ℝ)) (by fun_prop) (.of_forall fun x => ?_)
    have hp0 : 0 < Real.exp (l x * b t) / Z t := div_pos (Real.exp_pos _) (hpos t)
    have : Real.exp (l x * b t) / Z t * g x = (Real.exp (l x * b t) / Z t / m x) * (f x * Real.exp (l x * β)) := by
      simp only [g]; field_simp
    rw [this, Real.norm_eq_abs, abs_mul, abs_of_pos (div_pos hp0 (hmpos x))]
    apply mul_le_mul_of_nonneg_right _ (abs_nonneg _)
    rw [div_le_iff₀ (hmpos x)]
    exact hterm x
  have e1 : ∀ t x, (ENNReal.ofReal (Real.exp (l x * b t) / evidenceAt π l (b t))).toReal = Real.exp (l x * b t) / Z t := fun t x =>
    ENNReal.toReal_ofReal (div_pos (Real.exp_pos _) (hpos t)).le
  have hlt : ∀ t, ∀ᵐ x ∂π, ENNReal.ofReal (Real.exp (l x * b t) / evidenceAt π l (b t)) < ⊤ := fun t => .of_forall fun x => ENNReal.ofReal_lt_top
  rw [hg]
  refine ⟨hgm, fun t => ?_, ?_⟩
  · rw [tempered, integrable_withDensity_iff_integrable_smul' (hgd t) (hlt t)]
    simpa only [e1, smul_eq_mul] using hint t
  · have e2 : ∀ t, ∫ x, g x ∂(tempered π l (b t)) = ∫ x, Real.exp (l x * b t) / Z t * g x ∂π := by
      intro t
      rw [tempered, integral_withDensity_eq_integral_toReal_smul (hgd t) (hlt t)]
      simp only [e1, smul_eq_mul]
    simp only [e2]
    rw [← integral_finset_sum _ fun t _ => hint t]
    have e4 : ∀ x, ∑ t, Real.exp (l x * b t) / Z t * g x = T * (f x * Real.exp (l x * β)) := by
      intro x
      rw [← Finset.sum_mul]
      have : (∑ t, Real.exp (l x * b t) / Z t) = T * m x := by simp only [m]; field_simp
      rw [this]
      have := (hmpos x).ne'
      simp only [g]
      field_simp
    simp only [e4]
    rw [integral_const_mul, mul_div_cancel_left₀ _ hTr.ne']

/-- The law of large numbers for the estimates, whatever the stored evidences are as long as they converge. -/
theorem estimate_ae (hT : 0 < T) (π : Measure α) (P : Measure Ω) [IsProbabilityMeasure P] (l : α → ℝ) (hl : Measurable l) (b : Fin T → ℝ)
    (hpos : ∀ t, 0 < evidenceAt π l (b t)) (X : Fin T → ℕ → Ω → α) (hX : ∀ t i, Measurable (X t i))
    (hlaw : ∀ t i, P.map (X t i) = tempered π l (b t)) (hind : ∀ t, Pairwise fun i j => ProbabilityTheory.IndepFun (X t i) (X t j) P)
    (β : ℝ) (f : α → ℝ) (hf : Measurable f) (hfi : Integrable (fun x => f x * Real.exp (l x * β)) π) :
    ∀ᵐ ω ∂P, ∀ z : ℕ → Fin T → ℝ, (∀ r, Tendsto (fun n => Real.exp (z n r)) atTop (𝓝 (evidenceAt π l (b r)))) →
      Tendsto (fun n => estimate l b β f (fun t i => X t i ω) n (z n)) atTop (𝓝 (∫ x, f x * Real.exp (l x * β) ∂π)) := by
  obtain ⟨hgm, hgi, hgs⟩ := summand_integral hT π l hl b hpos β f hf hfi
  set g := summand l b (fun t => evidenceAt π l (b t)) β f
  have slln : ∀ (h : α → ℝ), Measurable h → (∀ t, Integrable h (tempered π l (b t))) → ∀ t,
      ∀ᵐ ω ∂P, Tendsto (fun n : ℕ => (∑ i ∈ Finset.range n, h (X t i ω)) / n) atTop (𝓝 (∫ x, h x ∂(tempered π l (b t)))) := by
    intro h hm hi t
    have h0 : Integrable (fun ω => h (X t 0 ω)) P := by
      have : Integrable h (P.map (X t 0)) := by rw [hlaw]; exact hi t
      exact this.comp_measurable (hX t 0)
    have e : ∫ x, h x ∂(tempered π l (b t)) = ∫ ω, h (X t 0 ω) ∂P := by
      rw [← hlaw t 0, integral_map (hX t 0).aemeasurable hm.aestronglyMeasurable]
    rw [e]
    refine ProbabilityTheory.strong_law_ae_real (fun i ω => h (X t i ω)) h0 (fun i j hij => ?_) fun i => ?_
    · exact (hind t hij).comp hm hm
    · have hid : ProbabilityTheory.IdentDistrib (X t i) (X t 0) P P := ⟨(hX t i).aemeasurable, (hX t 0).aemeasurable, by rw [hlaw, hlaw]⟩
      exact hid.comp hm
  have h1 : ∀ᵐ ω ∂P, ∀ t, Tendsto (fun n : ℕ => (∑ i ∈ Finset.range n, g (X t i ω)) / n) atTop (𝓝 (∫ x, g x ∂(tempered π l (b t)))) :=
    ae_all_iff.mpr fun t => slln g hgm hgi t
  have h2 : ∀ᵐ ω ∂P, ∀ t, Tendsto (fun n : ℕ => (∑ i ∈ Finset.range n, |g (X t i ω)|) / n) atTop (𝓝 (∫ x, |g x| ∂(tempered π l (b t)))) :=
    ae_all_iff.mpr fun t => slln (fun x => |g x|) (by fun_prop) (fun t => (hgi t).abs) t
  filter_upwards [h1, h2] with ω k1 k2 z hz
  rw [← hgs]
  exact estimate_tendsto hT l b _ hpos β f (fun t i => X t i ω) _ _ k1 k2 z hz

theorem stagesOf_take {n : ℕ} (l : α → ℝ) (b z : Fin T → ℝ) (x : Fin T → Fin n → α) (k : ℕ) (hk : k ≤ T) :
    (stagesOf l b z x).take k = stagesOf l (fun r : Fin k => b (r.castLE hk)) (fun r => z (r.castLE hk)) fun r => x (r.castLE hk) := by
  apply List.ext_getElem
  · simp [stagesOf, hk]
  · intro i h1 h2
    simp [stagesOf, Fin.castLE]

theorem before_holds {d : ℕ} {B : Type} {past : Cols d B List} {h : List Stage} (hh : Holds past h) (k : ℕ) : Holds (before past k) (h.take k) := by
  obtain ⟨h1, h2, h3⟩ := hh
  refine ⟨?_, ?_, ?_⟩ <;> simp [before, h1, h2, h3, List.map_take]

theorem zipWith_one (lw : List ℝ) (c : List α) (h : lw.length = c.length) :
    List.zipWith (fun a (_ : α) => Real.exp a * 1) lw c = lw.map Real.exp := by
  induction lw generalizing c with
  | nil => simp
  | cons v a ih =>
    cases c with
    | nil => simp at h
    | cons y c => simpa using ih c (by simpa using h)

/-- The evidence the code computes is the estimate for the constant function 1. -/
theorem logz_estimate {d n : ℕ} {B : Type} (hT : 0 < T) (hn : 0 < n) (l : α → ℝ) (b z : Fin T → ℝ) (x : Fin T → ℕ → α) (past : Cols d B List)
    (hp : Holds past (stagesOf l b z fun t (i : Fin n) => x t i)) (β : ℝ) :
    ∃ (lw : List ℝ) (ze : ℝ), computeLogwLogz past (fin β) = .ok (lw.map fin, fin ze) ∧ Real.exp ze = estimate l b β (fun _ => 1) x n z ∧
      ∀ f : α → ℝ, Real.exp ze * (List.zipWith (fun a y => Real.exp a * f y) lw (allParticles fun t (i : Fin n) => x t i)).sum =
        estimate l b β f x n z := by
  obtain ⟨lw, ze, h1, h2, h3, h4⟩ := weighted_average l b z (fun t (i : Fin n) => x t i) hT hn past hp β
  refine ⟨lw, ze, h1, ?_, fun f => h4 f⟩
  have := h4 fun _ => 1
  rw [zipWith_one _ _ h3, h2, mul_one] at this
  exact this

theorem evidence_pos (π : Measure α) [IsProbabilityMeasure π] (l : α → ℝ) (β : ℝ) (hβ : Integrable (fun x => Real.exp (l x * β)) π) :
    0 < evidenceAt π l β := by
  unfold evidenceAt
  rw [integral_pos_iff_support_of_nonneg (fun x => (Real.exp_pos _).le) hβ]
  have : Function.support (fun x => Real.exp (l x * β)) = Set.univ := by
    ext x; simp [Real.exp_ne_zero]
  rw [this]
  simp

/-- **C119.** A fixed sequence of temperatures `b 0, …, b (T-1)`; the particles of iteration `t` are (pairwise) independent draws from
the tempered posterior at `b t`; every stored evidence is 0 at temperature 0 or the one computed from the history before. As the number
`n` of particles per iteration grows, with probability one: all stored log-evidences converge to the true ones; so does the evidence
computed from the whole history at any `β`; and the weighted average of `f` converges to its expectation under the tempered posterior. -/
theorem C119_consistent {d : ℕ} {B : Type} (hT : 0 < T) (π : Measure α) [IsProbabilityMeasure π] (P : Measure Ω) [IsProbabilityMeasure P]
    (l : α → ℝ) (hl : Measurable l) (b : Fin T → ℝ) (hint : ∀ t, Integrable (fun x => Real.exp (l x * b t)) π)
    (X : Fin T → ℕ → Ω → α) (hX : ∀ t i, Measurable (X t i)) (hlaw : ∀ t i, P.map (X t i) = tempered π l (b t))
    (hind : ∀ t, Pairwise fun i j => ProbabilityTheory.IndepFun (X t i) (X t j) P)
    (past : ℕ → Ω → Cols d B List) (z : ℕ → Ω → Fin T → ℝ)
    (hp : ∀ n, 0 < n → ∀ ω, Holds (past n ω) (stagesOf l b (z n ω) fun t (i : Fin n) => X t i ω))
    (hz : ∀ n, 0 < n → ∀ ω t, (b t = 0 ∧ z n ω t = 0) ∨ ∃ lw, computeLogwLogz (before (past n ω) t) (fin (b t)) = .ok (lw, fin (z n ω t)))
    (β : ℝ) (hβ : Integrable (fun x => Real.exp (l x * β)) π) :
    (∀ᵐ ω ∂P, ∀ t, Tendsto (fun n => z n ω t) atTop (𝓝 (Real.log (evidenceAt π l (b t))))) ∧
    ∃ (lw : ℕ → Ω → List ℝ) (ze : ℕ → Ω → ℝ),
      (∀ n, 0 < n → ∀ ω, computeLogwLogz (past n ω) (fin β) = .ok ((lw n ω).map fin, fin (ze n ω))) ∧
      (∀ᵐ ω ∂P, Tendsto (fun n => ze n ω) atTop (𝓝 (Real.log (evidenceAt π l β)))) ∧
      ∀ f : α → ℝ, Measurable f → Integrable (fun x => f x * Real.exp (l x * β)) π → ∀ᵐ ω ∂P,
        Tendsto (fun n => (List.zipWith (fun a y => Real.exp a * f y) (lw n ω) (allParticles fun t (i : Fin n) => X t i ω)).sum) atTop
          (𝓝 (∫ x, f x ∂(tempered π l β))) := by
  have hpos : ∀ t, 0 < evidenceAt π l (b t) := fun t => evidence_pos π l _ (hint t)
  -- one good event for every prefix
  have hgood : ∀ᵐ ω ∂P, ∀ t : Fin T, 0 < t.val → ∀ y : ℕ → Fin t.val → ℝ,
      (∀ r : Fin t.val, Tendsto (fun n => Real.exp (y n r)) atTop (𝓝 (evidenceAt π l (b (r.castLE t.2.le))))) →
      Tendsto (fun n => estimate l (fun r : Fin t.val => b (r.castLE t.2.le)) (b t) (fun _ => 1) (fun r i => X (r.castLE t.2.le) i ω) n (y n)) atTop
        (𝓝 (evidenceAt π l (b t))) := by
    refine ae_all_iff.mpr fun t => ?_
    by_cases ht : 0 < t.val
    · have := estimate_ae ht π P l hl (fun r : Fin t.val => b (r.castLE t.2.le)) (fun r => hpos _) (fun r => X (r.castLE t.2.le)) (fun r => hX _)
        (fun r => hlaw _) (fun r => hind _) (b t) (fun _ => 1) measurable_const (by simpa using hint t)
      filter_upwards [this] with ω h _ y hy
      have := h y hy
      simp only [one_mul] at this
      exact this
    · exact .of_forall fun ω h => absurd h ht
  have hexp : ∀ᵐ ω ∂P, ∀ t, Tendsto (fun n => Real.exp (z n ω t)) atTop (𝓝 (evidenceAt π l (b t))) := by
    filter_upwards [hgood] with ω hg
    have : ∀ k, ∀ t : Fin T, t.val = k → Tendsto (fun n => Real.exp (z n ω t)) atTop (𝓝 (evidenceAt π l (b t))) := by
      intro k
      induction k using Nat.strong_induction_on with
      | _ k ih =>
        intro t htk
        by_cases hb : b t = 0 ∧ ∀ n, 0 < n → z n ω t = 0
        · have e : evidenceAt π l (b t) = 1 := by
            unfold evidenceAt
            rw [hb.1]; simp
          rw [e]
          refine tendsto_const_nhds.congr' ?_
          filter_upwards [eventually_gt_atTop 0] with n hn
          rw [hb.2 n hn, Real.exp_zero]
        · by_cases ht0 : 0 < t.val
          · have key := hg t ht0 (fun n r => z n ω (r.castLE t.2.le)) fun r => ih r.val (by rw [← htk]; exact r.2) _ rfl
            by_cases hb0 : b t = 0
            · -- either rule may have been used at each `n`
              have e : evidenceAt π l (b t) = 1 := by
                unfold evidenceAt
                rw [hb0]; simp
              rw [e] at key ⊢
              rw [tendsto_iff_norm_sub_tendsto_zero] at key ⊢
              refine squeeze_zero' (.of_forall fun n => norm_nonneg _) ?_ key
              filter_upwards [eventually_gt_atTop 0] with n hn
              rcases hz n hn ω t with ⟨-, h0⟩ | ⟨lw, h0⟩
              · rw [h0]; simp
              · have hh := before_holds (hp n hn ω) t
                rw [stagesOf_take _ _ _ _ _ t.2.le] at hh
                obtain ⟨lw', ze, h1, h2, -⟩ := logz_estimate ht0 hn l _ _ (fun r i => X (r.castLE t.2.le) i ω) _ hh (b t)
                rw [h0] at h1
                simp only [Except.ok.injEq, Prod.mk.injEq, fin_inj] at h1
                rw [h1.2, h2]
            · refine key.congr' ?_
              filter_upwards [eventually_gt_atTop 0] with n hn
              rcases hz n hn ω t with ⟨h0, -⟩ | ⟨lw, h0⟩
              · exact absurd h0 hb0
              · have hh := before_holds (hp n hn ω) t
                rw [stagesOf_take _ _ _ _ _ t.2.le] at hh
                obtain ⟨lw', ze, h1, h2, -⟩ := logz_estimate ht0 hn l _ _ (fun r i => X (r.castLE t.2.le) i ω) _ hh (b t)
                rw [h0] at h1
                simp only [Except.ok.injEq, Prod.mk.injEq, fin_inj] at h1
                rw [h1.2, h2]
          · -- the first iteration has nothing before it
            exfalso
            apply hb
            have hno : ∀ n, 0 < n → ∀ lw, computeLogwLogz (before (past n ω) t) (fin (b t)) ≠ .ok (lw, fin (z n ω t)) := by
              intro n hn lw h
              unfold computeLogwLogz at h
              have hl0 : (before (past n ω) t).logl = [] := by
                have : t.val = 0 := by omega
                simp [before, this]
              have hb0 : (before (past n ω) t).beta = [] := by
                have : t.val = 0 := by omega
                simp [before, this]
              rw [hl0, hb0] at h
              simp at h
            refine ⟨?_, fun n hn => ?_⟩
            · rcases hz 1 one_pos ω t with ⟨h0, -⟩ | ⟨lw, h0⟩
              · exact h0
              · exact absurd h0 (hno 1 one_pos lw)
            · rcases hz n hn ω t with ⟨-, h0⟩ | ⟨lw, h0⟩
              · exact h0
              · exact absurd h0 (hno n hn lw)
    exact fun t => this t.val t rfl
  constructor
  · filter_upwards [hexp] with ω h t
    have := (Real.continuousAt_log (hpos t).ne').tendsto.comp (h t)
    simpa [Function.comp_def] using this
  · have hex : ∀ (n : ℕ) (ω : Ω), ∃ (lw : List ℝ) (ze : ℝ), 0 < n → computeLogwLogz (past n ω) (fin β) = .ok (lw.map fin, fin ze) ∧
        Real.exp ze = estimate l b β (fun _ => 1) (fun t i => X t i ω) n (z n ω) ∧
        ∀ f : α → ℝ, Real.exp ze * (List.zipWith (fun a y => Real.exp a * f y) lw (allParticles fun t (i : Fin n) => X t i ω)).sum =
          estimate l b β f (fun t i => X t i ω) n (z n ω) := by
      intro n ω
      by_cases hn : 0 < n
      · obtain ⟨lw, ze, h⟩ := logz_estimate hT hn l b (z n ω) (fun t i => X t i ω) (past n ω) (hp n hn ω) β
        exact ⟨lw, ze, fun _ => h⟩
      · exact ⟨[], 0, fun h => absurd h hn⟩
    choose lw ze hall using hex
    have hevp := evidence_pos π l β hβ
    have hze : ∀ᵐ ω ∂P, Tendsto (fun n => Real.exp (ze n ω)) atTop (𝓝 (evidenceAt π l β)) := by
      have := estimate_ae hT π P l hl b hpos X hX hlaw hind β (fun _ => 1) measurable_const (by simpa using hβ)
      filter_upwards [this, hexp] with ω h1 h2
      have := h1 (fun n => z n ω) h2
      simp only [one_mul] at this
      refine this.congr' ?_
      filter_upwards [eventually_gt_atTop 0] with n hn
      exact (hall n ω hn).2.1.symm
    refine ⟨lw, ze, fun n hn ω => (hall n ω hn).1, ?_, fun f hf hfi => ?_⟩
    · filter_upwards [hze] with ω h
      have := (Real.continuousAt_log hevp.ne').tendsto.comp h
      simpa [Function.comp_def] using this
    · have := estimate_ae hT π P l hl b hpos X hX hlaw hind β f hf hfi
      have e : ∫ x, f x ∂(tempered π l β) = (∫ x, f x * Real.exp (l x * β) ∂π) / evidenceAt π l β := by
        have hlt : ∀ᵐ x ∂π, ENNReal.ofReal (Real.exp (l x * β) / evidenceAt π l β) < ⊤ := .of_forall fun x => ENNReal.ofReal_lt_top
        rw [tempered, integral_withDensity_eq_integral_toReal_smul (by fun_prop) hlt, ← integral_div]
        congr 1
        funext x
        rw [ENNReal.toReal_ofReal (div_pos (Real.exp_pos _) hevp).le, smul_eq_mul]
        ring
      rw [e]
      filter_upwards [this, hexp, hze] with ω h1 h2 h3
      have := (h1 (fun n => z n ω) h2).div h3 hevp.ne'
      refine this.congr' ?_
      filter_upwards [eventually_gt_atTop 0] with n hn
      rw [Pi.div_apply, ← (hall n ω hn).2.2 f, mul_div_cancel_left₀ _ (Real.exp_pos _).ne']

end

/-- The hypotheses of C119 are met: a prior on two points, a log-likelihood that tells them apart, temperatures 0 and 1, all particles
independent, and the evidences recorded by the rule of the code. -/
example : ∃ (π : Measure (Fin 2)) (_ : IsProbabilityMeasure π) (l : Fin 2 → ℝ) (P : Measure (Fin 2 × ℕ → Fin 2)) (_ : IsProbabilityMeasure P)
    (X : Fin 2 → ℕ → (Fin 2 × ℕ → Fin 2) → Fin 2) (past : ℕ → (Fin 2 × ℕ → Fin 2) → Cols 1 Unit List) (z : ℕ → (Fin 2 × ℕ → Fin 2) → Fin 2 → ℝ),
    l 0 ≠ l 1 ∧ (∀ t i, Measurable (X t i)) ∧ (∀ t i, P.map (X t i) = tempered π l ((![0, 1] : Fin 2 → ℝ) t)) ∧
    (∀ t, Pairwise fun i j => ProbabilityTheory.IndepFun (X t i) (X t j) P) ∧
    (∀ n, 0 < n → ∀ ω, Holds (past n ω) (stagesOf l ![0, 1] (z n ω) fun t (i : Fin n) => X t i ω)) ∧
    (∀ n, 0 < n → ∀ ω t, ((![0, 1] : Fin 2 → ℝ) t = 0 ∧ z n ω t = 0) ∨
      ∃ lw, computeLogwLogz (before (past n ω) t) (fin ((![0, 1] : Fin 2 → ℝ) t)) = .ok (lw, fin (z n ω t))) ∧
    ∀ᵐ ω ∂P, ∀ t, Tendsto (fun n => z n ω t) atTop (𝓝 (Real.log (evidenceAt π l ((![0, 1] : Fin 2 → ℝ) t)))) := by
  let l : Fin 2 → ℝ := ![0, 1]
  let b : Fin 2 → ℝ := ![0, 1]
  have hc : 0 < evidenceAt (Measure.count : Measure (Fin 2)) l 0 := by
    rw [evidenceAt, integral_countable' Integrable.of_finite]
    simp only [tsum_fintype, Measure.real, Measure.count_singleton]
    simp
  let π : Measure (Fin 2) := tempered Measure.count l 0
  have hπ : IsProbabilityMeasure π := tempered_prob _ l _ Integrable.of_finite hc
  have hi : ∀ b, Integrable (fun x => Real.exp (l x * b)) π := fun b => Integrable.of_finite
  have hpr : ∀ p : Fin 2 × ℕ, IsProbabilityMeasure (tempered π l (b p.1)) := fun p => tempered_prob π l _ (hi _) (evidence_pos π l _ (hi _))
  let P : Measure (Fin 2 × ℕ → Fin 2) := Measure.infinitePi fun p => tempered π l (b p.1)
  let X : Fin 2 → ℕ → (Fin 2 × ℕ → Fin 2) → Fin 2 := fun t i ω => ω (t, i)
  let z : ℕ → (Fin 2 × ℕ → Fin 2) → Fin 2 → ℝ := fun n ω =>
    ![0, Real.log (estimate l (fun _ : Fin 1 => 0) 1 (fun _ => 1) (fun _ i => X 0 i ω) n fun _ => 0)]
  let past : ℕ → (Fin 2 × ℕ → Fin 2) → Cols 1 Unit List := fun n ω => pastOf (stagesOf l b (z n ω) fun t (i : Fin n) => X t i ω)
  have hX : ∀ t i, Measurable (X t i) := fun t i => measurable_pi_apply _
  have hlaw : ∀ t i, P.map (X t i) = tempered π l (b t) := fun t i => (measurePreserving_eval_infinitePi (fun p : Fin 2 × ℕ => tempered π l (b p.1)) (t, i)).map_eq
  have hind : ∀ t, Pairwise fun i j => ProbabilityTheory.IndepFun (X t i) (X t j) P := by
    intro t i j hij
    have := ProbabilityTheory.iIndepFun_infinitePi (P := fun p : Fin 2 × ℕ => tempered π l (b p.1)) (X := fun _ y => y) (fun _ => measurable_id)
    exact this.indepFun (i := (t, i)) (j := (t, j)) (by simpa using hij)
  have hp : ∀ n, 0 < n → ∀ ω, Holds (past n ω) (stagesOf l b (z n ω) fun t (i : Fin n) => X t i ω) := fun n _ ω => pastOf_holds _
  have hz : ∀ n, 0 < n → ∀ ω t, (b t = 0 ∧ z n ω t = 0) ∨ ∃ lw, computeLogwLogz (before (past n ω) t) (fin (b t)) = .ok (lw, fin (z n ω t)) := by
    intro n hn ω t
    fin_cases t
    · exact .inl ⟨rfl, rfl⟩
    · right
      have hh := before_holds (hp n hn ω) 1
      rw [stagesOf_take _ _ _ _ 1 (by norm_num)] at hh
      obtain ⟨lw, ze, h1, h2, -⟩ := logz_estimate one_pos hn l _ _ (fun r i => X (r.castLE (by norm_num)) i ω) _ hh 1
      refine ⟨lw.map fin, h1.trans ?_⟩
      congr 3
      rw [← Real.log_exp ze, h2]
      change _ = Real.log _
      congr 2 <;> funext r <;> rw [Subsingleton.elim r 0] <;> rfl
  exact ⟨π, hπ, l, P, inferInstance, X, past, z, by simp [l], hX, hlaw, hind, hp, hz,
    (C119_consistent two_pos π P l measurable_from_top b (fun _ => hi _) X hX hlaw hind past z hp hz 1 (hi 1)).1⟩

end Poco
