import Mathlib.Probability.Kernel.Composition.IntegralCompProd
import Mathlib.Probability.Kernel.Invariance
import Mathlib.Probability.Independence.Basic
import Mathlib.Probability.Independence.Integration
import Verif.Lemmas.Smc
import Verif.Props.Consistent

/-! C132: the algorithm without the trimming of the weights — resampling from the weighted history, then moves that leave the tempered
posterior invariant — is consistent: with more and more particles the stored evidences, the evidence and the weighted averages converge to the true values. -/

namespace Poco
open F Spec MeasureTheory Filter Topology ProbabilityTheory

section
variable {α : Type*} {T : ℕ}

/-- How far the estimate is from its limit, in terms of the errors of the stored evidences and of the averages. -/
theorem estimate_close (hT : 0 < T) (l : α → ℝ) (b Z : Fin T → ℝ) (hZ : ∀ r, 0 < Z r) (β : ℝ) (f : α → ℝ) (x : Fin T → ℕ → α) (n : ℕ) (hn : 0 < n)
    (z G : Fin T → ℝ) (C : ℝ) (hC : ∀ y, |summand l b Z β f y| ≤ C) :
    |estimate l b β f x n z - (∑ t, G t) / T| ≤
      (∑ r, |Real.exp (z r) / Z r - 1|) * C + ∑ t, |(∑ i : Fin n, summand l b Z β f (x t i)) / n - G t| := by
  have hTr : (0 : ℝ) < T := by exact_mod_cast hT
  have hT1 : (1 : ℝ) ≤ T := by exact_mod_cast hT
  have hnr : (0 : ℝ) < n := by exact_mod_cast hn
  have : Nonempty (Fin T) := ⟨⟨0, hT⟩⟩
  set g := summand l b Z β f with hg
  set δ := ∑ r, |Real.exp (z r) / Z r - 1| with hδ
  have hδ0 : 0 ≤ δ := Finset.sum_nonneg fun _ _ => abs_nonneg _
  have h1 : |estimate l b β f x n z - (∑ t, ∑ i : Fin n, g (x t i)) / (T * n)| ≤ δ * C := by
    unfold estimate
    rw [← sub_div, ← Finset.sum_sub_distrib, abs_div, abs_of_pos (by positivity : (0 : ℝ) < T * n), div_le_iff₀ (by positivity)]
    refine (Finset.abs_sum_le_sum_abs _ _).trans ?_
    have hsum : ∀ t, |(∑ i : Fin n, Real.exp (l (x t i) * β) / ((∑ r, Real.exp (l (x t i) * b r) / Real.exp (z r)) / T) * f (x t i)) -
        ∑ i : Fin n, g (x t i)| ≤ n * (δ * C) := by
      intro t
      rw [← Finset.sum_sub_distrib]
      refine (Finset.abs_sum_le_sum_abs _ _).trans ?_
      have : ∀ i ∈ (Finset.univ : Finset (Fin n)), |Real.exp (l (x t i) * β) / ((∑ r, Real.exp (l (x t i) * b r) / Real.exp (z r)) / T) * f (x t i) -
          g (x t i)| ≤ δ * C := by
        intro i _
        generalize x t i = y
        have hr := mixture_ratio hT (fun r => Real.exp (l y * b r)) Z (fun r => Real.exp (z r)) (fun r => Real.exp_pos _) hZ fun r => Real.exp_pos _
        have p1 : 0 < ∑ r, Real.exp (l y * b r) / Z r := Finset.sum_pos (fun r _ => div_pos (Real.exp_pos _) (hZ r)) Finset.univ_nonempty
        have p2 : 0 < ∑ r, Real.exp (l y * b r) / Real.exp (z r) :=
          Finset.sum_pos (fun r _ => div_pos (Real.exp_pos _) (Real.exp_pos _)) Finset.univ_nonempty
        have e : Real.exp (l y * β) / ((∑ r, Real.exp (l y * b r) / Real.exp (z r)) / T) * f y - g y =
            ((∑ r, Real.exp (l y * b r) / Z r) / (∑ r, Real.exp (l y * b r) / Real.exp (z r)) - 1) * g y := by
          simp only [hg, summand]
          generalize (∑ r, Real.exp (l y * b r) / Z r) = a at *
          generalize (∑ r, Real.exp (l y * b r) / Real.exp (z r)) = c at *
          have := p1.ne'
          have := p2.ne'
          field_simp
        rw [e, abs_mul]
        exact mul_le_mul hr (hC y) (abs_nonneg _) hδ0
      refine (Finset.sum_le_sum this).trans ?_
      simp
    refine (Finset.sum_le_sum fun t _ => hsum t).trans ?_
    simp only [Finset.sum_const, Finset.card_univ, Fintype.card_fin, nsmul_eq_mul]
    apply le_of_eq
    ring
  have h2 : |(∑ t, ∑ i : Fin n, g (x t i)) / (T * n) - (∑ t, G t) / T| ≤ ∑ t, |(∑ i : Fin n, g (x t i)) / n - G t| := by
    have e : (∑ t, ∑ i : Fin n, g (x t i)) / (T * n) - (∑ t, G t) / T = (∑ t, ((∑ i : Fin n, g (x t i)) / n - G t)) / T := by
      rw [Finset.sum_sub_distrib, ← Finset.sum_div]
      field_simp
    rw [e, abs_div, abs_of_pos hTr]
    refine (div_le_self (abs_nonneg _) hT1).trans ?_
    exact Finset.abs_sum_le_sum_abs _ _
  calc _ = |(estimate l b β f x n z - (∑ t, ∑ i : Fin n, g (x t i)) / (T * n)) + ((∑ t, ∑ i : Fin n, g (x t i)) / (T * n) - (∑ t, G t) / T)| := by
        congr 1; ring
    _ ≤ _ := (abs_add_le _ _).trans (add_le_add h1 h2)

end

section
variable {α : Type*} [MeasurableSpace α] {T : ℕ}

theorem summand_tame (hT : 0 < T) (l : α → ℝ) (hl : Tame l) (b Z : Fin T → ℝ) (hZ : ∀ r, 0 < Z r) (β : ℝ) (f : α → ℝ) (hf : Tame f) :
    Tame (summand l b Z β f) := by
  obtain ⟨hlm, M, hM⟩ := hl
  obtain ⟨hfm, F, hF⟩ := hf
  refine ⟨by unfold summand; fun_prop, Real.exp (M * |β|) / (Real.exp (-(M * |b ⟨0, hT⟩|)) / Z ⟨0, hT⟩ / T) * F, fun y => ?_⟩
  have hTr : (0 : ℝ) < T := by exact_mod_cast hT
  have hb : ∀ c, |l y * c| ≤ M * |c| := fun c => by
    rw [abs_mul]
    exact mul_le_mul_of_nonneg_right (hM y) (abs_nonneg _)
  have h1 : Real.exp (-(M * |b ⟨0, hT⟩|)) / Z ⟨0, hT⟩ ≤ ∑ r, Real.exp (l y * b r) / Z r := by
    refine le_trans ?_ (Finset.single_le_sum (f := fun r => Real.exp (l y * b r) / Z r) (fun r _ => (div_pos (Real.exp_pos _) (hZ r)).le)
      (Finset.mem_univ (⟨0, hT⟩ : Fin T)))
    apply div_le_div_of_nonneg_right _ (hZ _).le
    apply Real.exp_le_exp.mpr
    have := (abs_le.mp (hb (b ⟨0, hT⟩))).1
    linarith
  have p0 : 0 < Real.exp (-(M * |b ⟨0, hT⟩|)) / Z ⟨0, hT⟩ := div_pos (Real.exp_pos _) (hZ _)
  unfold summand
  rw [abs_mul, abs_of_pos (div_pos (Real.exp_pos _) (div_pos (p0.trans_le h1) hTr))]
  refine mul_le_mul ?_ (hF y) (abs_nonneg _) (by positivity)
  apply div_le_div₀ (Real.exp_pos _).le
  · exact Real.exp_le_exp.mpr ((le_abs_self _).trans (hb β))
  · exact div_pos p0 hTr
  · exact div_le_div_of_nonneg_right h1 hTr.le

theorem tame_exp_integrable (π : Measure α) [IsProbabilityMeasure π] (l : α → ℝ) (hl : Tame l) (β : ℝ) (f : α → ℝ) (hf : Tame f) :
    Integrable (fun x => f x * Real.exp (l x * β)) π := by
  obtain ⟨hlm, M, hM⟩ := hl
  obtain ⟨hfm, F, hF⟩ := hf
  refine Integrable.of_bound (by fun_prop) (F * Real.exp (M * |β|)) (.of_forall fun y => ?_)
  rw [Real.norm_eq_abs, abs_mul, abs_of_pos (Real.exp_pos _)]
  refine mul_le_mul (hF y) ?_ (Real.exp_pos _).le ((abs_nonneg _).trans (hF y))
  apply Real.exp_le_exp.mpr
  refine (le_abs_self _).trans ?_
  rw [abs_mul]
  exact mul_le_mul_of_nonneg_right (hM y) (abs_nonneg _)

theorem tame_one : Tame (fun _ : α => (1 : ℝ)) := ⟨measurable_const, 1, fun _ => by simp⟩

theorem exp_integrable (π : Measure α) [IsProbabilityMeasure π] (l : α → ℝ) (hl : Tame l) (β : ℝ) : Integrable (fun x => Real.exp (l x * β)) π := by
  simpa using tame_exp_integrable π l hl β (fun _ => 1) tame_one

theorem tempered_integral (π : Measure α) [IsProbabilityMeasure π] (l : α → ℝ) (hl : Tame l) (β : ℝ) (f : α → ℝ) :
    ∫ x, f x ∂(tempered π l β) = (∫ x, f x * Real.exp (l x * β) ∂π) / evidenceAt π l β := by
  have hevp := evidence_pos π l β (exp_integrable π l hl β)
  have hlm := hl.1
  have hlt : ∀ᵐ x ∂π, ENNReal.ofReal (Real.exp (l x * β) / evidenceAt π l β) < ⊤ := .of_forall fun x => ENNReal.ofReal_lt_top
  rw [tempered, integral_withDensity_eq_integral_toReal_smul (by fun_prop) hlt, ← integral_div]
  congr 1
  funext x
  rw [ENNReal.toReal_ofReal (div_pos (Real.exp_pos _) hevp).le, smul_eq_mul]
  ring

theorem invariant_integral (κ : Kernel α α) (μ : Measure α) [IsProbabilityMeasure μ] (h : Kernel.Invariant κ μ) (f : α → ℝ) (hf : Tame f) :
    ∫ x, ∫ y, f y ∂(κ x) ∂μ = ∫ y, f y ∂μ := by
  obtain ⟨hfm, F, hF⟩ := hf
  have hb : μ.bind κ = μ := h
  have e : (κ ∘ₖ Kernel.const Unit μ) () = μ := by rw [Kernel.comp_apply, Kernel.const_apply, hb]
  have hi : Integrable f ((κ ∘ₖ Kernel.const Unit μ) ()) := by
    rw [e]
    exact Integrable.of_bound hfm.aestronglyMeasurable F (.of_forall hF)
  have := Kernel.integral_comp hi
  rw [e, Kernel.const_apply] at this
  exact this.symm

theorem kernel_tame (κ : Kernel α α) [IsMarkovKernel κ] (f : α → ℝ) (hf : Tame f) : Tame fun x => ∫ y, f y ∂(κ x) := by
  obtain ⟨hfm, F, hF⟩ := hf
  refine ⟨(hfm.stronglyMeasurable.integral_kernel (κ := κ)).measurable, F, fun x => ?_⟩
  have := norm_integral_le_of_norm_le_const (μ := κ x) (f := f) (C := F) (.of_forall hF)
  simpa using this

variable {Ω : ℕ → Type*} [∀ n, MeasurableSpace (Ω n)]

/-- If the stored evidences and the averages over every iteration converge, so does the estimate. -/
theorem estimate_inProb (hT : 0 < T) (π : Measure α) [IsProbabilityMeasure π] (P : ∀ n, Measure (Ω n)) (l : α → ℝ) (hl : Tame l) (b : Fin T → ℝ)
    (X : ∀ n, Fin T → ℕ → Ω n → α) (z : ∀ n, Ω n → Fin T → ℝ)
    (hz : ∀ r, InProb P (fun n ω => Real.exp (z n ω r)) (evidenceAt π l (b r)))
    (hA : ∀ t g, Tame g → InProb P (fun n ω => (∑ i : Fin n, g (X n t i ω)) / n) (∫ x, g x ∂(tempered π l (b t))))
    (β : ℝ) (f : α → ℝ) (hf : Tame f) :
    InProb P (fun n ω => estimate l b β f (fun t i => X n t i ω) n (z n ω)) (∫ x, f x * Real.exp (l x * β) ∂π) := by
  have hpos : ∀ t, 0 < evidenceAt π l (b t) := fun t => evidence_pos π l _ (exp_integrable π l hl _)
  obtain ⟨-, -, hgs⟩ := summand_integral hT π l hl.1 b hpos β f hf.1 (tame_exp_integrable π l hl β f hf)
  have hg := summand_tame hT l hl b (fun t => evidenceAt π l (b t)) hpos β f hf
  obtain ⟨-, C, hC⟩ := hg
  rw [← hgs]
  have hC0 : 0 ≤ |C| := abs_nonneg _
  have hS0 : 0 ≤ ∑ r, |C| / evidenceAt π l (b r) := Finset.sum_nonneg fun r _ => div_nonneg hC0 (hpos r).le
  refine inProb_le (ι := Fin T ⊕ Fin T)
    (Y := Sum.elim (fun r n ω => Real.exp (z n ω r))
      fun t n ω => (∑ i : Fin n, summand l b (fun t => evidenceAt π l (b t)) β f (X n t i ω)) / n)
    (c := Sum.elim (fun r => evidenceAt π l (b r)) fun t => ∫ x, summand l b (fun t => evidenceAt π l (b t)) β f x ∂(tempered π l (b t)))
    (fun k => ?_) ((∑ r, |C| / evidenceAt π l (b r)) + 1) ?_
  · rcases k with r | t
    · exact hz r
    · exact hA t _ (summand_tame hT l hl b (fun t => evidenceAt π l (b t)) hpos β f hf)
  · filter_upwards [eventually_gt_atTop 0] with n hn ω
    refine (estimate_close hT l b _ hpos β f (fun t i => X n t i ω) n hn (z n ω)
      (fun t => ∫ x, summand l b (fun t => evidenceAt π l (b t)) β f x ∂(tempered π l (b t))) |C| fun y => (hC y).trans (le_abs_self C)).trans ?_
    rw [Fintype.sum_sum_type, mul_add]
    simp only [Sum.elim_inl, Sum.elim_inr]
    apply add_le_add
    · rw [Finset.sum_mul, Finset.mul_sum]
      apply Finset.sum_le_sum
      intro r _
      have e : |Real.exp (z n ω r) / evidenceAt π l (b r) - 1| * |C| = |C| / evidenceAt π l (b r) * |Real.exp (z n ω r) - evidenceAt π l (b r)| := by
        rw [div_sub_one (hpos r).ne', abs_div, abs_of_pos (hpos r)]
        ring
      rw [e]
      apply mul_le_mul_of_nonneg_right _ (abs_nonneg _)
      have := Finset.single_le_sum (f := fun r => |C| / evidenceAt π l (b r)) (fun r _ => div_nonneg hC0 (hpos r).le) (Finset.mem_univ r)
      linarith
    · apply le_mul_of_one_le_left (Finset.sum_nonneg fun _ _ => abs_nonneg _)
      linarith

theorem earlier_le {Ω : Type*} [mΩ : MeasurableSpace Ω] (n : ℕ) (X : Fin T → ℕ → Ω → α) (hX : ∀ t i, Measurable (X t i)) (t : Fin T) :
    earlier n X t ≤ mΩ :=
  iSup_le fun r => iSup_le fun _ => iSup_le fun i => (hX r i).comap_le

/-- **C132, partial.** What is missing: `_reweight` trims the weights (sampler.py:792, at least 0.99 of the effective size is kept) before the
particles are picked; here they are picked with the untrimmed weights of sampler.py:779-781. A fixed sequence of temperatures `b 0, …, b (T-1)`, the first `W` iterations being draws from the prior. In every other
iteration the log-weights and the evidence at `b t` are computed from the history so far, as the code does; the `n` new particles are, given the
history, independent: a particle of the history is picked with its weight and moved by a Markov kernel that leaves the tempered posterior at
`b t` invariant. As `n` grows, in probability: every stored log-evidence converges to the true one; the average of `f` over the particles of
any iteration converges to the expectation of `f` under its tempered posterior; the evidence computed from the whole history at any
`β` converges to the true one and the weighted average of `f` to the expectation of `f` under the tempered posterior at `β`. -/
theorem C132_consistent_partial {d : ℕ} {B : Type} (hT : 0 < T) (π : Measure α) [IsProbabilityMeasure π] (l : α → ℝ) (hl : Tame l) (b : Fin T → ℝ)
    (W : ℕ) (hW : 0 < W) (K : Fin T → Kernel α α) [∀ t, IsMarkovKernel (K t)] (hK : ∀ t, Kernel.Invariant (K t) (tempered π l (b t)))
    (P : ∀ n, Measure (Ω n)) [∀ n, IsProbabilityMeasure (P n)]
    (X : ∀ n, Fin T → ℕ → Ω n → α) (hX : ∀ n t i, Measurable (X n t i))
    (past : ∀ n, Ω n → Cols d B List) (z : ∀ n, Ω n → Fin T → ℝ)
    (hp : ∀ n, 0 < n → ∀ ω, Holds (past n ω) (stagesOf l b (z n ω) fun t (i : Fin n) => X n t i ω))
    (hwarm : ∀ t : Fin T, t.val < W → b t = 0 ∧ ∀ n, 0 < n → (∀ ω, z n ω t = 0) ∧
      DrawnGiven (P n) (earlier n (X n) t) (fun i : Fin n => X n t i) fun f _ => ∫ x, f x ∂π)
    (hstep : ∀ t : Fin T, W ≤ t.val → ∀ n, 0 < n → ∃ lw : Ω n → List ℝ,
      (∀ ω, computeLogwLogz (before (past n ω) t) (fin (b t)) = .ok ((lw ω).map fin, fin (z n ω t))) ∧
      DrawnGiven (P n) (earlier n (X n) t) (fun i : Fin n => X n t i) fun f ω =>
        (List.zipWith (fun a y => Real.exp a * ∫ y', f y' ∂(K t y)) (lw ω)
          (allParticles fun (r : Fin t.val) (i : Fin n) => X n (r.castLE t.2.le) i ω)).sum)
    (β : ℝ) :
    (∀ t, InProb P (fun n ω => z n ω t) (Real.log (evidenceAt π l (b t)))) ∧
    (∀ t f, Tame f → InProb P (fun n ω => (∑ i : Fin n, f (X n t i ω)) / n) (∫ x, f x ∂(tempered π l (b t)))) ∧
    ∃ (lw : ∀ n, Ω n → List ℝ) (ze : ∀ n, Ω n → ℝ),
      (∀ n, 0 < n → ∀ ω, computeLogwLogz (past n ω) (fin β) = .ok ((lw n ω).map fin, fin (ze n ω))) ∧
      InProb P ze (Real.log (evidenceAt π l β)) ∧
      ∀ f : α → ℝ, Tame f →
        InProb P (fun n ω => (List.zipWith (fun a y => Real.exp a * f y) (lw n ω) (allParticles fun t (i : Fin n) => X n t i ω)).sum)
          (∫ x, f x ∂(tempered π l β)) := by
  have hpos : ∀ β, 0 < evidenceAt π l β := fun β => evidence_pos π l _ (exp_integrable π l hl _)
  have hpr : ∀ β, IsProbabilityMeasure (tempered π l β) := fun β => tempered_prob π l _ (exp_integrable π l hl _) (hpos _)
  have hone : ∀ β, ∫ x, 1 * Real.exp (l x * β) ∂π = evidenceAt π l β := fun β => by simp [evidenceAt]
  have main : ∀ k, ∀ t : Fin T, t.val = k → InProb P (fun n ω => Real.exp (z n ω t)) (evidenceAt π l (b t)) ∧
      ∀ f, Tame f → InProb P (fun n ω => (∑ i : Fin n, f (X n t i ω)) / n) (∫ x, f x ∂(tempered π l (b t))) := by
    intro k
    induction k using Nat.strong_induction_on with
    | _ k ih =>
      intro t htk
      by_cases htW : t.val < W
      · obtain ⟨hb, hw⟩ := hwarm t htW
        constructor
        · refine inProb_const ?_
          filter_upwards [eventually_gt_atTop 0] with n hn ω
          rw [(hw n hn).1, hb]
          simp [evidenceAt]
        · intro f hf
          refine drawn_inProb (fun n => earlier n (X n) t) P (fun n => earlier_le n (X n) (hX n) t) (fun n i => X n t i) (fun n i => hX n t i)
            (fun n f _ => ∫ x, f x ∂π) (fun n hn => (hw n hn).2) f hf _ (inProb_const (.of_forall fun n ω => ?_))
          rw [tempered_integral π l hl, hb]
          simp [evidenceAt]
      · have htW := not_lt.mp htW
        have ht0 : 0 < t.val := hW.trans_le htW
        have hst := hstep t htW
        have hex : ∀ n, ∃ lw : Ω n → List ℝ, 0 < n →
          (∀ ω, computeLogwLogz (before (past n ω) t) (fin (b t)) = .ok ((lw ω).map fin, fin (z n ω t))) ∧
          DrawnGiven (P n) (earlier n (X n) t) (fun i : Fin n => X n t i) fun f ω =>
            (List.zipWith (fun a y => Real.exp a * ∫ y', f y' ∂(K t y)) (lw ω)
              (allParticles fun (r : Fin t.val) (i : Fin n) => X n (r.castLE t.2.le) i ω)).sum := by
          intro n
          by_cases hn : 0 < n
          · obtain ⟨lw, h⟩ := hst n hn
            exact ⟨lw, fun _ => h⟩
          · exact ⟨fun _ => [], fun h => absurd h hn⟩
        choose lw hlw using hex
        -- the code's numbers are the estimates
        have hest : ∀ n, 0 < n → ∀ ω, Real.exp (z n ω t) = estimate l (fun r : Fin t.val => b (r.castLE t.2.le)) (b t) (fun _ => 1)
              (fun r i => X n (r.castLE t.2.le) i ω) n (fun r => z n ω (r.castLE t.2.le)) ∧
            ∀ f : α → ℝ, Real.exp (z n ω t) * (List.zipWith (fun a y => Real.exp a * f y) (lw n ω)
              (allParticles fun (r : Fin t.val) (i : Fin n) => X n (r.castLE t.2.le) i ω)).sum =
              estimate l (fun r : Fin t.val => b (r.castLE t.2.le)) (b t) f (fun r i => X n (r.castLE t.2.le) i ω) n
                (fun r => z n ω (r.castLE t.2.le)) := by
          intro n hn ω
          have hh := before_holds (hp n hn ω) t
          rw [stagesOf_take _ _ _ _ _ t.2.le] at hh
          obtain ⟨lw', ze, h1, h2, h3⟩ := logz_estimate ht0 hn l _ _ (fun r i => X n (r.castLE t.2.le) i ω) _ hh (b t)
          rw [(hlw n hn).1 ω] at h1
          simp only [Except.ok.injEq, Prod.mk.injEq, fin_inj] at h1
          have hinj : Function.Injective (fin : ℝ → F) := fun _ _ h => fin_inj.mp h
          have e1 := List.map_injective_iff.mpr hinj h1.1
          rw [e1, h1.2]
          exact ⟨h2, h3⟩
        have hE : ∀ f, Tame f → InProb P (fun n ω => estimate l (fun r : Fin t.val => b (r.castLE t.2.le)) (b t) f
            (fun r i => X n (r.castLE t.2.le) i ω) n (fun r => z n ω (r.castLE t.2.le))) (∫ x, f x * Real.exp (l x * b t) ∂π) := fun f hf =>
          estimate_inProb ht0 π P l hl (fun r : Fin t.val => b (r.castLE t.2.le)) (fun n r => X n (r.castLE t.2.le))
            (fun n ω r => z n ω (r.castLE t.2.le)) (fun r => (ih r.val (by rw [← htk]; exact r.2) _ rfl).1)
            (fun r => (ih r.val (by rw [← htk]; exact r.2) _ rfl).2) (b t) f hf
        have hZ : InProb P (fun n ω => Real.exp (z n ω t)) (evidenceAt π l (b t)) := by
          have := hE _ tame_one
          rw [hone] at this
          refine inProb_congr this ?_
          filter_upwards [eventually_gt_atTop 0] with n hn ω
          exact (hest n hn ω).1
        refine ⟨hZ, fun f hf => ?_⟩
        refine drawn_inProb (fun n => earlier n (X n) t) P (fun n => earlier_le n (X n) (hX n) t) (fun n i => X n t i) (fun n i => hX n t i)
          (fun n f ω => (List.zipWith (fun a y => Real.exp a * ∫ y', f y' ∂(K t y)) (lw n ω)
              (allParticles fun (r : Fin t.val) (i : Fin n) => X n (r.castLE t.2.le) i ω)).sum) (fun n hn => (hlw n hn).2) f hf _ ?_
        rw [← invariant_integral (K t) _ (hK t) f hf, tempered_integral π l hl]
        refine inProb_div (hE _ (kernel_tame (K t) f hf)) hZ (hpos _).ne' ?_
        filter_upwards [eventually_gt_atTop 0] with n hn ω
        rw [← (hest n hn ω).2, mul_div_cancel_left₀ _ (Real.exp_pos _).ne']
  have hlog : ∀ β, ContinuousAt Real.log (evidenceAt π l β) := fun β => Real.continuousAt_log (hpos β).ne'
  refine ⟨fun t => inProb_comp (main _ t rfl).1 Real.log (hlog _) (.of_forall fun n ω => (Real.log_exp _).symm), fun t f hf => (main _ t rfl).2 f hf, ?_⟩
  have hex : ∀ (n : ℕ) (ω : Ω n), ∃ (lw : List ℝ) (ze : ℝ), 0 < n → computeLogwLogz (past n ω) (fin β) = .ok (lw.map fin, fin ze) ∧
      Real.exp ze = estimate l b β (fun _ => 1) (fun t i => X n t i ω) n (z n ω) ∧
      ∀ f : α → ℝ, Real.exp ze * (List.zipWith (fun a y => Real.exp a * f y) lw (allParticles fun t (i : Fin n) => X n t i ω)).sum =
        estimate l b β f (fun t i => X n t i ω) n (z n ω) := by
    intro n ω
    by_cases hn : 0 < n
    · obtain ⟨lw, ze, h⟩ := logz_estimate hT hn l b (z n ω) (fun t i => X n t i ω) (past n ω) (hp n hn ω) β
      exact ⟨lw, ze, fun _ => h⟩
    · exact ⟨[], 0, fun h => absurd h hn⟩
  choose lw ze hall using hex
  have hE : ∀ f, Tame f → InProb P (fun n ω => estimate l b β f (fun t i => X n t i ω) n (z n ω)) (∫ x, f x * Real.exp (l x * β) ∂π) := fun f hf =>
    estimate_inProb hT π P l hl b X z (fun r => (main _ r rfl).1) (fun r => (main _ r rfl).2) β f hf
  have hZ : InProb P (fun n ω => Real.exp (ze n ω)) (evidenceAt π l β) := by
    have := hE _ tame_one
    rw [hone] at this
    refine inProb_congr this ?_
    filter_upwards [eventually_gt_atTop 0] with n hn ω
    exact (hall n ω hn).2.1
  refine ⟨lw, ze, fun n hn ω => (hall n ω hn).1, inProb_comp hZ Real.log (hlog _) (.of_forall fun n ω => (Real.log_exp _).symm), fun f hf => ?_⟩
  rw [tempered_integral π l hl]
  refine inProb_div (hE f hf) hZ (hpos _).ne' ?_
  filter_upwards [eventually_gt_atTop 0] with n hn ω
  rw [← (hall n ω hn).2.2 f, mul_div_cancel_left₀ _ (Real.exp_pos _).ne']

end

section
variable {A α : Type*} [MeasurableSpace A] [MeasurableSpace α]

/-- Drawing every particle independently from `q a`, where `a` is the past. -/
theorem drawn_pi {n : ℕ} (μ : Measure A) [IsProbabilityMeasure μ] (q : A → Measure α) [∀ a, IsProbabilityMeasure (q a)]
    (κ : Kernel A (Fin n → α)) [IsMarkovKernel κ] (hκ : ∀ a, κ a = Measure.pi fun _ => q a)
    (hq : ∀ f : α → ℝ, Tame f → Measurable fun a => ∫ y, f y ∂(q a)) :
    DrawnGiven (μ ⊗ₘ κ) (MeasurableSpace.comap Prod.fst inferInstance) (fun i ω => ω.2 i) fun f ω => ∫ y, f y ∂(q ω.1) := by
  -- the conditional expectation is the integral over the kernel
  have key : ∀ (h : (Fin n → α) → ℝ) (r : A → ℝ) (C : ℝ), Measurable h → (∀ y, |h y| ≤ C) → Measurable r → (∀ a, r a = ∫ y, h y ∂(κ a)) →
      (μ ⊗ₘ κ)[fun ω => h ω.2 | MeasurableSpace.comap Prod.fst inferInstance] =ᵐ[μ ⊗ₘ κ] fun ω => r ω.1 := by
    intro h r C hm hC hr he
    have hle : MeasurableSpace.comap (Prod.fst : A × (Fin n → α) → A) inferInstance ≤ (inferInstance : MeasurableSpace (A × (Fin n → α))) := measurable_fst.comap_le
    have hint : Integrable (fun ω : A × (Fin n → α) => h ω.2) (μ ⊗ₘ κ) :=
      Integrable.of_bound (hm.comp measurable_snd).aestronglyMeasurable C (.of_forall fun ω => hC _)
    have hrb : ∀ a, |r a| ≤ C := by
      intro a
      rw [he]
      have := norm_integral_le_of_norm_le_const (μ := κ a) (f := h) (C := C) (.of_forall hC)
      simpa using this
    have hri : Integrable (fun ω : A × (Fin n → α) => r ω.1) (μ ⊗ₘ κ) :=
      Integrable.of_bound (hr.comp measurable_fst).aestronglyMeasurable C (.of_forall fun ω => hrb _)
    refine (ae_eq_condExp_of_forall_setIntegral_eq hle hint (fun s _ _ => hri.integrableOn) (fun s hs _ => ?_) ?_).symm
    · obtain ⟨S, hS, rfl⟩ := hs
      have e : Prod.fst ⁻¹' S = S ×ˢ (Set.univ : Set (Fin n → α)) := by ext; simp
      rw [e, Measure.setIntegral_compProd hS MeasurableSet.univ hri.integrableOn, Measure.setIntegral_compProd hS MeasurableSet.univ hint.integrableOn]
      simp only [Measure.restrict_univ, integral_const, probReal_univ, one_smul, he]
    · exact (hr.comp (comap_measurable Prod.fst)).stronglyMeasurable.aestronglyMeasurable
  intro f g hf hg
  have e1 : ∀ h : α → ℝ, Tame h → ∀ i a, ∫ y, h y ∂(q a) = ∫ y : Fin n → α, h (y i) ∂(κ a) := by
    intro h hh i a
    rw [hκ]
    have := (measurePreserving_eval (fun _ : Fin n => q a) i).map_eq
    conv_lhs => rw [← this]
    rw [integral_map (measurable_pi_apply i).aemeasurable hh.1.aestronglyMeasurable]
  obtain ⟨F, hF⟩ := hf.2
  obtain ⟨G, hG⟩ := hg.2
  refine ⟨fun i => key (fun y => f (y i)) _ F (hf.1.comp (measurable_pi_apply i)) (fun y => hF _) (hq f hf) fun a => e1 f hf i a, fun i j hij => ?_⟩
  refine key (fun y => f (y i) * g (y j)) (fun a => (∫ y, f y ∂(q a)) * ∫ y, g y ∂(q a)) (F * G)
    ((hf.1.comp (measurable_pi_apply i)).mul (hg.1.comp (measurable_pi_apply j))) (fun y => ?_) ((hq f hf).mul (hq g hg)) fun a => ?_
  · rw [abs_mul]
    exact mul_le_mul (hF _) (hG _) (abs_nonneg _) ((abs_nonneg _).trans (hF (y i)))
  · rw [e1 f hf i a, e1 g hg j a, hκ]
    have hI := iIndepFun_pi (μ := fun _ : Fin n => q a) (X := fun _ y => y) fun _ => measurable_id.aemeasurable
    have hI2 := (hI.indepFun hij).comp hf.1 hg.1
    have := hI2.integral_fun_mul_eq_mul_integral (hf.1.comp (measurable_pi_apply i)).aestronglyMeasurable
      (hg.1.comp (measurable_pi_apply j)).aestronglyMeasurable
    exact this.symm

end

/-- Pick a particle with its weight, then move it. -/
noncomputable def pickMove {α : Type*} [MeasurableSpace α] (K : Kernel α α) (w : List ℝ) (c : List α) : Measure α :=
  (List.zipWith (fun a y => ENNReal.ofReal (Real.exp a) • K y) w c).sum

theorem pickMove_integral {α : Type*} [MeasurableSpace α] (K : Kernel α α) [IsMarkovKernel K] (w : List ℝ) (c : List α) (f : α → ℝ) (hf : Tame f) :
    IsFiniteMeasure (pickMove K w c) ∧ ∫ y, f y ∂(pickMove K w c) = (List.zipWith (fun a y => Real.exp a * ∫ y', f y' ∂(K y)) w c).sum := by
  obtain ⟨hfm, F, hF⟩ := hf
  induction w generalizing c with
  | nil => simp only [pickMove, List.zipWith_nil_left, List.sum_nil, integral_zero_measure, and_true]; infer_instance
  | cons a w ih =>
    cases c with
    | nil => simp only [pickMove, List.zipWith_nil_right, List.sum_nil, integral_zero_measure, and_true]; infer_instance
    | cons y c =>
      obtain ⟨h1, h2⟩ := ih c
      have hs : IsFiniteMeasure (ENNReal.ofReal (Real.exp a) • K y) := Measure.smul_finite _ ENNReal.ofReal_ne_top
      have e : pickMove K (a :: w) (y :: c) = ENNReal.ofReal (Real.exp a) • K y + pickMove K w c := by simp [pickMove]
      rw [e]
      refine ⟨inferInstance, ?_⟩
      have hi : ∀ ν : Measure α, IsFiniteMeasure ν → Integrable f ν := fun ν _ => Integrable.of_bound hfm.aestronglyMeasurable F (.of_forall hF)
      rw [integral_add_measure (hi _ hs) (hi _ h1), h2, integral_smul_measure, ENNReal.toReal_ofReal (Real.exp_pos _).le]
      simp

theorem pickMove_prob {α : Type*} [MeasurableSpace α] (K : Kernel α α) [IsMarkovKernel K] (w : List ℝ) (c : List α) (hl : w.length = c.length)
    (hs : (w.map Real.exp).sum = 1) : IsProbabilityMeasure (pickMove K w c) := by
  obtain ⟨h1, h2⟩ := pickMove_integral K w c (fun _ => 1) tame_one
  simp only [integral_const, probReal_univ, smul_eq_mul, mul_one] at h2
  have e := zipWith_one w c hl
  simp only [mul_one] at e
  rw [e, hs] at h2
  constructor
  have := measureReal_def (pickMove K w c) Set.univ
  rw [h2] at this
  rw [← ENNReal.toReal_eq_one_iff]
  exact this.symm

theorem holds_same {d : ℕ} {B : Type} {p q : Cols d B List} {h : List Stage} (hp : Holds p h) (hq : Holds q h) (β : F) :
    computeLogwLogz p β = computeLogwLogz q β := by
  obtain ⟨a1, a2, a3⟩ := hp
  obtain ⟨b1, b2, b3⟩ := hq
  unfold computeLogwLogz
  rw [a1, a2, a3, b1, b2, b3]

/-- Stay with probability one half, otherwise draw from `μ`. -/
noncomputable def lazy (μ : Measure (Fin 2)) : Kernel (Fin 2) (Fin 2) :=
  Kernel.ofFunOfCountable fun x => (2⁻¹ : ENNReal) • (Measure.dirac x + μ)

theorem lazy_markov (μ : Measure (Fin 2)) [IsProbabilityMeasure μ] : IsMarkovKernel (lazy μ) := by
  refine ⟨fun x => ⟨?_⟩⟩
  change ((2⁻¹ : ENNReal) • (Measure.dirac x + μ)) Set.univ = 1
  simp only [Measure.smul_apply, Measure.add_apply, measure_univ, smul_eq_mul]
  rw [one_add_one_eq_two, ENNReal.inv_mul_cancel two_ne_zero ENNReal.ofNat_ne_top]

theorem lazy_invariant (μ : Measure (Fin 2)) [IsProbabilityMeasure μ] : Kernel.Invariant (lazy μ) μ := by
  refine Measure.ext fun s hs => ?_
  rw [Measure.bind_apply hs (Kernel.aemeasurable _)]
  change ∫⁻ x, ((2⁻¹ : ENNReal) • (Measure.dirac x + μ)) s ∂μ = μ s
  simp only [Measure.smul_apply, Measure.add_apply, smul_eq_mul, Measure.dirac_apply' _ hs]
  rw [lintegral_const_mul _ (by fun_prop), lintegral_add_right _ measurable_const, lintegral_indicator_one hs, lintegral_const, measure_univ, mul_one,
    ← two_mul, ← mul_assoc, ENNReal.inv_mul_cancel two_ne_zero ENNReal.ofNat_ne_top, one_mul]

/-- The hypotheses of C132 are met: a prior on two points, a log-likelihood that tells them apart, temperatures 0 and 1; the second iteration picks
particles of the first with the weights of the code and moves them by a kernel that remembers where it started. -/
example : ∃ (π : Measure (Fin 2)) (_ : IsProbabilityMeasure π) (l : Fin 2 → ℝ) (K : Fin 2 → Kernel (Fin 2) (Fin 2)) (_ : ∀ t, IsMarkovKernel (K t))
    (P : ∀ n, Measure ((Fin n → Fin 2) × (Fin n → Fin 2))) (_ : ∀ n, IsProbabilityMeasure (P n))
    (X : ∀ n, Fin 2 → ℕ → ((Fin n → Fin 2) × (Fin n → Fin 2)) → Fin 2)
    (past : ∀ n, ((Fin n → Fin 2) × (Fin n → Fin 2)) → Cols 1 Unit List) (z : ∀ n, ((Fin n → Fin 2) × (Fin n → Fin 2)) → Fin 2 → ℝ),
    l 0 ≠ l 1 ∧ Tame l ∧ K 1 0 ≠ K 1 1 ∧
    (∀ t, Kernel.Invariant (K t) (tempered π l ((![0, 1] : Fin 2 → ℝ) t))) ∧ (∀ n t i, Measurable (X n t i)) ∧
    (∀ n, 0 < n → ∀ ω, Holds (past n ω) (stagesOf l ![0, 1] (z n ω) fun t (i : Fin n) => X n t i ω)) ∧
    (∀ t : Fin 2, t.val < 1 → (![0, 1] : Fin 2 → ℝ) t = 0 ∧ ∀ n, 0 < n → (∀ ω, z n ω t = 0) ∧
      DrawnGiven (P n) (earlier n (X n) t) (fun i : Fin n => X n t i) fun f _ => ∫ x, f x ∂π) ∧
    (∀ t : Fin 2, 1 ≤ t.val → ∀ n, 0 < n → ∃ lw : ((Fin n → Fin 2) × (Fin n → Fin 2)) → List ℝ,
      (∀ ω, computeLogwLogz (before (past n ω) t) (fin ((![0, 1] : Fin 2 → ℝ) t)) = .ok ((lw ω).map fin, fin (z n ω t))) ∧
      DrawnGiven (P n) (earlier n (X n) t) (fun i : Fin n => X n t i) fun f ω =>
        (List.zipWith (fun a y => Real.exp a * ∫ y', f y' ∂(K t y)) (lw ω)
          (allParticles fun (r : Fin t.val) (i : Fin n) => X n (r.castLE t.2.le) i ω)).sum) ∧
    ∀ t, InProb P (fun n ω => z n ω t) (Real.log (evidenceAt π l ((![0, 1] : Fin 2 → ℝ) t))) := by
  let l : Fin 2 → ℝ := ![0, 1]
  let b : Fin 2 → ℝ := ![0, 1]
  have hl : Tame l := ⟨measurable_from_top, 1, fun x => by fin_cases x <;> simp [l]⟩
  have hc : 0 < evidenceAt (Measure.count : Measure (Fin 2)) l 0 := by
    rw [evidenceAt, integral_countable' Integrable.of_finite]
    simp only [tsum_fintype, Measure.real, Measure.count_singleton]
    simp
  let π : Measure (Fin 2) := tempered Measure.count l 0
  have hπ : IsProbabilityMeasure π := tempered_prob _ l _ Integrable.of_finite hc
  have hpr : ∀ β, IsProbabilityMeasure (tempered π l β) := fun β =>
    tempered_prob π l _ (exp_integrable π l hl _) (evidence_pos π l _ (exp_integrable π l hl _))
  let K : Fin 2 → Kernel (Fin 2) (Fin 2) := fun t => lazy (tempered π l (b t))
  have hKm : ∀ t, IsMarkovKernel (K t) := fun t => lazy_markov _
  have hK : ∀ t, Kernel.Invariant (K t) (tempered π l (b t)) := fun t => lazy_invariant _
  have hK01 : K 1 0 ≠ K 1 1 := by
    intro h
    have h0 := congrArg (fun μ : Measure (Fin 2) => μ {0}) h
    have e : ∀ x, K 1 x {0} = 2⁻¹ * (Measure.dirac x {0} + tempered π l (b 1) {0}) := fun x => rfl
    simp only [e] at h0
    rw [ENNReal.mul_right_inj (by simp) (by simp), ENNReal.add_left_inj (measure_ne_top _ _)] at h0
    simp at h0
  -- weights computed from the first iteration
  have hex : ∀ (n : ℕ) (x : Fin n → Fin 2), ∃ (lw : List ℝ) (ze : ℝ), 0 < n →
      computeLogwLogz (pastOf (stagesOf l (fun _ : Fin 1 => (0 : ℝ)) (fun _ => 0) fun _ => x) : Cols 1 Unit List) (fin 1) = .ok (lw.map fin, fin ze) ∧
      (lw.map Real.exp).sum = 1 ∧ lw.length = (allParticles fun _ : Fin 1 => x).length := by
    intro n x
    by_cases hn : 0 < n
    · obtain ⟨lw, ze, h1, h2, h3, -⟩ := weighted_average l (fun _ : Fin 1 => (0 : ℝ)) (fun _ => 0) (fun _ => x) one_pos hn
        (pastOf (stagesOf l (fun _ : Fin 1 => (0 : ℝ)) (fun _ => 0) fun _ => x) : Cols 1 Unit List) (pastOf_holds _) 1
      exact ⟨lw, ze, fun _ => ⟨h1, h2, h3⟩⟩
    · exact ⟨[], 0, fun h => absurd h hn⟩
  choose lw ze hlw using hex
  let q : ∀ n, (Fin n → Fin 2) → Measure (Fin 2) := fun n x => if 0 < n then pickMove (K 1) (lw n x) (allParticles fun _ : Fin 1 => x) else π
  have hq : ∀ n x, IsProbabilityMeasure (q n x) := by
    intro n x
    simp only [q]
    split_ifs with h
    · exact pickMove_prob _ _ _ (hlw n x h).2.2 (hlw n x h).2.1
    · exact hπ
  let κ : ∀ n, Kernel (Fin n → Fin 2) (Fin n → Fin 2) := fun n => Kernel.ofFunOfCountable fun x => Measure.pi fun _ => q n x
  have hκ : ∀ n, IsMarkovKernel (κ n) := fun n => ⟨fun x => by
    change IsProbabilityMeasure (Measure.pi fun _ => q n x)
    infer_instance⟩
  let μ : ∀ n, Measure (Fin n → Fin 2) := fun n => Measure.pi fun _ => π
  let P : ∀ n, Measure ((Fin n → Fin 2) × (Fin n → Fin 2)) := fun n => μ n ⊗ₘ κ n
  let X : ∀ n, Fin 2 → ℕ → ((Fin n → Fin 2) × (Fin n → Fin 2)) → Fin 2 := fun n t i ω =>
    if h : i < n then (if t = 0 then ω.1 else ω.2) ⟨i, h⟩ else 0
  let z : ∀ n, ((Fin n → Fin 2) × (Fin n → Fin 2)) → Fin 2 → ℝ := fun n ω => ![0, ze n ω.1]
  let past : ∀ n, ((Fin n → Fin 2) × (Fin n → Fin 2)) → Cols 1 Unit List := fun n ω =>
    pastOf (stagesOf l b (z n ω) fun t (i : Fin n) => X n t i ω)
  have hX0 : ∀ n (i : Fin n), X n 0 i = fun ω => ω.1 i := by
    intro n i
    funext ω
    simp [X]
  have hX1 : ∀ n (i : Fin n), X n 1 i = fun ω => ω.2 i := by
    intro n i
    funext ω
    simp [X]
  have hX : ∀ n t i, Measurable (X n t i) := fun n t i => measurable_of_countable _
  have hp : ∀ n, 0 < n → ∀ ω, Holds (past n ω) (stagesOf l b (z n ω) fun t (i : Fin n) => X n t i ω) := fun n _ ω => pastOf_holds _
  have hwarm : ∀ t : Fin 2, t.val < 1 → b t = 0 ∧ ∀ n, 0 < n → (∀ ω, z n ω t = 0) ∧
      DrawnGiven (P n) (earlier n (X n) t) (fun i : Fin n => X n t i) fun f _ => ∫ x, f x ∂π := by
    intro t ht
    have ht0 : t = 0 := Fin.ext (by simpa using ht)
    subst ht0
    refine ⟨rfl, fun n hn => ⟨fun ω => rfl, ?_⟩⟩
    have eb : earlier n (X n) 0 = ⊥ := by simp [earlier]
    rw [eb]
    simp only [hX0]
    have hfst : ∀ h : (Fin n → Fin 2) → ℝ, ∫ ω, h ω.1 ∂(P n) = ∫ x, h x ∂(μ n) := by
      intro h
      rw [← Measure.fst_compProd (μ n) (κ n), Measure.fst, integral_map measurable_fst.aemeasurable (measurable_of_countable h).aestronglyMeasurable]
    have e1 : ∀ h : Fin 2 → ℝ, ∀ i, ∫ x : Fin n → Fin 2, h (x i) ∂(μ n) = ∫ y, h y ∂π := by
      intro h i
      have := (measurePreserving_eval (fun _ : Fin n => π) i).map_eq
      conv_rhs => rw [← this]
      rw [integral_map (measurable_pi_apply i).aemeasurable (measurable_of_countable h).aestronglyMeasurable]
    intro f g hf hg
    refine ⟨fun i => ?_, fun i j hij => ?_⟩
    · rw [condExp_bot, hfst fun x => f (x i), e1]
    · rw [condExp_bot, hfst fun x => f (x i) * g (x j)]
      have hI := iIndepFun_pi (μ := fun _ : Fin n => π) (X := fun _ y => y) fun _ => measurable_id.aemeasurable
      have hI2 := (hI.indepFun hij).comp hf.1 hg.1
      have := hI2.integral_fun_mul_eq_mul_integral (hf.1.comp (measurable_pi_apply i)).aestronglyMeasurable
        (hg.1.comp (measurable_pi_apply j)).aestronglyMeasurable
      have e2 : ∫ x : Fin n → Fin 2, f (x i) * g (x j) ∂(μ n) = (∫ x, f x ∂π) * ∫ x, g x ∂π := by
        rw [← e1 f i, ← e1 g j]
        exact this
      rw [e2]
  have hstep : ∀ t : Fin 2, 1 ≤ t.val → ∀ n, 0 < n → ∃ lw : ((Fin n → Fin 2) × (Fin n → Fin 2)) → List ℝ,
      (∀ ω, computeLogwLogz (before (past n ω) t) (fin (b t)) = .ok ((lw ω).map fin, fin (z n ω t))) ∧
      DrawnGiven (P n) (earlier n (X n) t) (fun i : Fin n => X n t i) fun f ω =>
        (List.zipWith (fun a y => Real.exp a * ∫ y', f y' ∂(K t y)) (lw ω)
          (allParticles fun (r : Fin t.val) (i : Fin n) => X n (r.castLE t.2.le) i ω)).sum := by
    intro t ht n hn
    have ht1 : t = 1 := Fin.ext (by have := t.2; change t.val = 1; omega)
    subst ht1
    refine ⟨fun ω => lw n ω.1, fun ω => ?_, ?_⟩
    · have hh := before_holds (hp n hn ω) 1
      rw [stagesOf_take _ _ _ _ 1 (by norm_num)] at hh
      have e : stagesOf l (fun r : Fin 1 => b (r.castLE (by norm_num))) (fun r => z n ω (r.castLE (by norm_num)))
          (fun r (i : Fin n) => X n (r.castLE (by norm_num)) i ω) = stagesOf l (fun _ : Fin 1 => (0 : ℝ)) (fun _ => 0) fun _ => ω.1 := by
        congr 1
        · funext r; rw [Subsingleton.elim r 0]; rfl
        · funext r; rw [Subsingleton.elim r 0]; rfl
        · funext r i; rw [Subsingleton.elim r 0]; exact congrFun (hX0 n i) ω
      rw [e] at hh
      exact (holds_same hh (pastOf_holds _) _).trans (hlw n ω.1 hn).1
    · have ee : earlier n (X n) 1 = MeasurableSpace.comap Prod.fst inferInstance := by
        have : earlier n (X n) 1 = ⨆ i : Fin n, MeasurableSpace.comap (X n 0 i) inferInstance := by
          unfold earlier
          apply le_antisymm
          · refine iSup_le fun r => iSup_le fun hr => ?_
            have : r = 0 := by fin_cases r <;> simp_all
            rw [this]
          · exact le_iSup_of_le 0 (le_iSup_of_le (by decide) le_rfl)
        rw [this]
        simp only [hX0]
        change _ = MeasurableSpace.comap Prod.fst (⨆ i : Fin n, MeasurableSpace.comap (fun x : Fin n → Fin 2 => x i) inferInstance)
        rw [MeasurableSpace.comap_iSup]
        simp only [MeasurableSpace.comap_comp]
        rfl
      rw [ee]
      simp only [hX1]
      have hd := drawn_pi (μ n) (q n) (κ n) (fun a => rfl) fun f _ => measurable_of_countable _
      intro f g hf hg
      have em : ∀ f, Tame f → ∀ ω : (Fin n → Fin 2) × (Fin n → Fin 2), (List.zipWith (fun a y => Real.exp a * ∫ y', f y' ∂(K 1 y)) (lw n ω.1)
          (allParticles fun (r : Fin 1) (i : Fin n) => X n (r.castLE (by norm_num)) i ω)).sum = ∫ y, f y ∂(q n ω.1) := by
        intro f hf ω
        have e : (fun (r : Fin 1) (i : Fin n) => X n (r.castLE (by norm_num : 1 ≤ 2)) i ω) = fun _ => ω.1 := by
          funext r i; rw [Subsingleton.elim r 0]; exact congrFun (hX0 n i) ω
        rw [e]
        simp only [q, if_pos hn]
        exact (pickMove_integral (K 1) (lw n ω.1) (allParticles fun _ : Fin 1 => ω.1) f hf).2.symm
      obtain ⟨d1, d2⟩ := hd f g hf hg
      refine ⟨fun i => (d1 i).trans (.of_forall fun ω => (em f hf ω).symm), fun i j hij => (d2 i j hij).trans (.of_forall fun ω => ?_)⟩
      change (∫ y, f y ∂(q n ω.1)) * (∫ y, g y ∂(q n ω.1)) = _
      rw [← em f hf ω, ← em g hg ω]
      rfl
  exact ⟨π, hπ, l, K, hKm, P, fun n => inferInstance, X, past, z, by simp [l], hl, hK01, hK, hX, hp, hwarm, hstep,
    (C132_consistent_partial two_pos π l hl b 1 one_pos K hK P X hX past z hp hwarm hstep 1).1⟩

end Poco
