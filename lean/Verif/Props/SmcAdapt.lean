import Verif.Lemmas.SmcAdapt

/-! C133: the whole algorithm with its own choice of temperatures, adapted moves and trimmed weights. -/

namespace Poco
open F Spec MeasureTheory Filter Topology ProbabilityTheory

theorem pileUp_succ (M : ℝ) (k : ℕ) : pileUp M (k + 1) = pileUp M k + (1 + 3 * Real.exp (4 * M) * pileUp M k) := by
  unfold pileUp
  rw [Finset.sum_range_succ]
  have := geom_sum_mul (1 + 3 * Real.exp (4 * M)) k
  linarith

theorem pileUp_zero (M : ℝ) : pileUp M 0 = 0 := by simp [pileUp]

theorem pileUp_nonneg (M : ℝ) (k : ℕ) : 0 ≤ pileUp M k := Finset.sum_nonneg fun j _ => by positivity

/-- Errors of evidence and averages of the iterations before, added up. -/
theorem pileUp_sum (M η : ℝ) (W t : ℕ) : ∑ r : Fin t, ((if r.val < W then 0 else η * Real.exp (4 * M) * pileUp M (r.val - W)) +
    (if r.val < W then 0 else η * (1 + 2 * Real.exp (4 * M) * pileUp M (r.val - W)))) = η * pileUp M (t - W) := by
  rw [Fin.sum_univ_eq_sum_range (fun r => (if r < W then 0 else η * Real.exp (4 * M) * pileUp M (r - W)) +
    (if r < W then 0 else η * (1 + 2 * Real.exp (4 * M) * pileUp M (r - W)))) t]
  induction t with
  | zero => simp [pileUp_zero]
  | succ t ih =>
    rw [Finset.sum_range_succ, ih]
    by_cases h : t < W
    · rw [if_pos h, if_pos h, show t + 1 - W = 0 by omega, show t - W = 0 by omega]
      ring
    · rw [if_neg h, if_neg h, show t + 1 - W = (t - W) + 1 by omega, pileUp_succ]
      ring

/-- Where the recorded evidence comes from: either temperature and evidence of the last iteration are kept, or the evidence is computed. -/
theorem chooseBeta_cases {d : ℕ} {B : Type} {past : Cols d (List B) List} {m : Metric} {nEff : F} {fuel : ℕ} {β z ess : F}
    (h : chooseBeta past m nEff fuel = .ok (β, z, ess)) :
    (getAt past.beta (-1) = .ok β ∧ getAt past.logz (-1) = .ok z) ∨ ∃ lw, computeLogwLogz past β = .ok (lw, z) := by
  simp only [chooseBeta] at h
  obtain ⟨bp, h1, h⟩ := bind_ok h
  obtain ⟨ep, h2, h⟩ := bind_ok h
  obtain ⟨em, h3, h⟩ := bind_ok h
  split_ifs at h
  · obtain ⟨z', h4, h⟩ := bind_ok h
    simp only [pure, Except.pure, Except.ok.injEq, Prod.mk.injEq] at h
    obtain ⟨rfl, rfl, -⟩ := h
    exact .inl ⟨h1, h4⟩
  · obtain ⟨⟨lw, z'⟩, h4, h⟩ := bind_ok h
    simp only [pure, Except.pure, Except.ok.injEq, Prod.mk.injEq] at h
    obtain ⟨rfl, rfl, -⟩ := h
    exact .inr ⟨lw, h4⟩
  · obtain ⟨⟨b2, e2⟩, h5, h⟩ := bind_ok h
    obtain ⟨⟨lw, z'⟩, h4, h⟩ := bind_ok h
    simp only [pure, Except.pure, Except.ok.injEq, Prod.mk.injEq] at h
    obtain ⟨rfl, rfl, -⟩ := h
    exact .inr ⟨lw, h4⟩

theorem before_last {α : Type*} {d T n : ℕ} {B : Type} {l : α → ℝ} {b z : Fin T → ℝ} {x : Fin T → Fin n → α} {past : Cols d B List}
    (hp : Holds past (stagesOf l b z x)) (t : ℕ) (ht : t + 1 ≤ T) :
    (before past (t + 1)).beta.getLast? = some (fin (b ⟨t, ht⟩)) ∧ (before past (t + 1)).logz.getLast? = some (fin (z ⟨t, ht⟩)) := by
  obtain ⟨-, h2, h3⟩ := hp
  constructor
  · simp only [before, h2, stagesOf, List.map_ofFn, List.getLast?_eq_getElem?, List.length_take, List.length_ofFn]
    rw [show min (t + 1) T - 1 = t by omega, List.getElem?_take_of_lt (by omega), List.getElem?_ofFn, dif_pos (by omega)]
    rfl
  · simp only [before, h3, stagesOf, List.map_ofFn, List.getLast?_eq_getElem?, List.length_take, List.length_ofFn]
    rw [show min (t + 1) T - 1 = t by omega, List.getElem?_take_of_lt (by omega), List.getElem?_ofFn, dif_pos (by omega)]
    rfl

section
variable {α : Type*} [MeasurableSpace α] {T : ℕ} {Ω : ℕ → Type*} [mΩ : ∀ n, MeasurableSpace (Ω n)]

/-- Averages over particles drawn independently given the past follow their conditional mean. -/
theorem drawn_within (m : ∀ n, MeasurableSpace (Ω n)) [mΩ : ∀ n, MeasurableSpace (Ω n)] (P : ∀ n, Measure (Ω n)) [∀ n, IsProbabilityMeasure (P n)]
    (hm : ∀ n, m n ≤ mΩ n) (X : ∀ n, Fin n → Ω n → α) (hX : ∀ n i, Measurable (X n i)) (mean : ∀ n, (α → ℝ) → Ω n → ℝ)
    (hd : ∀ n, 0 < n → DrawnGiven (P n) (m n) (X n) (mean n)) (f : α → ℝ) (hf : Tame f) (g : ∀ n, Ω n → ℝ) (c : ℝ)
    (hc : NearlyWithin P (fun n ω => mean n f ω - g n ω) c) :
    NearlyWithin P (fun n ω => (∑ i, f (X n i ω)) / n - g n ω) c := by
  obtain ⟨hfm, F, hF⟩ := hf
  have h0 : NearlyWithin P (fun n ω => (∑ i, f (X n i ω)) / n - mean n f ω) 0 := by
    intro ε hε
    have hlim : Tendsto (fun n : ℕ => ENNReal.ofReal (4 * F ^ 2 / ε ^ 2 / n)) atTop (𝓝 0) := by
      have := ENNReal.tendsto_ofReal (tendsto_const_div_atTop_nhds_zero_nat (4 * F ^ 2 / ε ^ 2))
      simpa using this
    refine tendsto_of_tendsto_of_tendsto_of_le_of_le' tendsto_const_nhds hlim (.of_forall fun _ => zero_le') ?_
    filter_upwards [eventually_gt_atTop 0] with n hn
    have := drawn_chebyshev (m n) hn (P n) (hm n) (X n) (hX n) (mean n) (hd n hn) f hfm F hF ε hε
    simpa using this
  refine within_of_closes fun ε hε => ⟨Bool, inferInstance,
    fun k => if k then fun n ω => (∑ i, f (X n i ω)) / n - mean n f ω else fun n ω => mean n f ω - g n ω, fun k => if k then 0 else c,
    fun k => by cases k; exacts [hc, h0], ε / 2, by positivity, .of_forall fun n ω hω => ?_⟩
  have h1 := hω true
  have h2 := hω false
  simp only [if_true, Bool.false_eq_true, if_false] at h1 h2
  calc |(∑ i, f (X n i ω)) / n - g n ω| = |((∑ i, f (X n i ω)) / n - mean n f ω) + (mean n f ω - g n ω)| := by ring_nf
    _ ≤ _ := abs_add_le _ _
    _ < _ := by linarith

/-- The quotient of two estimates that are off by given amounts. -/
theorem quotient_close {A N a Z M F u v : ℝ} (hZ : Real.exp (-M) ≤ Z) (hA : |A / N| ≤ F) (hN : N ≠ 0) (h1 : |A - a| < u) (h2 : |N - Z| < v) :
    |A / N - a / Z| < Real.exp M * (u + F * v) := by
  have hZp : 0 < Z := (Real.exp_pos _).trans_le hZ
  have hF : 0 ≤ F := (abs_nonneg _).trans hA
  have e : A / N - a / Z = ((A - a) - A / N * (N - Z)) / Z := by
    field_simp
    ring
  rw [e, abs_div, abs_of_pos hZp, div_lt_iff₀ hZp]
  have h3 : |A - a - A / N * (N - Z)| < u + F * v := by
    refine (abs_sub _ _).trans_lt ?_
    rw [abs_mul]
    have := mul_le_mul hA h2.le (abs_nonneg _) hF
    linarith
  have h4 : 1 ≤ Real.exp M * Z := by
    calc 1 = Real.exp M * Real.exp (-M) := by rw [← Real.exp_add]; simp
      _ ≤ _ := mul_le_mul_of_nonneg_left hZ (Real.exp_pos _).le
  have h5 : 0 ≤ u + F * v := (abs_nonneg _).trans h3.le
  calc _ < u + F * v := h3
    _ ≤ (Real.exp M * Z) * (u + F * v) := le_mul_of_one_le_left h5 h4
    _ = _ := by ring

/-- **C133.** The first `W` iterations draw from the prior at temperature 0. In every other iteration `t` the code chooses the temperature `b t` and the
evidence `z t` from the history so far (`chooseBeta`), computes the weights at `b t` and trims them to the fraction `e` of the effective size
(0.99 in the code); the `n` new particles are, given the history, independent: a particle is picked with its trimmed weight and moved by a
Markov kernel, which may depend on `b t` and on parameters `θ` fitted to the history, and leaves the tempered posterior at `b t` invariant.
The parameters range over a totally bounded space, and the kernels depend on temperature and parameters in a uniformly continuous way.  The log-likelihood is
bounded by `M`. As `n` grows, up to an error that vanishes in probability: the recorded evidence has a relative error of at most
`2 (1 - e) exp (4 M) pileUp M (t - W)`; the average of `f` over the particles of iteration `t` is within `2 (1 - e) (1 + 2 exp (4 M) pileUp M (t - W))` times the
bound of `f` from the expectation under the tempered posterior at `b t`; and likewise for the evidence and the weighted average from the whole history. -/
theorem C133_adaptive {d : ℕ} {B : Type} (hT : 0 < T) (π : Measure α) [IsProbabilityMeasure π] (l : α → ℝ) (hl : Measurable l) (M : ℝ)
    (hM : ∀ y, |l y| ≤ M) (W : ℕ) (hW : 0 < W) {Θ : Type*} [PseudoMetricSpace Θ] (hΘ : TotallyBounded (Set.univ : Set Θ))
    (K : Fin T → ℝ → Θ → Kernel α α) [∀ t c θ, IsMarkovKernel (K t c θ)]
    (hK : ∀ t c θ, 0 ≤ c → c ≤ 1 → Kernel.Invariant (K t c θ) (tempered π l c))
    (hKc : ∀ t f, Tame f → ∀ ε > 0, ∃ δ > 0, ∀ c c' θ θ', 0 ≤ c → c ≤ 1 → 0 ≤ c' → c' ≤ 1 → |c - c'| < δ → dist θ θ' < δ →
      ∀ y, |∫ y', f y' ∂(K t c θ y) - ∫ y', f y' ∂(K t c' θ' y)| ≤ ε)
    (e : ℝ) (he : e ≤ 1) (P : ∀ n, Measure (Ω n)) [∀ n, IsProbabilityMeasure (P n)]
    (X : ∀ n, Fin T → ℕ → Ω n → α) (hX : ∀ n t i, Measurable (X n t i))
    (past : ∀ n, Ω n → Cols d (List B) List) (b z : ∀ n, Ω n → Fin T → ℝ) (θ : ∀ n, Ω n → Fin T → Θ)
    (hp : ∀ n, 0 < n → ∀ ω, Holds (past n ω) (stagesOf l (b n ω) (z n ω) fun t (i : Fin n) => X n t i ω))
    (hwarm : ∀ t : Fin T, t.val < W → ∀ n, 0 < n → (∀ ω, b n ω t = 0 ∧ z n ω t = 0) ∧
      DrawnGiven (P n) (earlier n (X n) t) (fun i : Fin n => X n t i) fun f _ => ∫ x, f x ∂π)
    (hstep : ∀ t : Fin T, W ≤ t.val → ∀ n, 0 < n → ∃ (w : Ω n → List Poco.F) (tr : Ω n → Trimmed α) (v : Ω n → List ℝ),
      (∀ ω, (∃ m nEff fuel ess, chooseBeta (before (past n ω) t) m nEff fuel = .ok (fin (b n ω t), fin (z n ω t), ess)) ∧
        weightsAt (before (past n ω) t) (fin (b n ω t)) = .ok (w ω) ∧
        trimWeights (allParticles fun (r : Fin t.val) (i : Fin n) => X n (r.castLE t.2.le) i ω) (normalize (w ω)) (fin e) 1000 = .ok (tr ω) ∧
        (tr ω).weights = (v ω).map fin) ∧
      DrawnGiven (P n) (earlier n (X n) t) (fun i : Fin n => X n t i) fun f ω =>
        (List.zipWith (fun a y => a * ∫ y', f y' ∂(K t (b n ω t) (θ n ω t) y)) (v ω) (tr ω).samples).sum)
    (β : ℝ) (hβ0 : 0 ≤ β) (hβ1 : β ≤ 1) :
    (∀ t, NearlyWithin P (fun n ω => Real.exp (z n ω t) / evidenceAt π l (b n ω t) - 1) (2 * (1 - e) * Real.exp (4 * M) * pileUp M (t.val - W))) ∧
    (∀ t f C, Tame f → (∀ y, |f y| ≤ C) → NearlyWithin P (fun n ω => (∑ i : Fin n, f (X n t i ω)) / n - ∫ x, f x ∂(tempered π l (b n ω t)))
      (2 * (1 - e) * (1 + 2 * Real.exp (4 * M) * pileUp M (t.val - W)) * C)) ∧
    ∃ (lw : ∀ n, Ω n → List ℝ) (ze : ∀ n, Ω n → ℝ),
      (∀ n, 0 < n → ∀ ω, computeLogwLogz (past n ω) (fin β) = .ok ((lw n ω).map fin, fin (ze n ω))) ∧
      NearlyWithin P (fun n ω => Real.exp (ze n ω) / evidenceAt π l β - 1) (2 * (1 - e) * Real.exp (4 * M) * pileUp M (T - W)) ∧
      ∀ (f : α → ℝ) (C : ℝ), Tame f → (∀ y, |f y| ≤ C) →
        NearlyWithin P (fun n ω => (List.zipWith (fun a y => Real.exp a * f y) (lw n ω) (allParticles fun t (i : Fin n) => X n t i ω)).sum -
          ∫ x, f x ∂(tempered π l β)) (2 * (1 - e) * (2 * Real.exp (4 * M) * pileUp M (T - W)) * C) := by
  have hlt : Tame l := ⟨hl, M, hM⟩
  have hpos : ∀ β, 0 < evidenceAt π l β := fun β => evidence_pos π l _ (exp_integrable π l hlt _)
  have hpr : ∀ β, IsProbabilityMeasure (tempered π l β) := fun β => tempered_prob π l _ (exp_integrable π l hlt _) (hpos _)
  have hone : ∀ β, ∫ x, 1 * Real.exp (l x * β) ∂π = evidenceAt π l β := fun β => by simp [evidenceAt]
  have hrange := fun b h0 h1 => evidence_range π l hlt M hM (b := b) h0 h1
  have hα : Nonempty α := by
    by_contra h
    rw [not_nonempty_iff] at h
    have := measure_univ (μ := π)
    rw [Measure.eq_zero_of_isEmpty π] at this
    simp at this
  have hM0 : 0 ≤ M := (abs_nonneg _).trans (hM hα.some)
  set η := 2 * (1 - e) with hη
  have hη0 : 0 ≤ η := by linarith
  set L := Real.exp (4 * M) with hL
  have hL1 : 1 ≤ L := Real.one_le_exp (by linarith)
  have hML : Real.exp M * Real.exp (3 * M) = L := by rw [← Real.exp_add, hL]; congr 1; ring
  have hM1 : 1 ≤ Real.exp M := Real.one_le_exp hM0
  -- temperatures lie between 0 and 1
  have hb01 : ∀ n, 0 < n → ∀ ω t, 0 ≤ b n ω t ∧ b n ω t ≤ 1 := by
    intro n hn ω t
    obtain ⟨t, ht⟩ := t
    induction t with
    | zero => rw [((hwarm ⟨0, ht⟩ hW n hn).1 ω).1]; norm_num
    | succ t ih =>
      by_cases htW : t + 1 < W
      · rw [((hwarm ⟨t + 1, ht⟩ htW n hn).1 ω).1]; norm_num
      · obtain ⟨w, tr, v, h1, -⟩ := hstep ⟨t + 1, ht⟩ (not_lt.mp htW) n hn
        obtain ⟨⟨m, nEff, fuel, ess, hc⟩, -⟩ := h1 ω
        have hi := ih (by omega)
        obtain ⟨c, hc1, hc2, hc3⟩ := C21_beta_step _ m nEff fuel _ hi.2 (before_last (hp n hn ω) t ht.le).1 _ _ _ hc
        rw [fin_inj.mp hc1]
        exact ⟨hi.1.trans hc2, hc3⟩
  let ζ : ℕ → ℝ := fun r => if r < W then 0 else η * L * pileUp M (r - W)
  let κ : ℕ → ℝ := fun r => if r < W then 0 else η * (1 + 2 * L * pileUp M (r - W))
  have hζ0 : ∀ r, 0 ≤ ζ r := fun r => by
    simp only [ζ]; split_ifs
    · exact le_rfl
    · exact mul_nonneg (by positivity) (pileUp_nonneg _ _)
  have hκ0 : ∀ r, 0 ≤ κ r := fun r => by
    simp only [κ]; split_ifs
    · exact le_rfl
    · exact mul_nonneg hη0 (by have := pileUp_nonneg M (r - W); positivity)
  have hsumζκ : ∀ t, ∑ r : Fin t, (ζ r.val + κ r.val) = η * pileUp M (t - W) := fun t => pileUp_sum M η W t
  have main : ∀ k, ∀ t : Fin T, t.val = k → NearlyWithin P (fun n ω => Real.exp (z n ω t) / evidenceAt π l (b n ω t) - 1) (ζ t.val) ∧
      ∀ f C, Tame f → (∀ y, |f y| ≤ C) →
        NearlyWithin P (fun n ω => (∑ i : Fin n, f (X n t i ω)) / n - ∫ x, f x ∂(tempered π l (b n ω t))) (κ t.val * C) := by
    intro k
    induction k using Nat.strong_induction_on with
    | _ k ih =>
      intro t htk
      by_cases htW : t.val < W
      · have hw := hwarm t htW
        have hzz : ζ t.val = 0 := if_pos htW
        have hkk : κ t.val = 0 := if_pos htW
        rw [hzz, hkk]
        constructor
        · refine (within_zero_iff (Y := fun n ω => Real.exp (z n ω t) / evidenceAt π l (b n ω t))).mpr (inProb_const ?_)
          filter_upwards [eventually_gt_atTop 0] with n hn ω
          rw [((hw n hn).1 ω).1, ((hw n hn).1 ω).2]
          simp [evidenceAt]
        · intro f C hf hC
          rw [zero_mul]
          refine drawn_within (fun n => earlier n (X n) t) P (fun n => earlier_le n (X n) (hX n) t) (fun n i => X n t i) (fun n i => hX n t i)
            (fun n f _ => ∫ x, f x ∂π) (fun n hn => (hw n hn).2) f hf _ 0 ?_
          have : InProb P (fun n ω => (∫ x, f x ∂π) - ∫ x, f x ∂(tempered π l (b n ω t))) 0 := by
            refine inProb_const ?_
            filter_upwards [eventually_gt_atTop 0] with n hn ω
            rw [tempered_integral π l hlt, ((hw n hn).1 ω).1]
            simp [evidenceAt]
          simpa using within_zero_iff.mpr this
      · have htW := not_lt.mp htW
        have ht0 : 0 < t.val := hW.trans_le htW
        have hzz : ζ t.val = η * L * pileUp M (t.val - W) := if_neg (not_lt.mpr htW)
        have hkk : κ t.val = η * (1 + 2 * L * pileUp M (t.val - W)) := if_neg (not_lt.mpr htW)
        set S := η * pileUp M (t.val - W) with hS
        have hS0 : 0 ≤ S := mul_nonneg hη0 (pileUp_nonneg _ _)
        have hex : ∀ n, ∃ (w : Ω n → List Poco.F) (tr : Ω n → Trimmed α) (v : Ω n → List ℝ), 0 < n →
          (∀ ω, (∃ m nEff fuel ess, chooseBeta (before (past n ω) t) m nEff fuel = .ok (fin (b n ω t), fin (z n ω t), ess)) ∧
            weightsAt (before (past n ω) t) (fin (b n ω t)) = .ok (w ω) ∧
            trimWeights (allParticles fun (r : Fin t.val) (i : Fin n) => X n (r.castLE t.2.le) i ω) (normalize (w ω)) (fin e) 1000 = .ok (tr ω) ∧
            (tr ω).weights = (v ω).map fin) ∧
          DrawnGiven (P n) (earlier n (X n) t) (fun i : Fin n => X n t i) fun f ω =>
            (List.zipWith (fun a y => a * ∫ y', f y' ∂(K t (b n ω t) (θ n ω t) y)) (v ω) (tr ω).samples).sum := by
          intro n
          by_cases hn : 0 < n
          · obtain ⟨w, tr, v, h⟩ := hstep t htW n hn
            exact ⟨w, tr, v, fun _ => h⟩
          · exact ⟨fun _ => [], fun _ => ⟨[], [], []⟩, fun _ => [], fun h => absurd h hn⟩
        choose w tr v hall using hex
        let bb : ∀ n, Ω n → Fin t.val → ℝ := fun n ω r => b n ω (r.castLE t.2.le)
        let zz : ∀ n, Ω n → Fin t.val → ℝ := fun n ω r => z n ω (r.castLE t.2.le)
        have hh : ∀ n, 0 < n → ∀ ω, Holds (before (past n ω) t) (stagesOf l (bb n ω) (zz n ω) fun r (i : Fin n) => X n (r.castLE t.2.le) i ω) := by
          intro n hn ω
          have hh := before_holds (hp n hn ω) t
          rwa [stagesOf_take _ _ _ _ _ t.2.le] at hh
        -- estimates of integrals from the history so far
        have hE : ∀ (D : Set (ℝ × Θ)) (f : ℝ × Θ → α → ℝ) (F : ℝ) (_ : 0 ≤ F) (_ : ∀ q ∈ D, Measurable (f q)) (_ : ∀ q ∈ D, ∀ y, |f q y| ≤ F)
            (_ : ∀ ε > 0, Small D fun q q' => ∀ y, |f q y - f q' y| ≤ ε) (q : ∀ n, Ω n → ℝ × Θ) (_ : ∀ n, 0 < n → ∀ ω, q n ω ∈ D),
            NearlyWithin P (fun n ω => estimate l (bb n ω) (b n ω t) (f (q n ω)) (fun r i => X n (r.castLE t.2.le) i ω) n (zz n ω) -
              ∫ x, f (q n ω) x * Real.exp (l x * b n ω t) ∂π) (S * (Real.exp (3 * M) * F)) := by
          intro D f F hF0 hf hF hs q hq
          rw [hS, ← hsumζκ]
          exact estimate_within ht0 π P l hl M hM bb (fun n hn ω r => hb01 n hn ω _) (fun n r => X n (r.castLE t.2.le)) zz (fun r => ζ r.val) (fun r => κ r.val)
            (fun r => (ih r.val (by rw [← htk]; exact r.2) (r.castLE t.2.le) rfl).1)
            (fun r f F hf hF => (ih r.val (by rw [← htk]; exact r.2) (r.castLE t.2.le) rfl).2 f F hf hF)
            D f F hF0 hf hF hs q hq (fun n ω => b n ω t) fun n hn ω => hb01 n hn ω t
        have hE1 : NearlyWithin P (fun n ω => estimate l (bb n ω) (b n ω t) (fun _ => 1) (fun r i => X n (r.castLE t.2.le) i ω) n (zz n ω) -
              evidenceAt π l (b n ω t)) (S * Real.exp (3 * M)) := by
          have := hE Set.univ (fun _ _ => 1) 1 zero_le_one (fun _ _ => measurable_const) (fun _ _ _ => by simp)
            (fun ε hε => ⟨Unit, inferInstance, fun _ => (), fun _ _ _ _ _ y => by simpa using hε.le⟩) (fun n ω => (b n ω t, θ n ω t)) fun _ _ _ => trivial
          simpa only [hone, mul_one] using this
        constructor
        · -- the recorded evidence
          obtain ⟨s, hs⟩ : ∃ s, t.val = s + 1 := ⟨t.val - 1, by omega⟩
          have hsT : s < T := by have := t.2; omega
          have hprev := (ih s (by omega) ⟨s, hsT⟩ rfl).1
          refine within_of_closes fun ε hε => ⟨Bool, inferInstance, fun k => if k then fun n ω => Real.exp (z n ω ⟨s, hsT⟩) / evidenceAt π l (b n ω ⟨s, hsT⟩) - 1
              else fun n ω => estimate l (bb n ω) (b n ω t) (fun _ => 1) (fun r i => X n (r.castLE t.2.le) i ω) n (zz n ω) - evidenceAt π l (b n ω t),
            fun k => if k then ζ s else S * Real.exp (3 * M), fun k => by cases k; exacts [hE1, hprev], ε * Real.exp (-M), by positivity, ?_⟩
          filter_upwards [eventually_gt_atTop 0] with n hn ω hω
          have h1 := hω true
          have h2 := hω false
          simp only [if_true, Bool.false_eq_true, if_false] at h1 h2
          obtain ⟨⟨m, nEff, fuel, ess, hc⟩, -⟩ := (hall n hn).1 ω
          rcases chooseBeta_cases hc with ⟨c1, c2⟩ | ⟨lw, c1⟩
          · have hl2 : (before (past n ω) t.val).beta.getLast? = some (fin (b n ω ⟨s, hsT⟩)) ∧
                (before (past n ω) t.val).logz.getLast? = some (fin (z n ω ⟨s, hsT⟩)) := by
              rw [hs]
              exact before_last (hp n hn ω) s hsT
            rw [getAt_neg_one hl2.1] at c1
            rw [getAt_neg_one hl2.2] at c2
            simp only [Except.ok.injEq, fin_inj] at c1 c2
            rw [← c1, ← c2]
            refine h1.trans_le ?_
            have h3 : ζ s ≤ S := by
              rw [hS, ← hsumζκ]
              have := Finset.single_le_sum (f := fun r : Fin t.val => ζ r.val + κ r.val) (fun r _ => add_nonneg (hζ0 _) (hκ0 _))
                (Finset.mem_univ (⟨s, by omega⟩ : Fin t.val))
              exact (le_add_of_nonneg_right (hκ0 s)).trans this
            have h4 : ε * Real.exp (-M) ≤ ε := mul_le_of_le_one_right hε.le (Real.exp_le_one_iff.mpr (by linarith))
            have h5 : S ≤ L * S := le_mul_of_one_le_left hS0 hL1
            rw [hzz]
            have : η * L * pileUp M (t.val - W) = L * S := by rw [hS]; ring
            linarith
          · obtain ⟨lw', ze, k1, k2, -⟩ := logz_estimate ht0 hn l _ _ (fun r i => X n (r.castLE t.2.le) i ω) _ (hh n hn ω) (b n ω t)
            rw [c1] at k1
            simp only [Except.ok.injEq, Prod.mk.injEq, fin_inj] at k1
            rw [k1.2, k2]
            have hZ := hrange _ (hb01 n hn ω t).1 (hb01 n hn ω t).2
            rw [div_sub_one (hpos _).ne', abs_div, abs_of_pos (hpos _), div_lt_iff₀ (hpos _)]
            refine h2.trans_le ?_
            have e1 : ζ t.val + ε = Real.exp M * (S * Real.exp (3 * M) + ε * Real.exp (-M)) := by
              rw [hzz, mul_add, mul_left_comm (Real.exp M) ε, ← Real.exp_add, add_neg_cancel, Real.exp_zero, mul_one, ← mul_assoc, mul_comm (Real.exp M) S,
                mul_assoc S, hML, hS]
              ring
            rw [e1]
            have h6 : 0 ≤ S * Real.exp (3 * M) + ε * Real.exp (-M) := by positivity
            have h7 : 1 ≤ Real.exp M * evidenceAt π l (b n ω t) := by
              calc 1 = Real.exp M * Real.exp (-M) := by rw [← Real.exp_add]; simp
                _ ≤ _ := mul_le_mul_of_nonneg_left hZ.1 (Real.exp_pos _).le
            calc _ ≤ (Real.exp M * evidenceAt π l (b n ω t)) * (S * Real.exp (3 * M) + ε * Real.exp (-M)) := le_mul_of_one_le_left h6 h7
              _ = _ := by ring
        · -- the averages
          intro f C hf hC
          have hC0 : 0 ≤ C := (abs_nonneg _).trans (hC hα.some)
          refine drawn_within (fun n => earlier n (X n) t) P (fun n => earlier_le n (X n) (hX n) t) (fun n i => X n t i) (fun n i => hX n t i)
            (fun n f ω => (List.zipWith (fun a y => a * ∫ y', f y' ∂(K t (b n ω t) (θ n ω t) y)) (v n ω) (tr n ω).samples).sum)
            (fun n hn => (hall n hn).2) f hf _ _ ?_
          have hKb : ∀ c θ' y, |∫ y', f y' ∂(K t c θ' y)| ≤ C := by
            intro c θ' y
            have := norm_integral_le_of_norm_le_const (μ := K t c θ' y) (f := f) (C := C) (.of_forall hC)
            simpa using this
          have hE2 := hE {p | p.1 ∈ Set.Icc (0 : ℝ) 1} (fun p y => ∫ y', f y' ∂(K t p.1 p.2 y)) C hC0
            (fun p _ => (kernel_tame (K t p.1 p.2) f hf).1) (fun p _ y => hKb p.1 p.2 y)
            (fun ε hε => by
              obtain ⟨δ, hδ, h⟩ := hKc t f hf ε hε
              have s1 : Small {p : ℝ × Θ | p.1 ∈ Set.Icc (0 : ℝ) 1} fun p p' => |p.1 - p'.1| < δ := (small_unit hδ).comap Prod.fst fun p hp => hp
              have s2 : Small {p : ℝ × Θ | p.1 ∈ Set.Icc (0 : ℝ) 1} fun p p' => dist p.2 p'.2 < δ :=
                (small_of_totallyBounded hΘ hδ).comap Prod.snd fun p _ => trivial
              exact (s1.and s2).mono fun p hp p' hp' hr => h _ _ _ _ hp.1 hp.2 hp'.1 hp'.2 hr.1 hr.2)
            (fun n ω => (b n ω t, θ n ω t)) fun n hn ω => hb01 n hn ω t
          refine within_of_closes fun ε hε => ⟨Bool, inferInstance, fun k => if k then fun n ω => estimate l (bb n ω) (b n ω t)
                (fun y => ∫ y', f y' ∂(K t (b n ω t) (θ n ω t) y)) (fun r i => X n (r.castLE t.2.le) i ω) n (zz n ω) -
                  ∫ x, (∫ y', f y' ∂(K t (b n ω t) (θ n ω t) x)) * Real.exp (l x * b n ω t) ∂π
              else fun n ω => estimate l (bb n ω) (b n ω t) (fun _ => 1) (fun r i => X n (r.castLE t.2.le) i ω) n (zz n ω) - evidenceAt π l (b n ω t),
            fun k => if k then S * (Real.exp (3 * M) * C) else S * Real.exp (3 * M), fun k => by cases k; exacts [hE1, hE2], ε * Real.exp (-M) / (1 + C), by positivity, ?_⟩
          filter_upwards [eventually_gt_atTop 0] with n hn ω hω
          have h1 := hω true
          have h2 := hω false
          simp only [if_true, Bool.false_eq_true, if_false] at h1 h2
          obtain ⟨-, c1, c2, c3⟩ := (hall n hn).1 ω
          obtain ⟨t1, t2, t3⟩ := trim_pick ht0 hn l (bb n ω) (zz n ω) (fun r i => X n (r.castLE t.2.le) i ω) _ (hh n hn ω) (b n ω t) (w n ω) c1 e he 1000 (by norm_num)
            (tr n ω) c2 (v n ω) c3 (fun y => ∫ y', f y' ∂(K t (b n ω t) (θ n ω t) y)) C (hKb _ _)
          have hZ := hrange _ (hb01 n hn ω t).1 (hb01 n hn ω t).2
          have hq := quotient_close hZ.1 t3 t2.ne' h1 h2
          rw [← tempered_integral π l hlt, invariant_integral _ _ (hK t _ (θ n ω t) (hb01 n hn ω t).1 (hb01 n hn ω t).2) f hf] at hq
          have e1 : Real.exp M * (S * (Real.exp (3 * M) * C) + ε * Real.exp (-M) / (1 + C) + C * (S * Real.exp (3 * M) + ε * Real.exp (-M) / (1 + C))) =
              2 * L * S * C + ε := by
            have : Real.exp M * Real.exp (-M) = 1 := by rw [← Real.exp_add]; simp
            have h1C : (1 + C) ≠ 0 := by positivity
            calc _ = 2 * (Real.exp M * Real.exp (3 * M)) * S * C + (Real.exp M * Real.exp (-M)) * (ε * ((1 + C) / (1 + C))) := by ring
              _ = _ := by rw [hML, this, div_self h1C]; ring
          rw [e1] at hq
          have e2 : κ t.val * C = η * C + 2 * L * S * C := by rw [hkk, hS]; ring
          rw [e2]
          have t1' := abs_le.mp t1
          have hq' := abs_lt.mp hq
          rw [abs_lt]
          constructor <;> linarith [t1'.1, t1'.2, hq'.1, hq'.2]
  have hζle : ∀ r, ζ r ≤ η * L * pileUp M (r - W) := fun r => by
    simp only [ζ]; split_ifs
    · exact mul_nonneg (by positivity) (pileUp_nonneg _ _)
    · exact le_rfl
  have hκle : ∀ r, κ r ≤ η * (1 + 2 * L * pileUp M (r - W)) := fun r => by
    simp only [κ]; split_ifs
    · exact mul_nonneg hη0 (by have := pileUp_nonneg M (r - W); positivity)
    · exact le_rfl
  refine ⟨fun t => within_mono (main _ t rfl).1 (hζle _), fun t f C hf hC => within_mono ((main _ t rfl).2 f C hf hC)
    (mul_le_mul_of_nonneg_right (hκle _) ((abs_nonneg _).trans (hC hα.some))), ?_⟩
  have hex : ∀ (n : ℕ) (ω : Ω n), ∃ (lw : List ℝ) (ze : ℝ), 0 < n → computeLogwLogz (past n ω) (fin β) = .ok (lw.map fin, fin ze) ∧
      Real.exp ze = estimate l (b n ω) β (fun _ => 1) (fun t i => X n t i ω) n (z n ω) ∧
      ∀ f : α → ℝ, Real.exp ze * (List.zipWith (fun a y => Real.exp a * f y) lw (allParticles fun t (i : Fin n) => X n t i ω)).sum =
        estimate l (b n ω) β f (fun t i => X n t i ω) n (z n ω) := by
    intro n ω
    by_cases hn : 0 < n
    · obtain ⟨lw, ze, h⟩ := logz_estimate hT hn l (b n ω) (z n ω) (fun t i => X n t i ω) (past n ω) (hp n hn ω) β
      exact ⟨lw, ze, fun _ => h⟩
    · exact ⟨[], 0, fun h => absurd h hn⟩
  choose lw ze hall using hex
  set S := η * pileUp M (T - W) with hS
  have hS0 : 0 ≤ S := mul_nonneg hη0 (pileUp_nonneg _ _)
  have hE : ∀ f C, Tame f → (∀ y, |f y| ≤ C) → NearlyWithin P (fun n ω => estimate l (b n ω) β f (fun t i => X n t i ω) n (z n ω) - ∫ x, f x * Real.exp (l x * β) ∂π)
      (S * (Real.exp (3 * M) * C)) := by
    intro f C hf hC
    rw [hS, ← hsumζκ]
    exact estimate_within hT π P l hl M hM b hb01 X z (fun r => ζ r.val) (fun r => κ r.val) (fun r => (main _ r rfl).1)
      (fun r f F hf hF => (main _ r rfl).2 f F hf hF) (Set.univ : Set Unit) (fun _ => f) C ((abs_nonneg _).trans (hC hα.some)) (fun _ _ => hf.1) (fun _ _ => hC)
      (fun ε hε => ⟨Unit, inferInstance, fun _ => (), fun _ _ _ _ _ y => by simpa using hε.le⟩) (fun _ _ => ()) (fun _ _ _ => trivial) (fun _ _ => β)
      fun _ _ _ => ⟨hβ0, hβ1⟩
  have hE1 : NearlyWithin P (fun n ω => estimate l (b n ω) β (fun _ => 1) (fun t i => X n t i ω) n (z n ω) - evidenceAt π l β) (S * Real.exp (3 * M)) := by
    have := hE (fun _ => 1) 1 tame_one (fun _ => by simp)
    simpa only [hone, mul_one] using this
  have hZ := hrange β hβ0 hβ1
  have h7 : 1 ≤ Real.exp M * evidenceAt π l β := by
    calc 1 = Real.exp M * Real.exp (-M) := by rw [← Real.exp_add]; simp
      _ ≤ _ := mul_le_mul_of_nonneg_left hZ.1 (Real.exp_pos _).le
  refine ⟨lw, ze, fun n hn ω => (hall n ω hn).1, ?_, fun f C hf hC => ?_⟩
  · refine within_of_closes fun ε hε => ⟨Unit, inferInstance, fun _ => fun n ω => estimate l (b n ω) β (fun _ => 1) (fun t i => X n t i ω) n (z n ω) - evidenceAt π l β,
      fun _ => S * Real.exp (3 * M), fun _ => hE1, ε * Real.exp (-M), by positivity, ?_⟩
    filter_upwards [eventually_gt_atTop 0] with n hn ω hω
    rw [(hall n ω hn).2.1, div_sub_one (hpos _).ne', abs_div, abs_of_pos (hpos _), div_lt_iff₀ (hpos _)]
    refine (hω ()).trans_le ?_
    have e1 : η * L * pileUp M (T - W) + ε = Real.exp M * (S * Real.exp (3 * M) + ε * Real.exp (-M)) := by
      rw [mul_add, mul_left_comm (Real.exp M) ε, ← Real.exp_add, add_neg_cancel, Real.exp_zero, mul_one, ← mul_assoc, mul_comm (Real.exp M) S,
        mul_assoc S, hML, hS]
      ring
    rw [e1]
    have h6 : 0 ≤ S * Real.exp (3 * M) + ε * Real.exp (-M) := by positivity
    calc _ ≤ (Real.exp M * evidenceAt π l β) * (S * Real.exp (3 * M) + ε * Real.exp (-M)) := le_mul_of_one_le_left h6 h7
      _ = _ := by ring
  · have hC0 : 0 ≤ C := (abs_nonneg _).trans (hC hα.some)
    refine within_of_closes fun ε hε => ⟨Bool, inferInstance, fun k => if k then fun n ω => estimate l (b n ω) β f (fun t i => X n t i ω) n (z n ω) - ∫ x, f x * Real.exp (l x * β) ∂π
        else fun n ω => estimate l (b n ω) β (fun _ => 1) (fun t i => X n t i ω) n (z n ω) - evidenceAt π l β,
      fun k => if k then S * (Real.exp (3 * M) * C) else S * Real.exp (3 * M), fun k => by cases k; exacts [hE1, hE f C hf hC], ε * Real.exp (-M) / (1 + C), by positivity, ?_⟩
    filter_upwards [eventually_gt_atTop 0] with n hn ω hω
    have h1 := hω true
    have h2 := hω false
    simp only [if_true, Bool.false_eq_true, if_false] at h1 h2
    have e0 : (List.zipWith (fun a y => Real.exp a * f y) (lw n ω) (allParticles fun t (i : Fin n) => X n t i ω)).sum =
        estimate l (b n ω) β f (fun t i => X n t i ω) n (z n ω) / estimate l (b n ω) β (fun _ => 1) (fun t i => X n t i ω) n (z n ω) := by
      rw [← (hall n ω hn).2.1, ← (hall n ω hn).2.2 f, mul_div_cancel_left₀ _ (Real.exp_pos _).ne']
    have t2 : estimate l (b n ω) β (fun _ => 1) (fun t i => X n t i ω) n (z n ω) ≠ 0 := by
      rw [← (hall n ω hn).2.1]; exact (Real.exp_pos _).ne'
    have t3 := estimate_ratio_le hT hn l (b n ω) (z n ω) (fun t i => X n t i ω) (past n ω) (hp n hn ω) β f C hC
    have hq := quotient_close hZ.1 t3 t2 h1 h2
    rw [← tempered_integral π l hlt] at hq
    have e1 : Real.exp M * (S * (Real.exp (3 * M) * C) + ε * Real.exp (-M) / (1 + C) + C * (S * Real.exp (3 * M) + ε * Real.exp (-M) / (1 + C))) =
        2 * L * S * C + ε := by
      have : Real.exp M * Real.exp (-M) = 1 := by rw [← Real.exp_add]; simp
      have h1C : (1 + C) ≠ 0 := by positivity
      calc _ = 2 * (Real.exp M * Real.exp (3 * M)) * S * C + (Real.exp M * Real.exp (-M)) * (ε * ((1 + C) / (1 + C))) := by ring
        _ = _ := by rw [hML, this, div_self h1C]; ring
    rw [e1] at hq
    rw [e0]
    refine hq.trans_le (le_of_eq ?_)
    rw [hS]
    ring

end
end Poco
