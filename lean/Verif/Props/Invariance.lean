import Verif.Spec.Invariance
import Verif.Props.Balance

/-! C111: an ensemble that is distributed as independent draws from the tempered posterior is so distributed after one
step of any of the four kernels. -/

namespace Poco
open F Spec MeasureTheory ProbabilityTheory
open scoped ENNReal

variable {d N : ℕ} {B : Type}

theorem lintegral_product {E : Type} [MeasurableSpace E] (μ : Measure E) [SigmaFinite μ] :
    ∀ {n : ℕ} (f : Fin n → E → ℝ≥0∞), (∀ k, Measurable (f k)) →
      ∫⁻ x : Fin n → E, ∏ k, f k (x k) ∂(Measure.pi fun _ => μ) = ∏ k, ∫⁻ x, f k x ∂μ
  | 0, f, _ => by simp
  | n + 1, f, hf => by
    have hg : Measurable fun x : Fin n → E => ∏ k, f k.succ (x k) :=
      Finset.measurable_fun_prod _ fun k _ => (hf _).comp (measurable_pi_apply k)
    have h1 := (measurePreserving_piFinSuccAbove (fun _ : Fin (n + 1) => μ) 0).symm.lintegral_comp_emb
      (MeasurableEquiv.measurableEmbedding _) (fun x : Fin (n + 1) → E => ∏ k, f k (x k))
    rw [← h1]
    have h2 : ∀ x : E × (Fin n → E), ∏ k, f k ((MeasurableEquiv.piFinSuccAbove (fun _ : Fin (n + 1) => E) 0).symm x k)
        = f 0 x.1 * ∏ k, f k.succ (x.2 k) := by
      intro x
      rw [Fin.prod_univ_succ]
      rfl
    simp only [h2]
    rw [lintegral_prod_mul (hf 0).aemeasurable hg.aemeasurable, Fin.prod_univ_succ, lintegral_product μ _ fun k => hf _]

/-- Independent random steps of the members of an ensemble. -/
theorem preserved_of_balance {Ω : Type} [MeasurableSpace Ω] (dens : (Fin d → ℝ) → ℝ≥0∞) (hm : Measurable dens)
    (hfin : ∀ θ, dens θ ≠ ⊤) (law : (Fin d → ℝ) → Measure Ω) (next : (Fin d → ℝ) → Ω → Fin d → ℝ)
    (hstep : RandomStep law next) (hbal : DetailedBalance dens law next) :
    Preserved (N := N) (independently dens) (fun Θ => Measure.pi fun k => law (Θ k)) (fun Θ ω k => next (Θ k) (ω k)) := by
  obtain ⟨hp, hn, hk⟩ := hstep
  -- one member
  have hone : ∀ C, MeasurableSet C → ∫⁻ θ, dens θ * law θ {ω | next θ ω ∈ C} = ∫⁻ θ in C, dens θ := by
    intro C hC
    have := hbal Set.univ C MeasurableSet.univ hC
    rw [Measure.restrict_univ] at this
    rw [this]
    apply lintegral_congr
    intro θ
    have := (hp θ).measure_univ
    simp [this]
  let κ : (Fin d → ℝ) → Measure (Fin d → ℝ) := fun θ => (law θ).map (next θ)
  have hκp : ∀ θ, IsProbabilityMeasure (κ θ) := fun θ => Measure.isProbabilityMeasure_map (hn θ).aemeasurable
  have hκ : ∀ θ C, MeasurableSet C → κ θ C = law θ {ω | next θ ω ∈ C} := fun θ C hC => Measure.map_apply (hn θ) hC
  let K : (Fin N → Fin d → ℝ) → Measure (Fin N → Fin d → ℝ) := fun Θ => Measure.pi fun k => κ (Θ k)
  have hK : ∀ Θ C, MeasurableSet C → (Measure.pi fun k => law (Θ k)) {ω | (fun k => next (Θ k) (ω k)) ∈ C} = K Θ C := by
    intro Θ C hC
    have h1 := Measure.pi_map_pi (μ := fun k => law (Θ k)) (f := fun k => next (Θ k)) fun k => (hn _).aemeasurable
    have h2 : Measurable fun (ω : Fin N → Ω) k => next (Θ k) (ω k) :=
      measurable_pi_lambda _ fun k => (hn _).comp (measurable_pi_apply k)
    show _ = (Measure.pi fun k => (law (Θ k)).map (next (Θ k))) C
    rw [← h1, Measure.map_apply h2 hC]
    rfl
  have hKm : Measurable K := by
    refine Measurable.measure_of_isPiSystem_of_isProbabilityMeasure
      (S := Set.pi Set.univ '' Set.pi Set.univ fun _ : Fin N => {s : Set (Fin d → ℝ) | MeasurableSet s})
      generateFrom_pi.symm isPiSystem_pi ?_
    rintro _ ⟨s, hs, rfl⟩
    have hs' : ∀ k, MeasurableSet (s k) := fun k => hs k trivial
    show Measurable fun Θ : Fin N → Fin d → ℝ => (Measure.pi fun k => κ (Θ k)) (Set.pi Set.univ s)
    simp only [Measure.pi_pi]
    refine Finset.measurable_fun_prod _ fun k _ => ?_
    simp only [hκ _ _ (hs' k)]
    exact (hk _ (hs' k)).comp (measurable_pi_apply k)
  have hD : Measurable (independently (N := N) dens) :=
    Finset.measurable_fun_prod _ fun k _ => hm.comp (measurable_pi_apply k)
  have hKC : ∀ {C}, MeasurableSet C → Measurable fun Θ => K Θ C := fun hC => (Measure.measurable_coe hC).comp hKm
  haveI : SigmaFinite ((volume : Measure (Fin d → ℝ)).withDensity dens) :=
    SigmaFinite.withDensity_of_ne_top (ae_of_all _ hfin)
  have hvol : (volume : Measure (Fin N → Fin d → ℝ)) = Measure.pi fun _ => volume := rfl
  -- both sides are the product measure
  have e1 : (Measure.pi fun _ : Fin N => (volume : Measure (Fin d → ℝ)).withDensity dens)
      = (volume : Measure (Fin N → Fin d → ℝ)).withDensity (independently dens) := by
    refine Measure.pi_eq fun s hs => ?_
    rw [withDensity_apply _ (MeasurableSet.univ_pi hs), ← lintegral_indicator (MeasurableSet.univ_pi hs), hvol]
    have : ∀ Θ, (Set.pi Set.univ s).indicator (independently dens) Θ = ∏ k, (s k).indicator dens (Θ k) := by
      intro Θ
      by_cases h : Θ ∈ Set.pi Set.univ s
      · rw [Set.indicator_of_mem h]
        exact Finset.prod_congr rfl fun k _ => (Set.indicator_of_mem (h k trivial) _).symm
      · rw [Set.indicator_of_notMem h]
        simp only [Set.mem_pi, Set.mem_univ, true_imp_iff, not_forall] at h
        obtain ⟨k, hk⟩ := h
        exact (Finset.prod_eq_zero (Finset.mem_univ k) (Set.indicator_of_notMem hk _)).symm
    simp only [this]
    rw [lintegral_product volume _ fun k => hm.indicator (hs k)]
    refine Finset.prod_congr rfl fun k _ => ?_
    rw [withDensity_apply _ (hs k), lintegral_indicator (hs k)]
  have e2 : (Measure.pi fun _ : Fin N => (volume : Measure (Fin d → ℝ)).withDensity dens)
      = ((volume : Measure (Fin N → Fin d → ℝ)).withDensity (independently dens)).bind K := by
    refine Measure.pi_eq fun s hs => ?_
    have hC := MeasurableSet.univ_pi hs
    rw [Measure.bind_apply hC hKm.aemeasurable,
      lintegral_withDensity_eq_lintegral_mul _ hD (hKC hC), hvol]
    have : ∀ Θ : Fin N → Fin d → ℝ, (independently dens Θ * K Θ (Set.pi Set.univ s))
        = ∏ k, dens (Θ k) * law (Θ k) {ω | next (Θ k) ω ∈ s k} := by
      intro Θ
      show (∏ k, dens (Θ k)) * (Measure.pi fun k => κ (Θ k)) (Set.pi Set.univ s) = _
      rw [Measure.pi_pi, ← Finset.prod_mul_distrib]
      exact Finset.prod_congr rfl fun k _ => by rw [hκ _ _ (hs k)]
    simp only [Pi.mul_apply, this]
    rw [lintegral_product volume (fun k θ => dens θ * law θ {ω | next θ ω ∈ s k}) fun k => hm.mul (hk _ (hs k))]
    refine Finset.prod_congr rfl fun k _ => ?_
    rw [hone _ (hs k), withDensity_apply _ (hs k)]
  intro C hC
  have e3 : (((volume : Measure (Fin N → Fin d → ℝ)).withDensity (independently dens)).bind K) C
      = ((volume : Measure (Fin N → Fin d → ℝ)).withDensity (independently dens)) C := by rw [e2.symm.trans e1]
  rw [Measure.bind_apply hC hKm.aemeasurable,
    lintegral_withDensity_eq_lintegral_mul _ hD (hKC hC), withDensity_apply _ hC] at e3
  rw [← e3]
  exact lintegral_congr fun Θ => by rw [hK Θ C hC]; rfl

/-- **C111**, the random-walk kernels.  One step, at any proposal scale, moves an ensemble standing at `Θ` to `next Θ ω`,
where `ω k` are the normal numbers and the uniform number the step draws for walker `k`; and if the ensemble is
distributed as independent draws from the tempered posterior before the step, it is so after the step. -/
theorem C111_random_walk (e : McmcEnv d B) (hk : e.kernel.isPcn = false) (ll lp : Pt d → F) (bb : Pt d → B)
    (hrow : RowWise e ll lp bb) (hbc : BoundaryMild e)
    (b : ℝ) (hβ : e.beta = fin b) (hb : 0 ≤ b) (hll : ∀ x, ll x ≠ pinf) (hfl : ∀ p, (e.flowInv p).2 ≠ pinf)
    (L : Matrix (Fin d) (Fin d) ℝ) (hL : ∀ i j, e.cholCov i j = fin (L i j)) (σ : ℝ)
    (hm : Measurable (posteriorDensity e ll lp b)) :
    ∃ next : (Fin N → Fin d → ℝ) → (Fin N → (Fin d → ℝ) × ℝ) → Fin N → Fin d → ℝ,
      (∀ (fuel : ℕ) (rnd : ℕ → Draw d) (i : ℕ) (st st' : McmcState d B) (Θ : Fin N → Fin d → ℝ)
          (ω : Fin N → (Fin d → ℝ) × ℝ),
        mcmcStep e fuel rnd i st = .ok st' → st.sigma = fin σ → Standing e ll lp st.walkers Θ →
        independently (posteriorDensity e ll lp b) Θ ≠ 0 →
        (∀ k : Fin N, (rnd k).z = pt (ω k).1 ∧ (rnd k).rand = fin (ω k).2 ∧ 0 ≤ (ω k).2) →
        Standing e ll lp st'.walkers (next Θ ω)) ∧
      Preserved (independently (posteriorDensity e ll lp b)) (fun _ => Measure.pi fun _ => (normals d).prod uniform01)
        next := by
  obtain ⟨next, h1, h2, h3⟩ := C31_detailed_balance e hk ll lp bb hrow hbc b hβ hb hll hfl L hL σ hm
  refine ⟨fun Θ ω k => next (Θ k) (ω k), ?_, ?_⟩
  · intro fuel rnd i st st' Θ ω h hσ hs hpos hr
    refine ⟨(step_walker h).1.trans hs.1, fun k => ?_⟩
    obtain ⟨w, hw, hws⟩ := hs.2 k
    obtain ⟨r1, r2, r3⟩ := hr k
    exact h1 fuel rnd i st st' k w (Θ k) (ω k).1 (ω k).2 h hσ hw hws (Finset.prod_ne_zero_iff.mp hpos k (Finset.mem_univ k))
      r1 r2 r3
  · exact preserved_of_balance _ hm (posteriorDensity_ne_top e ll lp b) _ _ h2 h3

/-- **C111**, the t-preconditioned Crank-Nicolson kernels, at any scale and around any centre; `ω k` are the gamma number
(its parameters are those the code passes to the generator, which depend on where the walker stands), the normal
numbers and the uniform number of walker `k`. -/
theorem C111_t_pcn (e : McmcEnv d B) (hk : e.kernel.isPcn = true) (ll lp : Pt d → F) (bb : Pt d → B)
    (hrow : RowWise e ll lp bb) (hbc : BoundaryMild e)
    (b : ℝ) (hβ : e.beta = fin b) (hb : 0 ≤ b) (hll : ∀ x, ll x ≠ pinf) (hfl : ∀ p, (e.flowInv p).2 ≠ pinf)
    (L : Matrix (Fin d) (Fin d) ℝ) (hdet : IsUnit L.det) (hL : ∀ i j, e.cholCov i j = fin (L i j))
    (hP : ∀ i j, e.invCov i j = fin ((L * L.transpose)⁻¹ i j)) (ν : ℝ) (hν : e.tNu = fin ν) (hν0 : 0 < ν)
    (m : Fin d → ℝ) (σ : ℝ) (hσ : σ ^ 2 ≤ 1) (hm : Measurable (posteriorDensity e ll lp b)) :
    ∃ (shape : ℝ) (scale : (Fin d → ℝ) → ℝ)
      (next : (Fin N → Fin d → ℝ) → (Fin N → (ℝ × (Fin d → ℝ)) × ℝ) → Fin N → Fin d → ℝ),
      (∀ θ, gammaParams e (pt m) (pt θ) = (fin shape, fin (scale θ))) ∧
      (∀ (fuel : ℕ) (rnd : ℕ → Draw d) (i : ℕ) (st st' : McmcState d B) (Θ : Fin N → Fin d → ℝ)
          (ω : Fin N → (ℝ × (Fin d → ℝ)) × ℝ),
        mcmcStep e fuel rnd i st = .ok st' → st.sigma = fin σ → st.mu = pt m → Standing e ll lp st.walkers Θ →
        independently (posteriorDensity e ll lp b) Θ ≠ 0 →
        (∀ k : Fin N, (rnd k).gamma = fin (ω k).1.1 ∧ 0 < (ω k).1.1 ∧ (rnd k).z = pt (ω k).1.2 ∧
          (rnd k).rand = fin (ω k).2 ∧ 0 ≤ (ω k).2) →
        Standing e ll lp st'.walkers (next Θ ω)) ∧
      Preserved (independently (posteriorDensity e ll lp b))
        (fun Θ => Measure.pi fun k => ((gammaMeasure shape (1 / scale (Θ k))).prod (normals d)).prod uniform01) next := by
  obtain ⟨shape, scale, next, h0, h1, h2, h3⟩ := C32_detailed_balance e hk ll lp bb hrow hbc b hβ hb hll hfl L hdet hL hP ν
    hν hν0 m σ hσ hm
  refine ⟨shape, scale, fun Θ ω k => next (Θ k) (ω k), h0, ?_, ?_⟩
  · intro fuel rnd i st st' Θ ω h hσ hmu hs hpos hr
    refine ⟨(step_walker h).1.trans hs.1, fun k => ?_⟩
    obtain ⟨w, hw, hws⟩ := hs.2 k
    obtain ⟨r1, r2, r3, r4, r5⟩ := hr k
    exact h1 fuel rnd i st st' k w (Θ k) (ω k).1.2 (ω k).1.1 (ω k).2 h hσ hmu hw hws
      (Finset.prod_ne_zero_iff.mp hpos k (Finset.mem_univ k)) r1 r2 r3 r4 r5
  · exact preserved_of_balance _ hm (posteriorDensity_ne_top e ll lp b) _ _ h2 h3

/-- C111 applies to three walkers on the example (a Gaussian in the first coordinate), for all four kernels. -/
example (k : Kern) (hk : k.isPcn = false) : ∃ next : (Fin 3 → Fin 2 → ℝ) → (Fin 3 → (Fin 2 → ℝ) × ℝ) → Fin 3 → Fin 2 → ℝ,
    Preserved (independently fun θ : Fin 2 → ℝ => ENNReal.ofReal (Real.exp (-(θ 0) ^ 2 / 2)))
      (fun _ => Measure.pi fun _ => (normals 2).prod uniform01) next := by
  obtain ⟨next, -, h⟩ := C111_random_walk (N := 3) (exampleEnv k (fun x => -(F.sq (x 0)) / fin 2) 0.5) hk
    (fun x => -(F.sq (x 0)) / fin 2) (fun _ => fin 0) (fun _ => ()) (exampleEnv_rowwise _ _ _) (Or.inl ⟨rfl, rfl⟩) 1 rfl zero_le_one
    example_ll (fun p => by simp [exampleEnv]) 1
    (fun i j => by simp only [exampleEnv, Matrix.one_apply]; split <;> rfl) 0.5 (example_density_measurable k)
  have : posteriorDensity (exampleEnv k (fun x => -(F.sq (x 0)) / fin 2) 0.5) (fun x => -(F.sq (x 0)) / fin 2)
      (fun _ => fin 0) 1 = fun θ => ENNReal.ofReal (Real.exp (-(θ 0) ^ 2 / 2)) := funext (example_density k)
  rw [this] at h
  exact ⟨next, h⟩

example (k : Kern) (hk : k.isPcn = true) : ∃ (shape : ℝ) (scale : (Fin 2 → ℝ) → ℝ)
    (next : (Fin 3 → Fin 2 → ℝ) → (Fin 3 → (ℝ × (Fin 2 → ℝ)) × ℝ) → Fin 3 → Fin 2 → ℝ),
    Preserved (independently fun θ : Fin 2 → ℝ => ENNReal.ofReal (Real.exp (-(θ 0) ^ 2 / 2)))
      (fun Θ => Measure.pi fun k => ((gammaMeasure shape (1 / scale (Θ k))).prod (normals 2)).prod uniform01) next := by
  obtain ⟨shape, scale, next, -, -, h⟩ := C111_t_pcn (N := 3) (exampleEnv k (fun x => -(F.sq (x 0)) / fin 2) 0.5) hk
    (fun x => -(F.sq (x 0)) / fin 2) (fun _ => fin 0) (fun _ => ()) (exampleEnv_rowwise _ _ _) (Or.inl ⟨rfl, rfl⟩) 1 rfl zero_le_one
    example_ll (fun p => by simp [exampleEnv]) 1 (by simp)
    (fun i j => by simp only [exampleEnv, Matrix.one_apply]; split <;> rfl)
    (fun i j => by simp only [exampleEnv, Matrix.transpose_one, mul_one, inv_one, Matrix.one_apply]; split <;> rfl)
    5 rfl (by norm_num) (fun _ => 0) 0.5 (by norm_num) (example_density_measurable k)
  have : posteriorDensity (exampleEnv k (fun x => -(F.sq (x 0)) / fin 2) 0.5) (fun x => -(F.sq (x 0)) / fin 2)
      (fun _ => fin 0) 1 = fun θ => ENNReal.ofReal (Real.exp (-(θ 0) ^ 2 / 2)) := funext (example_density k)
  rw [this] at h
  exact ⟨shape, scale, next, h⟩

/-- An ensemble of two walkers that meets the starting condition. -/
example (k : Kern) (v : ℝ) : Standing (N := 2) (exampleEnv k (fun x => -(F.sq (x 0)) / fin 2) 0.5)
    (fun x => -(F.sq (x 0)) / fin 2) (fun _ => fin 0)
    [exampleWalker (fun x => -(F.sq (x 0)) / fin 2) 1, exampleWalker (fun x => -(F.sq (x 0)) / fin 2) v]
    (fun i _ => if i = 0 then 1 else v) := by
  refine ⟨rfl, fun i => ?_⟩
  match i with
  | 0 => exact ⟨_, rfl, by simpa using example_stands k 1⟩
  | 1 => exact ⟨_, rfl, by simpa using example_stands k v⟩

end Poco
