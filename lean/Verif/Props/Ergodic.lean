import Verif.Spec.Ergodic
import Verif.Lemmas.Ergodic
import Verif.Props.Balance

/-! # C130: repeated MCMC steps reach everything and converge to the tempered posterior -/

namespace Poco
open F Spec MeasureTheory ProbabilityTheory Filter Topology
open scoped ENNReal

variable {d : ℕ} {B : Type}

theorem acc_eq_zero {t t' : ℝ≥0∞} (ht : t ≠ ⊤) : acc t t' = 0 ↔ t' = 0 := by
  unfold acc
  constructor
  · intro h
    rcases min_eq_bot.mp h with h | h
    · exact absurd h one_ne_zero
    · rcases ENNReal.div_eq_zero_iff.mp h with h | h
      · exact h
      · exact absurd h ht
  · rintro rfl
    simp

/-- A Metropolis step whose proposals reach exactly the sets of positive volume. -/
theorem ergodic_of_proposal {Ω : Type} [MeasurableSpace Ω] (dens s : (Fin d → ℝ) → ℝ≥0∞) (hm : Measurable dens) (hs : Measurable s)
    (hsd : ∀ θ, s θ ≠ ⊤ ∧ (s θ = 0 ↔ dens θ = 0)) (aux : (Fin d → ℝ) → Measure Ω) (haux : ∀ θ, IsProbabilityMeasure (aux θ))
    (prop : (Fin d → ℝ) → Ω → Fin d → ℝ) (hprop : ∀ θ, Measurable (prop θ))
    (hnull : ∀ θ C, MeasurableSet C → (aux θ {ω | prop θ ω ∈ C} = 0 ↔ volume C = 0))
    (next : (Fin d → ℝ) → Ω × ℝ → Fin d → ℝ)
    (hnext : ∀ θ ω, next θ ω = if ENNReal.ofReal ω.2 < acc (s θ) (s (prop θ ω.1)) then prop θ ω.1 else θ)
    (hstep : RandomStep (fun θ => (aux θ).prod uniform01) next) (hbal : DetailedBalance dens (fun θ => (aux θ).prod uniform01) next)
    (hZ0 : ∫⁻ θ, dens θ ≠ 0) (hZ : ∫⁻ θ, dens θ ≠ ⊤) :
    Reaches dens (fun θ => (aux θ).prod uniform01) next ∧ Converges dens (fun θ => (aux θ).prod uniform01) next := by
  obtain ⟨hp, hn, hk⟩ := hstep
  haveI : IsFiniteMeasure uniform01 := by unfold uniform01; infer_instance
  have hpos : MeasurableSet {θ | dens θ ≠ 0} := (hm (measurableSet_singleton 0)).compl
  -- the probability of landing in a set
  have hland : ∀ θ C, MeasurableSet C → (aux θ).prod uniform01 {ω | next θ ω ∈ C} =
      ∫⁻ ω, (acc (s θ) (s (prop θ ω)) * C.indicator 1 (prop θ ω) + (1 - acc (s θ) (s (prop θ ω))) * C.indicator 1 θ) ∂(aux θ) := by
    intro θ C hC
    haveI := haux θ
    rw [Measure.prod_apply (show MeasurableSet {ω | next θ ω ∈ C} from hn θ hC)]
    refine lintegral_congr fun ω => ?_
    rw [← accept_prob _ (acc_le _ _) θ (prop θ ω) C]
    congr 1
    ext r
    simp only [Set.mem_preimage, Set.mem_setOf_eq, hnext]
  have hvol : ∀ C, MeasurableSet C → (∫⁻ θ in C, dens θ = 0 ↔ volume (C ∩ {θ | dens θ ≠ 0}) = 0) := by
    intro C hC
    rw [lintegral_eq_zero_iff hm, Filter.EventuallyEq, ae_iff, Measure.restrict_apply' hC, Set.inter_comm]
    rfl
  have hreach : Reaches dens (fun θ => (aux θ).prod uniform01) next := by
    intro θ _ C hC hC0 h0
    haveI := haux θ
    refine hC0 ((hvol C hC).mpr ?_)
    rw [← hnull θ _ (hC.inter hpos)]
    change (aux θ).prod uniform01 {ω | next θ ω ∈ C} = 0 at h0
    rw [hland θ C hC] at h0
    have mα : Measurable fun ω => acc (s θ) (s (prop θ ω)) := measurable_acc measurable_const (hs.comp (hprop θ))
    have mI : Measurable fun ω => C.indicator (1 : (Fin d → ℝ) → ℝ≥0∞) (prop θ ω) := (measurable_one.indicator hC).comp (hprop θ)
    have mT : Measurable fun ω => acc (s θ) (s (prop θ ω)) * C.indicator 1 (prop θ ω) + (1 - acc (s θ) (s (prop θ ω))) * C.indicator 1 θ :=
      (mα.mul mI).add ((measurable_const.sub mα).mul measurable_const)
    rw [lintegral_eq_zero_iff mT] at h0
    rw [Filter.EventuallyEq, ae_iff] at h0
    refine measure_mono_null ?_ h0
    rintro ω ⟨h1, h2⟩ hz
    simp only [Pi.zero_apply, add_eq_zero, mul_eq_zero] at hz
    rcases hz.1 with h | h
    · rw [acc_eq_zero (hsd θ).1, (hsd _).2] at h
      exact h2 h
    · rw [Set.indicator_of_mem h1] at h
      exact one_ne_zero h
  refine ⟨hreach, ?_⟩
  intro μ hμ0 hstart hev ε hε
  set Z := ∫⁻ θ, dens θ with hZd
  let κ : Kernel (Fin d → ℝ) (Fin d → ℝ) :=
    ⟨fun θ => ((aux θ).prod uniform01).map (next θ), by
      refine Measure.measurable_of_measurable_coe _ fun C hC => ?_
      have : (fun θ => (((aux θ).prod uniform01).map (next θ)) C) = fun θ => (aux θ).prod uniform01 {ω | next θ ω ∈ C} :=
        funext fun θ => Measure.map_apply (hn θ) hC
      rw [this]
      exact hk C hC⟩
  have hκ : ∀ θ C, MeasurableSet C → κ θ C = (aux θ).prod uniform01 {ω | next θ ω ∈ C} := fun θ C hC => Measure.map_apply (hn θ) hC
  haveI : IsMarkovKernel κ := ⟨fun θ => by
    haveI := hp θ
    exact Measure.isProbabilityMeasure_map (hn θ).aemeasurable⟩
  let π : Measure (Fin d → ℝ) := Z⁻¹ • volume.withDensity dens
  have hπ : ∀ C, MeasurableSet C → π C = Z⁻¹ * ∫⁻ θ in C, dens θ := by
    intro C hC
    show Z⁻¹ • (volume.withDensity dens) C = _
    rw [withDensity_apply _ hC]; rfl
  haveI : IsProbabilityMeasure π := ⟨by
    rw [hπ _ MeasurableSet.univ, Measure.restrict_univ]
    exact ENNReal.inv_mul_cancel hZ0 hZ⟩
  have hπ0 : ∀ C, MeasurableSet C → (π C = 0 ↔ ∫⁻ θ in C, dens θ = 0) := by
    intro C hC
    rw [hπ C hC, mul_eq_zero, or_iff_right (ENNReal.inv_ne_zero.mpr hZ)]
  have hrev : κ.IsReversible π := by
    intro A D hA hD
    have e : ∀ A D, MeasurableSet A → MeasurableSet D → ∫⁻ θ in A, κ θ D ∂π = Z⁻¹ * ∫⁻ θ in A, dens θ * (aux θ).prod uniform01 {ω | next θ ω ∈ D} := by
      intro A D hA hD
      show ∫⁻ θ in A, κ θ D ∂(Z⁻¹ • volume.withDensity dens) = _
      rw [Measure.restrict_smul, lintegral_smul_measure, restrict_withDensity hA,
        lintegral_withDensity_eq_lintegral_mul _ hm (Kernel.measurable_coe κ hD)]
      simp only [Pi.mul_apply, hκ _ _ hD]
      rfl
    rw [e A D hA hD, e D A hD hA, hbal A D hA hD]
  have hprob : ∀ n, IsProbabilityMeasure (μ n) := by
    intro n
    induction n with
    | zero => exact hμ0
    | succ n ih =>
      refine ⟨?_⟩
      rw [hev n _ MeasurableSet.univ]
      have : ∀ θ, (aux θ).prod uniform01 {ω | next θ ω ∈ Set.univ} = 1 := fun θ => by
        haveI := hp θ
        simpa using measure_univ (μ := (aux θ).prod uniform01)
      simp [this]
  have hGc : {θ | dens θ ≠ 0}ᶜ = {θ | dens θ = 0} := by ext; simp
  obtain ⟨N, hN⟩ := chain_converges (κ := κ) (π := π) hrev hpos
    (by
      rw [hπ0 _ hpos.compl, hvol _ hpos.compl, Set.compl_inter_self, measure_empty])
    (fun θ hθ C hC h => by
      rw [hκ θ C hC]
      exact hreach θ hθ C hC (fun h' => h ((hπ0 C hC).mpr h')))
    (fun θ _ C hC h hθC => by
      haveI := haux θ
      rw [hπ0 C hC, hvol C hC, ← hnull θ _ (hC.inter hpos)] at h
      rw [hκ θ C hC, hland θ C hC]
      have : ∀ᵐ ω ∂(aux θ), acc (s θ) (s (prop θ ω)) * C.indicator 1 (prop θ ω) + (1 - acc (s θ) (s (prop θ ω))) * C.indicator 1 θ = 0 := by
        have h' : ∀ᵐ ω ∂(aux θ), ω ∉ {ω | prop θ ω ∈ C ∩ {θ | dens θ ≠ 0}} := by rw [ae_iff]; simpa using h
        filter_upwards [h'] with ω hω
        rw [Set.indicator_of_notMem hθC, mul_zero, add_zero]
        by_cases h1 : prop θ ω ∈ C
        · have h2 : dens (prop θ ω) = 0 := by
            by_contra h2
            exact hω ⟨h1, h2⟩
          rw [(acc_eq_zero (hsd θ).1).mpr ((hsd _).2.mpr h2), zero_mul]
        · rw [Set.indicator_of_notMem h1, mul_zero]
      rw [lintegral_congr_ae this, lintegral_zero])
    μ (by rw [hGc]; exact hstart) (fun n C hC => by rw [hev n C hC]; exact lintegral_congr fun θ => (hκ θ C hC).symm) hε
  refine ⟨N, fun n hn' C hC => ?_⟩
  have := hN n hn' C hC
  rw [hπ C hC, ENNReal.toReal_mul, ENNReal.toReal_inv, mul_comm, ← div_eq_mul_inv] at this
  exact this

/-- Affine images of normal numbers reach exactly the sets of positive volume. -/
theorem normals_affine_null {L : Matrix (Fin d) (Fin d) ℝ} (hdet : IsUnit L.det) (a : Fin d → ℝ) {c : ℝ} (hc : c ≠ 0) {C : Set (Fin d → ℝ)}
    (hC : MeasurableSet C) : normals d {z | a + c • L.mulVec z ∈ C} = 0 ↔ volume C = 0 := by
  have hmul : Measurable fun z : Fin d → ℝ => a + c • L.mulVec z := ((measurable_mulVec L).const_smul c).const_add a
  have h1 : normals d {z | a + c • L.mulVec z ∈ C} = 0 ↔ volume {z : Fin d → ℝ | a + c • L.mulVec z ∈ C} = 0 := by
    unfold normals
    rw [normals_density]
    constructor
    · intro h
      refine withDensity_absolutelyContinuous' measurable_normalsPdf.aemeasurable (ae_of_all _ fun z => ?_) h
      rw [normalsPdf_eq, ne_eq, ENNReal.ofReal_eq_zero, not_le]
      have := Real.pi_pos
      positivity
    · exact fun h => withDensity_absolutelyContinuous _ _ h
  rw [h1]
  let f : (Fin d → ℝ) →ₗ[ℝ] (Fin d → ℝ) := c • Matrix.mulVecLin L
  have hf : LinearMap.det f ≠ 0 := by
    show LinearMap.det (c • Matrix.mulVecLin L) ≠ 0
    rw [LinearMap.det_smul]
    refine mul_ne_zero (pow_ne_zero _ hc) ?_
    have : LinearMap.det (Matrix.mulVecLin L) = L.det := by
      have := LinearMap.det_toLin' L
      exact this
    rw [this]
    exact hdet.ne_zero
  have h2 : {z : Fin d → ℝ | a + c • L.mulVec z ∈ C} = f ⁻¹' ((fun y => a + y) ⁻¹' C) := rfl
  rw [h2, Measure.addHaar_preimage_linearMap _ hf, measure_preimage_add, mul_eq_zero, or_iff_right]
  rw [ENNReal.ofReal_eq_zero, not_le]
  exact abs_pos.mpr (inv_ne_zero hf)

/-- **C130**, the random-walk kernels. One step at a fixed scale `σ ≠ 0`, with a regular covariance factor `L`, moves a walker standing at `θ` to
`next θ (z, r)` (`z`, `r` the normal numbers and the uniform number drawn for it); from every point of positive density it can reach every
set of positive posterior mass; and when it is repeated, the distribution of the walker converges to the tempered posterior from every start. -/
theorem C130_random_walk (e : McmcEnv d B) (hk : e.kernel.isPcn = false) (ll lp : Pt d → F) (bb : Pt d → B)
    (hrow : RowWise e ll lp bb) (hbc : BoundaryMild e)
    (b : ℝ) (hβ : e.beta = fin b) (hb : 0 ≤ b) (hll : ∀ x, ll x ≠ pinf) (hfl : ∀ p, (e.flowInv p).2 ≠ pinf)
    (L : Matrix (Fin d) (Fin d) ℝ) (hdet : IsUnit L.det) (hL : ∀ i j, e.cholCov i j = fin (L i j)) (σ : ℝ) (hσ0 : σ ≠ 0)
    (hm : Measurable (posteriorDensity e ll lp b)) (hZ0 : ∫⁻ θ, posteriorDensity e ll lp b θ ≠ 0) (hZ : ∫⁻ θ, posteriorDensity e ll lp b θ ≠ ⊤) :
    ∃ next : (Fin d → ℝ) → (Fin d → ℝ) × ℝ → Fin d → ℝ,
      (∀ (fuel : ℕ) (rnd : ℕ → Draw d) (i : ℕ) (st st' : McmcState d B) (k : ℕ) (w : Walker d B) (θ z : Fin d → ℝ) (r : ℝ),
        mcmcStep e fuel rnd i st = .ok st' → st.sigma = fin σ → st.walkers[k]? = some w → StandsAt e ll lp w θ →
        posteriorDensity e ll lp b θ ≠ 0 → (rnd k).z = pt z → (rnd k).rand = fin r → 0 ≤ r →
        ∃ w', st'.walkers[k]? = some w' ∧ StandsAt e ll lp w' (next θ (z, r))) ∧
      Reaches (posteriorDensity e ll lp b) (fun _ => (normals d).prod uniform01) next ∧
      Converges (posteriorDensity e ll lp b) (fun _ => (normals d).prod uniform01) next := by
  obtain ⟨next, h1, h2, h3, h4⟩ := rw_kernel e hk ll lp bb hrow hbc b hβ hb hll hfl L hL σ hm
  refine ⟨next, h2, ?_⟩
  haveI : IsProbabilityMeasure (normals d) := by unfold normals; infer_instance
  exact ergodic_of_proposal (posteriorDensity e ll lp b) (posteriorDensity e ll lp b) hm hm
    (fun θ => ⟨posteriorDensity_ne_top e ll lp b θ, Iff.rfl⟩) (fun _ => normals d) (fun _ => inferInstance) (fun θ z => θ + σ • L.mulVec z)
    (fun θ => ((measurable_mulVec L).const_smul σ).const_add θ) (fun θ C hC => normals_affine_null hdet θ hσ0 hC) next h1 h3 h4 hZ0 hZ

/-- **C130**, the t-preconditioned Crank-Nicolson kernels, at a fixed scale `σ ≠ 0` and around a fixed centre. -/
theorem C130_t_pcn (e : McmcEnv d B) (hk : e.kernel.isPcn = true) (ll lp : Pt d → F) (bb : Pt d → B)
    (hrow : RowWise e ll lp bb) (hbc : BoundaryMild e)
    (b : ℝ) (hβ : e.beta = fin b) (hb : 0 ≤ b) (hll : ∀ x, ll x ≠ pinf) (hfl : ∀ p, (e.flowInv p).2 ≠ pinf)
    (L : Matrix (Fin d) (Fin d) ℝ) (hdet : IsUnit L.det) (hL : ∀ i j, e.cholCov i j = fin (L i j))
    (hP : ∀ i j, e.invCov i j = fin ((L * L.transpose)⁻¹ i j)) (ν : ℝ) (hν : e.tNu = fin ν) (hν0 : 0 < ν)
    (m : Fin d → ℝ) (σ : ℝ) (hσ : σ ^ 2 ≤ 1) (hσ0 : σ ≠ 0) (hm : Measurable (posteriorDensity e ll lp b))
    (hZ0 : ∫⁻ θ, posteriorDensity e ll lp b θ ≠ 0) (hZ : ∫⁻ θ, posteriorDensity e ll lp b θ ≠ ⊤) :
    ∃ (shape : ℝ) (scale : (Fin d → ℝ) → ℝ) (next : (Fin d → ℝ) → (ℝ × (Fin d → ℝ)) × ℝ → Fin d → ℝ),
      (∀ θ, gammaParams e (pt m) (pt θ) = (fin shape, fin (scale θ))) ∧
      (∀ (fuel : ℕ) (rnd : ℕ → Draw d) (i : ℕ) (st st' : McmcState d B) (k : ℕ) (w : Walker d B) (θ z : Fin d → ℝ)
          (g r : ℝ),
        mcmcStep e fuel rnd i st = .ok st' → st.sigma = fin σ → st.mu = pt m → st.walkers[k]? = some w →
        StandsAt e ll lp w θ → posteriorDensity e ll lp b θ ≠ 0 →
        (rnd k).gamma = fin g → 0 < g → (rnd k).z = pt z → (rnd k).rand = fin r → 0 ≤ r →
        ∃ w', st'.walkers[k]? = some w' ∧ StandsAt e ll lp w' (next θ ((g, z), r))) ∧
      Reaches (posteriorDensity e ll lp b) (fun θ => ((gammaMeasure shape (1 / scale θ)).prod (normals d)).prod uniform01) next ∧
      Converges (posteriorDensity e ll lp b) (fun θ => ((gammaMeasure shape (1 / scale θ)).prod (normals d)).prod uniform01) next := by
  obtain ⟨shape, scale, next, s, ⟨ms, hs, hsh, hsc, h1⟩, h0, h2, h3, h4⟩ :=
    pcn_kernel e hk ll lp bb hrow hbc b hβ hb hll hfl L hdet hL hP ν hν hν0 m σ hσ hm
  refine ⟨shape, scale, next, h0, h2, ?_⟩
  haveI : IsProbabilityMeasure (normals d) := by unfold normals; infer_instance
  have hgp : ∀ θ, IsProbabilityMeasure (gammaMeasure shape (1 / scale θ)) := fun θ =>
    isProbabilityMeasure_gammaMeasure hsh (one_div_pos.mpr (hsc θ))
  have hg0 : ∀ θ, ∀ᵐ g ∂(gammaMeasure shape (1 / scale θ)), 0 < g := by
    intro θ
    rw [ae_iff]
    unfold gammaMeasure
    have hset : MeasurableSet {g : ℝ | ¬ 0 < g} := by
      have : {g : ℝ | ¬ 0 < g} = Set.Iic 0 := by ext; simp
      rw [this]; exact measurableSet_Iic
    rw [withDensity_apply _ hset]
    have h0 : ∀ᵐ g : ℝ, g ≠ 0 := by simp [ae_iff, measure_singleton]
    have : ∀ᵐ g ∂((volume : Measure ℝ).restrict {g : ℝ | ¬ 0 < g}), gammaPDF shape (1 / scale θ) g = 0 := by
      rw [ae_restrict_iff' hset]
      filter_upwards [h0] with g hg hg'
      exact gammaPDF_of_neg (lt_of_le_of_ne (not_lt.mp hg') hg)
    rw [lintegral_congr_ae this, lintegral_zero]
  let prop : (Fin d → ℝ) → ℝ × (Fin d → ℝ) → Fin d → ℝ := fun θ y => Real.sqrt (1 - σ ^ 2) • (θ - m) + (σ / Real.sqrt y.1) • L.mulVec y.2 + m
  have hprop : ∀ θ, Measurable (prop θ) := by
    intro θ
    have m1 : Measurable fun y : ℝ × (Fin d → ℝ) => σ / Real.sqrt y.1 := measurable_const.div measurable_fst.sqrt
    have m2 : Measurable fun y : ℝ × (Fin d → ℝ) => L.mulVec y.2 := (measurable_mulVec L).comp measurable_snd
    exact ((m1.smul m2).const_add _).add_const m
  refine ergodic_of_proposal (posteriorDensity e ll lp b) s hm ms hs (fun θ => (gammaMeasure shape (1 / scale θ)).prod (normals d))
    (fun θ => by haveI := hgp θ; infer_instance) prop hprop (fun θ C hC => ?_) next h1 h3 h4 hZ0 hZ
  haveI := hgp θ
  have hsec : ∀ g : ℝ, 0 < g → (normals d {z | prop θ (g, z) ∈ C} = 0 ↔ volume C = 0) := by
    intro g hg
    have := normals_affine_null hdet (Real.sqrt (1 - σ ^ 2) • (θ - m) + m) (c := σ / Real.sqrt g)
      (div_ne_zero hσ0 (Real.sqrt_pos.mpr hg).ne') hC
    rw [← this]
    have e1 : ∀ z, prop θ (g, z) = Real.sqrt (1 - σ ^ 2) • (θ - m) + m + (σ / Real.sqrt g) • L.mulVec z := fun z => by
      show _ + _ + m = _
      abel
    simp only [e1]
  have hms : MeasurableSet {y | prop θ y ∈ C} := hprop θ hC
  rw [Measure.prod_apply hms, lintegral_eq_zero_iff (measurable_measure_prodMk_left hms)]
  constructor
  · intro h
    obtain ⟨g, hg1, hg2⟩ := (h.and (hg0 θ)).exists
    exact (hsec g hg2).mp hg1
  · intro h
    filter_upwards [hg0 θ] with g hg
    exact (hsec g hg).mpr h

/-! ### a concrete case: a likelihood that is constant on a square and zero outside -/

def square : Set (Fin 2 → ℝ) := Set.Icc (fun _ => -1) (fun _ => 1)

open Classical in
noncomputable def boxLl (x : Pt 2) : F := if ∀ i, ∃ r : ℝ, x i = fin r ∧ |r| ≤ 1 then fin 0 else ninf

theorem boxLl_ne (x : Pt 2) : boxLl x ≠ pinf := by
  unfold boxLl
  split <;> simp

theorem box_density (k : Kern) : posteriorDensity (exampleEnv k boxLl 0.5) boxLl (fun _ => fin 0) 1 =
    square.indicator 1 := by
  funext θ
  have h1 : (pt θ, fin 0) = latent (exampleEnv k boxLl 0.5) θ := by
    unfold latent
    split <;> rfl
  have h2 : (exampleEnv k boxLl 0.5).scaler.inverseRow (pt θ) = .ok (pt θ, fin 0) := by
    simp only [exampleEnv, Scaler.inverseRow, Scaler.invRow, Bool.false_eq_true, if_false, Except.ok.injEq, Prod.mk.injEq]
    constructor
    · funext i
      simp [invCoord, createMasks, F.isfinite]
    · simp [invCoord, createMasks, F.isfinite, F.sum]
  rw [posteriorDensity_eq _ _ _ _ _ _ _ _ _ h1 h2, if_pos fun j => ⟨θ j, rfl⟩]
  have h3 : (∀ i, ∃ r : ℝ, pt θ i = fin r ∧ |r| ≤ 1) ↔ θ ∈ square := by
    rw [square, Set.mem_Icc, Pi.le_def, Pi.le_def, ← forall_and]
    refine forall_congr' fun i => ?_
    rw [← abs_le]
    constructor
    · rintro ⟨r, h, h'⟩
      rwa [F.fin.inj h]
    · exact fun h => ⟨θ i, rfl, h⟩
  unfold boxLl
  by_cases h : θ ∈ square
  · rw [if_pos (h3.mpr h), Set.indicator_of_mem h]
    show ENNReal.ofReal _ = _
    simp
  · rw [if_neg (fun h' => h (h3.mp h')), Set.indicator_of_notMem h]
    rfl

theorem box_mass : ∫⁻ θ : Fin 2 → ℝ, square.indicator (1 : (Fin 2 → ℝ) → ℝ≥0∞) θ = 4 := by
  rw [square, lintegral_indicator_one measurableSet_Icc, Real.volume_Icc_pi]
  norm_num [Fin.prod_univ_two]

/-- C130 for the two random-walk kernels on the example: the walker's distribution converges to the uniform distribution on the square
from every starting point in it. -/
example (k : Kern) (hk : k.isPcn = false) : ∃ next : (Fin 2 → ℝ) → (Fin 2 → ℝ) × ℝ → Fin 2 → ℝ,
    ∀ μ : ℕ → Measure (Fin 2 → ℝ), μ 0 = Measure.dirac (fun _ => 0) → Evolves (fun _ => (normals 2).prod uniform01) next μ →
      ∃ N, ∀ n ≥ N, |(μ n (Set.Icc (fun _ => 0) (fun _ => 1))).toReal - 1 / 4| ≤ 1 / 100 := by
  obtain ⟨next, -, -, h⟩ := C130_random_walk (exampleEnv k boxLl 0.5) hk boxLl (fun _ => fin 0) (fun _ => ()) (exampleEnv_rowwise _ _ _)
    (Or.inl ⟨rfl, rfl⟩) 1 rfl zero_le_one boxLl_ne (fun p => by simp [exampleEnv]) 1 (by simp)
    (fun i j => by simp only [exampleEnv, Matrix.one_apply]; split <;> rfl) 0.5 (by norm_num)
    (by rw [box_density]; exact measurable_one.indicator (measurableSet_Icc (a := fun _ : Fin 2 => (-1 : ℝ)) (b := fun _ => 1)))
    (by rw [box_density, box_mass]; norm_num) (by rw [box_density, box_mass]; norm_num)
  refine ⟨next, fun μ h0 hev => ?_⟩
  rw [box_density] at h
  have hs : MeasurableSet {θ : Fin 2 → ℝ | square.indicator (1 : (Fin 2 → ℝ) → ℝ≥0∞) θ = 0} :=
    (measurable_one.indicator (measurableSet_Icc (a := fun _ : Fin 2 => (-1 : ℝ)) (b := fun _ => 1))) (measurableSet_singleton 0)
  obtain ⟨N, hN⟩ := h μ (by rw [h0]; infer_instance) (by
    rw [h0, Measure.dirac_apply' _ hs, Set.indicator_of_notMem]
    rw [Set.mem_setOf_eq, Set.indicator_of_mem]
    · simp
    · simp [square, Pi.le_def]) hev (1 / 100) (by norm_num)
  refine ⟨N, fun n hn => ?_⟩
  have := hN n hn _ (measurableSet_Icc (a := fun _ => (0 : ℝ)) (b := fun _ => 1))
  rw [box_mass, ← lintegral_indicator measurableSet_Icc, Set.indicator_indicator, lintegral_indicator_one (measurableSet_Icc.inter (show MeasurableSet square from measurableSet_Icc)),
    Set.inter_eq_left.mpr, Real.volume_Icc_pi] at this
  · simpa using this
  · intro x hx
    exact ⟨fun i => by have := hx.1 i; simp only at this; show (-1 : ℝ) ≤ x i; linarith, hx.2⟩

/-- C130 for the two t-pCN kernels on the example. -/
example (k : Kern) (hk : k.isPcn = true) : ∃ (shape : ℝ) (scale : (Fin 2 → ℝ) → ℝ)
    (next : (Fin 2 → ℝ) → (ℝ × (Fin 2 → ℝ)) × ℝ → Fin 2 → ℝ),
    Converges (square.indicator 1)
      (fun θ : Fin 2 → ℝ => ((gammaMeasure shape (1 / scale θ)).prod (normals 2)).prod uniform01) next := by
  obtain ⟨shape, scale, next, -, -, -, h⟩ := C130_t_pcn (exampleEnv k boxLl 0.5) hk boxLl (fun _ => fin 0) (fun _ => ()) (exampleEnv_rowwise _ _ _)
    (Or.inl ⟨rfl, rfl⟩) 1 rfl zero_le_one boxLl_ne (fun p => by simp [exampleEnv]) 1 (by simp)
    (fun i j => by simp only [exampleEnv, Matrix.one_apply]; split <;> rfl)
    (fun i j => by simp only [exampleEnv, Matrix.transpose_one, mul_one, inv_one, Matrix.one_apply]; split <;> rfl)
    5 rfl (by norm_num) (fun _ => 0) 0.5 (by norm_num) (by norm_num)
    (by rw [box_density]; exact measurable_one.indicator (measurableSet_Icc (a := fun _ : Fin 2 => (-1 : ℝ)) (b := fun _ => 1)))
    (by rw [box_density, box_mass]; norm_num) (by rw [box_density, box_mass]; norm_num)
  rw [box_density] at h
  exact ⟨shape, scale, next, h⟩

end Poco
