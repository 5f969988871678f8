import Mathlib.Probability.Kernel.Invariance
import Mathlib.Probability.Kernel.Composition.IntegralCompProd
import Mathlib.MeasureTheory.Function.L2Space
import Mathlib.MeasureTheory.Measure.Decomposition.RadonNikodym

/-! Convergence of a reversible Markov chain that can reach everything in one step (for C130). -/

namespace Poco
open MeasureTheory ProbabilityTheory Filter Topology
open scoped ENNReal

variable {E : Type*} [MeasurableSpace E]

/-- Bounded measurable. -/
def BM (f : E → ℝ) : Prop := Measurable f ∧ ∃ M, ∀ x, |f x| ≤ M

theorem BM.integrable {f : E → ℝ} (h : BM f) (μ : Measure E) [IsFiniteMeasure μ] : Integrable f μ := by
  obtain ⟨M, hM⟩ := h.2
  exact Integrable.of_bound h.1.aestronglyMeasurable M (ae_of_all _ fun x => by simpa using hM x)

theorem BM.mul {f g : E → ℝ} (hf : BM f) (hg : BM g) : BM fun x => f x * g x := by
  obtain ⟨M, hM⟩ := hf.2
  obtain ⟨N, hN⟩ := hg.2
  refine ⟨hf.1.mul hg.1, M * N, fun x => ?_⟩
  rw [abs_mul]
  exact mul_le_mul (hM x) (hN x) (abs_nonneg _) ((abs_nonneg _).trans (hM x))

theorem BM.sub {f g : E → ℝ} (hf : BM f) (hg : BM g) : BM fun x => f x - g x := by
  obtain ⟨M, hM⟩ := hf.2
  obtain ⟨N, hN⟩ := hg.2
  exact ⟨hf.1.sub hg.1, M + N, fun x => (abs_sub _ _).trans (add_le_add (hM x) (hN x))⟩

theorem BM.const (c : ℝ) : BM fun _ : E => c := ⟨measurable_const, |c|, fun _ => le_rfl⟩

theorem BM.sq {f : E → ℝ} (hf : BM f) : BM fun x => f x ^ 2 := by
  have := hf.mul hf
  simpa only [pow_two] using this

theorem BM.indicator {C : Set E} (hC : MeasurableSet C) : BM (C.indicator fun _ => (1 : ℝ)) := by
  refine ⟨measurable_const.indicator hC, 1, fun x => ?_⟩
  by_cases h : x ∈ C <;> simp [h]

theorem integral_comb {p q r : E → ℝ} (hp : BM p) (hq : BM q) (hr : BM r) (μ : Measure E) [IsFiniteMeasure μ] :
    ∫ x, (p x - 2 * q x + r x) ∂μ = ∫ x, p x ∂μ - 2 * ∫ x, q x ∂μ + ∫ x, r x ∂μ := by
  have h1 : Integrable (fun x => 2 * q x) μ := (hq.integrable μ).const_mul 2
  have h2 : Integrable (fun x => p x - 2 * q x) μ := (hp.integrable μ).sub h1
  rw [integral_add h2 (hr.integrable μ), integral_sub (hp.integrable μ) h1, integral_const_mul]

variable (κ : Kernel E E)

/-- The average of `f` after one step. -/
noncomputable def avg (f : E → ℝ) (x : E) : ℝ := ∫ y, f y ∂κ x

variable {κ} [IsMarkovKernel κ] {π : Measure E} [IsProbabilityMeasure π]

theorem BM.average {f : E → ℝ} (hf : BM f) : BM (avg κ f) := by
  obtain ⟨M, hM⟩ := hf.2
  refine ⟨(hf.1.stronglyMeasurable.integral_kernel (κ := κ)).measurable, M, fun x => ?_⟩
  have := norm_integral_le_of_norm_le_const (μ := κ x) (f := f) (C := M) (ae_of_all _ fun y => by simpa using hM y)
  simpa [avg] using this

theorem BM.iter {f : E → ℝ} (hf : BM f) (n : ℕ) : BM ((avg κ)^[n] f) := by
  induction n with
  | zero => exact hf
  | succ n ih => rw [Function.iterate_succ_apply']; exact ih.average

theorem avg_sub {f g : E → ℝ} (hf : BM f) (hg : BM g) : avg κ (fun x => f x - g x) = fun x => avg κ f x - avg κ g x :=
  funext fun x => integral_sub (hf.integrable (κ x)) (hg.integrable (κ x))

theorem avg_const (c : ℝ) : avg κ (fun _ => c) = fun _ => c := funext fun x => by simp [avg]

theorem avg_bound {f : E → ℝ} (hf : BM f) {M : ℝ} (hM : ∀ x, |f x| ≤ M) (x : E) : |avg κ f x| ≤ M := by
  have := norm_integral_le_of_norm_le_const (μ := κ x) (f := f) (C := M) (ae_of_all _ fun y => by simpa using hM y)
  simpa [avg] using this

theorem iter_bound {f : E → ℝ} (hf : BM f) {M : ℝ} (hM : ∀ x, |f x| ≤ M) (n : ℕ) (x : E) : |(avg κ)^[n] f x| ≤ M := by
  induction n generalizing x with
  | zero => exact hM x
  | succ n ih => rw [Function.iterate_succ_apply']; exact avg_bound (hf.iter n) ih x

/-- Integrals over a pair of successive states. -/
theorem pair_integral {f g : E → ℝ} (hf : BM f) (hg : BM g) :
    ∫ q, f q.1 * g q.2 ∂(π ⊗ₘ κ) = ∫ x, f x * avg κ g x ∂π := by
  have hfg : BM fun q : E × E => f q.1 * g q.2 := by
    obtain ⟨M, hM⟩ := hf.2
    obtain ⟨N, hN⟩ := hg.2
    exact BM.mul ⟨hf.1.comp measurable_fst, M, fun q => hM q.1⟩ ⟨hg.1.comp measurable_snd, N, fun q => hN q.2⟩
  rw [Measure.integral_compProd (hfg.integrable _)]
  simp only [integral_const_mul]
  rfl

theorem pair_swap (hrev : κ.IsReversible π) : (π ⊗ₘ κ).map Prod.swap = π ⊗ₘ κ := by
  apply Measure.ext_prod
  intro A B hA hB
  rw [Measure.map_apply measurable_swap (hA.prod hB), Set.preimage_swap_prod, Measure.compProd_apply_prod hB hA,
    Measure.compProd_apply_prod hA hB, hrev hB hA]

theorem avg_adjoint (hrev : κ.IsReversible π) {f g : E → ℝ} (hf : BM f) (hg : BM g) :
    ∫ x, f x * avg κ g x ∂π = ∫ x, avg κ f x * g x ∂π := by
  have h : BM fun q : E × E => f q.1 * g q.2 := by
    obtain ⟨M, hM⟩ := hf.2
    obtain ⟨N, hN⟩ := hg.2
    exact BM.mul ⟨hf.1.comp measurable_fst, M, fun q => hM q.1⟩ ⟨hg.1.comp measurable_snd, N, fun q => hN q.2⟩
  rw [← pair_integral hf hg, ← pair_swap hrev, integral_map measurable_swap.aemeasurable h.1.aestronglyMeasurable]
  simp only [Prod.fst_swap, Prod.snd_swap]
  have := pair_integral (κ := κ) (π := π) hg hf
  simp only [mul_comm (g _)] at this
  rw [this]

theorem iter_adjoint (hrev : κ.IsReversible π) {f g : E → ℝ} (hf : BM f) (hg : BM g) (n : ℕ) :
    ∫ x, f x * (avg κ)^[n] g x ∂π = ∫ x, (avg κ)^[n] f x * g x ∂π := by
  induction n generalizing f with
  | zero => rfl
  | succ n ih =>
    rw [Function.iterate_succ_apply', avg_adjoint hrev hf (hg.iter n), ih hf.average, ← Function.iterate_succ_apply]

theorem avg_integral (hrev : κ.IsReversible π) {f : E → ℝ} (hf : BM f) : ∫ x, avg κ f x ∂π = ∫ x, f x ∂π := by
  have := avg_adjoint hrev (BM.const 1) hf
  rw [avg_const] at this
  simpa using this

theorem iter_integral (hrev : κ.IsReversible π) {f : E → ℝ} (hf : BM f) (n : ℕ) : ∫ x, (avg κ)^[n] f x ∂π = ∫ x, f x ∂π := by
  induction n with
  | zero => rfl
  | succ n ih => rw [Function.iterate_succ_apply', avg_integral hrev (hf.iter n), ih]

/-- Squared distance between the state and the state after one step, through two functions. -/
theorem pair_sq (hrev : κ.IsReversible π) {f g : E → ℝ} (hf : BM f) (hg : BM g) :
    ∫ q, (f q.1 - g q.2) ^ 2 ∂(π ⊗ₘ κ) = ∫ x, f x ^ 2 ∂π - 2 * ∫ x, f x * avg κ g x ∂π + ∫ x, g x ^ 2 ∂π := by
  have h1 : BM fun q : E × E => f q.1 := by obtain ⟨M, hM⟩ := hf.2; exact ⟨hf.1.comp measurable_fst, M, fun q => hM q.1⟩
  have h2 : BM fun q : E × E => g q.2 := by obtain ⟨M, hM⟩ := hg.2; exact ⟨hg.1.comp measurable_snd, M, fun q => hM q.2⟩
  have e : ∀ q : E × E, (f q.1 - g q.2) ^ 2 = f q.1 ^ 2 - 2 * (f q.1 * g q.2) + g q.2 ^ 2 := fun q => by ring
  simp only [e]
  rw [integral_comb h1.sq (h1.mul h2) h2.sq, pair_integral hf hg]
  have a1 := pair_integral (κ := κ) (π := π) hf.sq (BM.const 1)
  have a2 := pair_integral (κ := κ) (π := π) (BM.const 1) hg.sq
  simp only [one_mul, mul_one, avg_const] at a1 a2
  rw [a1, a2, avg_integral hrev hg.sq]

theorem avg_contracts (hrev : κ.IsReversible π) {f : E → ℝ} (hf : BM f) : ∫ x, avg κ f x ^ 2 ∂π ≤ ∫ x, f x ^ 2 ∂π := by
  have h := pair_sq hrev (hf.average (κ := κ)) hf
  have h0 : 0 ≤ ∫ q, (avg κ f q.1 - f q.2) ^ 2 ∂(π ⊗ₘ κ) := integral_nonneg fun q => sq_nonneg _
  simp only [← pow_two] at h
  linarith

theorem sq_dist_iter (hrev : κ.IsReversible π) {f : E → ℝ} (hf : BM f) (m n : ℕ) :
    ∫ x, ((avg κ)^[m] f x - (avg κ)^[n] f x) ^ 2 ∂π =
      ∫ x, f x * (avg κ)^[m + m] f x ∂π - 2 * ∫ x, f x * (avg κ)^[m + n] f x ∂π + ∫ x, f x * (avg κ)^[n + n] f x ∂π := by
  have hm := hf.iter (κ := κ) m
  have hn := hf.iter (κ := κ) n
  have e : ∀ x, ((avg κ)^[m] f x - (avg κ)^[n] f x) ^ 2 =
      (avg κ)^[m] f x * (avg κ)^[m] f x - 2 * ((avg κ)^[m] f x * (avg κ)^[n] f x) + (avg κ)^[n] f x * (avg κ)^[n] f x := fun x => by ring
  simp only [e]
  rw [integral_comb (hm.mul hm) (hm.mul hn) (hn.mul hn),
    ← iter_adjoint hrev hf hm, ← iter_adjoint hrev hf hn, ← iter_adjoint hrev hf hn, ← Function.iterate_add_apply, ← Function.iterate_add_apply,
    ← Function.iterate_add_apply]

/-- Two reals are as close as the integrals of squares say. -/
theorem sq_norm_toLp {f : E → ℝ} (h : MemLp f 2 π) : ‖h.toLp f‖ ^ 2 = ∫ x, f x ^ 2 ∂π := by
  rw [← real_inner_self_eq_norm_sq, L2.inner_def]
  refine integral_congr_ae ?_
  filter_upwards [h.coeFn_toLp] with x hx
  rw [hx]
  simp [pow_two]

theorem BM.memLp {f : E → ℝ} (hf : BM f) : MemLp f 2 π := by
  obtain ⟨M, hM⟩ := hf.2
  exact MemLp.of_bound hf.1.aestronglyMeasurable M (ae_of_all _ fun x => by simpa using hM x)

/-- The even iterates have a bounded limit in mean square. -/
theorem even_limit (hrev : κ.IsReversible π) {f : E → ℝ} (hf : BM f) :
    ∃ g, BM g ∧ Tendsto (fun i => ∫ x, ((avg κ)^[2 * i] f x - g x) ^ 2 ∂π) atTop (𝓝 0) := by
  obtain ⟨M, hM⟩ := hf.2
  let a : ℕ → ℝ := fun j => ∫ x, f x * (avg κ)^[j + j] f x ∂π
  have ha : ∀ j, a j = ∫ x, (avg κ)^[j] f x ^ 2 ∂π := by
    intro j
    show ∫ x, f x * (avg κ)^[j + j] f x ∂π = _
    rw [Function.iterate_add_apply, iter_adjoint hrev hf (hf.iter j)]
    simp only [pow_two]
  have hanti : Antitone a := by
    refine antitone_nat_of_succ_le fun j => ?_
    rw [ha, ha, Function.iterate_succ_apply']
    exact avg_contracts hrev (hf.iter j)
  have hbelow : BddBelow (Set.range a) := ⟨0, by rintro _ ⟨j, rfl⟩; rw [ha]; exact integral_nonneg fun x => sq_nonneg _⟩
  obtain ⟨l, hl⟩ : ∃ l, Tendsto a atTop (𝓝 l) := ⟨_, tendsto_atTop_ciInf hanti hbelow⟩
  have hlow : ∀ j, l ≤ a j := fun j => hanti.le_of_tendsto hl j
  have hdist : ∀ i j, ∫ x, ((avg κ)^[2 * i] f x - (avg κ)^[2 * j] f x) ^ 2 ∂π = a (2 * i) - 2 * a (i + j) + a (2 * j) := by
    intro i j
    rw [sq_dist_iter hrev hf]
    show _ = a _ - 2 * (∫ x, f x * (avg κ)^[i + j + (i + j)] f x ∂π) + a _
    rw [show 2 * i + 2 * j = i + j + (i + j) by ring]
  let u : ℕ → Lp ℝ 2 π := fun i => (hf.iter (κ := κ) (2 * i)).memLp.toLp _
  have hu : CauchySeq u := by
    rw [Metric.cauchySeq_iff]
    intro ε hε
    have h1 : ∀ᶠ j in atTop, a j < l + ε ^ 2 / 2 := hl.eventually_lt_const (by linarith [show 0 < ε ^ 2 / 2 by positivity])
    obtain ⟨N, hN⟩ := eventually_atTop.mp h1
    refine ⟨N, fun i hi j hj => ?_⟩
    rw [dist_eq_norm]
    have h2 : ‖u i - u j‖ ^ 2 < ε ^ 2 := by
      have e1 : u i - u j = ((hf.iter (κ := κ) (2 * i)).sub (hf.iter (κ := κ) (2 * j))).memLp.toLp _ :=
        (MemLp.toLp_sub _ _).symm
      rw [e1, sq_norm_toLp, hdist]
      have b1 := hN (2 * i) (by omega)
      have b2 := hN (2 * j) (by omega)
      have b3 := hlow (i + j)
      linarith
    exact lt_of_pow_lt_pow_left₀ 2 hε.le h2
  obtain ⟨G, hG⟩ := cauchySeq_tendsto_of_complete hu
  have hGm : Measurable (fun x => G x) := (Lp.stronglyMeasurable G).measurable
  let g : E → ℝ := fun x => max (-|M|) (min |M| (G x))
  have hg : BM g := by
    refine ⟨measurable_const.max (measurable_const.min hGm), |M|, fun x => ?_⟩
    rw [abs_le]
    exact ⟨le_max_left _ _, max_le (by linarith [abs_nonneg M]) (min_le_left _ _)⟩
  refine ⟨g, hg, ?_⟩
  have hlim : Tendsto (fun i => ‖u i - G‖ ^ 2) atTop (𝓝 0) := by
    have := (tendsto_iff_norm_sub_tendsto_zero.mp hG).pow 2
    simpa using this
  refine squeeze_zero (fun i => integral_nonneg fun x => sq_nonneg _) (fun i => ?_) hlim
  have hi := hf.iter (κ := κ) (2 * i)
  have e1 : ‖u i - G‖ ^ 2 = ∫ x, ((avg κ)^[2 * i] f x - G x) ^ 2 ∂π := by
    have hmem : MemLp (fun x => (avg κ)^[2 * i] f x - G x) 2 π := hi.memLp.sub (Lp.memLp G)
    rw [← sq_norm_toLp hmem]
    congr 2
    have : G = (Lp.memLp G).toLp (fun x => G x) := (Lp.toLp_coeFn G (Lp.memLp G)).symm
    conv_lhs => rw [this]
    exact (MemLp.toLp_sub hi.memLp (Lp.memLp G)).symm
  rw [e1]
  have hmem : MemLp (fun x => (avg κ)^[2 * i] f x - G x) 2 π := hi.memLp.sub (Lp.memLp G)
  refine integral_mono ((hi.sub hg).sq.integrable π) hmem.integrable_sq fun x => ?_
  have b := abs_le.mp ((iter_bound (κ := κ) hf hM (2 * i) x).trans (le_abs_self M))
  have key : |(avg κ)^[2 * i] f x - g x| ≤ |(avg κ)^[2 * i] f x - G x| := by
    generalize (avg κ)^[2 * i] f x = y at *
    show |y - max (-|M|) (min |M| (G x))| ≤ _
    have hK : 0 ≤ |M| := abs_nonneg M
    clear_value g u a
    generalize |M| = K at *
    rcases le_total (G x) (-K) with h | h
    · rw [min_eq_right (by linarith), max_eq_left h, abs_of_nonneg (by linarith), abs_of_nonneg (by linarith)]; linarith
    · rcases le_total (G x) K with h' | h'
      · rw [min_eq_right h', max_eq_right h]
      · rw [min_eq_left h', max_eq_right (by linarith), abs_of_nonpos (by linarith), abs_of_nonpos (by linarith)]; linarith
  exact sq_le_sq.mpr key

/-- Everything can be reached in one step, from almost everywhere. -/
def Reach (κ : Kernel E E) (π : Measure E) : Prop := ∀ᵐ x ∂π, ∀ C, MeasurableSet C → π C ≠ 0 → κ x C ≠ 0

/-- A bounded function that two steps leave as it is on average is constant. -/
theorem fixed_const (hrev : κ.IsReversible π) (hreach : Reach κ π) {g : E → ℝ} (hg : BM g) (hfix : avg κ (avg κ g) =ᵐ[π] g) :
    ∃ c, g =ᵐ[π] fun _ => c := by
  have hh := hg.average (κ := κ)
  have e1 : ∫ x, g x * avg κ (avg κ g) x ∂π = ∫ x, g x ^ 2 ∂π := by
    refine integral_congr_ae ?_
    filter_upwards [hfix] with x hx
    rw [hx]; ring
  have e2 : ∫ x, avg κ g x ^ 2 ∂π = ∫ x, g x ^ 2 ∂π := by
    rw [← e1, avg_adjoint hrev hg hh]
    simp only [pow_two]
  have e3 := pair_sq hrev hg hh
  rw [e1, e2] at e3
  have e4 : ∫ q, (g q.1 - avg κ g q.2) ^ 2 ∂(π ⊗ₘ κ) = 0 := by rw [e3]; ring
  have hBM : BM fun q : E × E => g q.1 - avg κ g q.2 := by
    obtain ⟨M, hM⟩ := hg.2
    obtain ⟨N, hN⟩ := hh.2
    exact BM.sub ⟨hg.1.comp measurable_fst, M, fun q => hM q.1⟩ ⟨hh.1.comp measurable_snd, N, fun q => hN q.2⟩
  have e5 : (fun q : E × E => (g q.1 - avg κ g q.2) ^ 2) =ᵐ[π ⊗ₘ κ] 0 :=
    (integral_eq_zero_iff_of_nonneg (fun q => sq_nonneg _) (hBM.sq.integrable _)).mp e4
  have e6 := Measure.ae_ae_of_ae_compProd e5
  have e7 : ∀ᵐ x ∂π, π {y | avg κ g y ≠ g x} = 0 := by
    filter_upwards [e6, hreach] with x hx hr
    by_contra hc
    have hms : MeasurableSet {y | avg κ g y ≠ g x} := (measurableSet_eq_fun hh.1 measurable_const).compl
    refine hr _ hms hc ?_
    rw [ae_iff] at hx
    convert hx using 2
    ext y
    simp only [Set.mem_setOf_eq, Pi.zero_apply]
    constructor
    · intro h h0
      exact h (by have := pow_eq_zero_iff (two_ne_zero) |>.mp h0; linarith)
    · intro h h0
      exact h (by rw [h0]; ring)
  have hex : ∃ x, π {y | avg κ g y ≠ g x} = 0 := e7.exists
  obtain ⟨x₀, hx₀⟩ := hex
  refine ⟨g x₀, ?_⟩
  filter_upwards [e7] with x hx
  by_contra hne
  have : (Set.univ : Set E) ⊆ {y | avg κ g y ≠ g x} ∪ {y | avg κ g y ≠ g x₀} := by
    intro y _
    by_cases hy : avg κ g y = g x
    · exact Or.inr fun h => hne (by rw [← hy, h])
    · exact Or.inl hy
  have h1 := measure_mono (μ := π) this
  have h2 := measure_union_le (μ := π) {y | avg κ g y ≠ g x} {y | avg κ g y ≠ g x₀}
  rw [hx, hx₀, add_zero] at h2
  rw [measure_univ] at h1
  exact absurd (h1.trans h2) (by simp)

/-- Averages after many steps are close, in mean square, to the average under `π`. -/
theorem avg_converges (hrev : κ.IsReversible π) (hreach : Reach κ π) {f : E → ℝ} (hf : BM f) :
    Tendsto (fun n => ∫ x, ((avg κ)^[n] f x - ∫ y, f y ∂π) ^ 2 ∂π) atTop (𝓝 0) := by
  obtain ⟨g, hg, hlim⟩ := even_limit hrev hf
  have hsq2 : ∀ {p q r : E → ℝ}, BM p → BM q → BM r → ∫ x, (p x - r x) ^ 2 ∂π ≤ 2 * ∫ x, (p x - q x) ^ 2 ∂π + 2 * ∫ x, (q x - r x) ^ 2 ∂π := by
    intro p q r hp hq hr
    rw [← integral_const_mul, ← integral_const_mul, ← integral_add (((hp.sub hq).sq.integrable π).const_mul 2) (((hq.sub hr).sq.integrable π).const_mul 2)]
    refine integral_mono ((hp.sub hr).sq.integrable π) ((((hp.sub hq).sq.integrable π).const_mul 2).add (((hq.sub hr).sq.integrable π).const_mul 2)) fun x => ?_
    show _ ≤ 2 * (p x - q x) ^ 2 + 2 * (q x - r x) ^ 2
    nlinarith [sq_nonneg (p x - q x - (q x - r x))]
  have hfix : avg κ (avg κ g) =ᵐ[π] g := by
    have hgg := (hg.average (κ := κ)).average (κ := κ)
    have h0 : ∫ x, (avg κ (avg κ g) x - g x) ^ 2 ∂π ≤ 0 := by
      have hb : ∀ i, ∫ x, (avg κ (avg κ g) x - g x) ^ 2 ∂π ≤
          2 * ∫ x, ((avg κ)^[2 * i] f x - g x) ^ 2 ∂π + 2 * ∫ x, ((avg κ)^[2 * (i + 1)] f x - g x) ^ 2 ∂π := by
        intro i
        have hi := hf.iter (κ := κ) (2 * i)
        refine (hsq2 hgg (hf.iter (κ := κ) (2 * (i + 1))) hg).trans (add_le_add ?_ le_rfl)
        refine mul_le_mul_of_nonneg_left ?_ (by norm_num)
        have e1 : (avg κ)^[2 * (i + 1)] f = avg κ (avg κ ((avg κ)^[2 * i] f)) := by
          rw [show 2 * (i + 1) = (2 * i + 1) + 1 by ring, Function.iterate_succ_apply', Function.iterate_succ_apply']
        have e2 : (fun x => avg κ (avg κ g) x - avg κ (avg κ ((avg κ)^[2 * i] f)) x) = avg κ (avg κ (fun x => g x - (avg κ)^[2 * i] f x)) := by
          rw [avg_sub hg hi, avg_sub hg.average hi.average]
        have e3 : ∫ x, (avg κ (avg κ g) x - (avg κ)^[2 * (i + 1)] f x) ^ 2 ∂π = ∫ x, avg κ (avg κ (fun x => g x - (avg κ)^[2 * i] f x)) x ^ 2 ∂π := by
          rw [e1, ← e2]
        rw [e3]
        refine ((avg_contracts hrev (hg.sub hi).average).trans (avg_contracts hrev (hg.sub hi))).trans (le_of_eq ?_)
        refine integral_congr_ae (ae_of_all _ fun x => ?_)
        show (g x - (avg κ)^[2 * i] f x) ^ 2 = ((avg κ)^[2 * i] f x - g x) ^ 2
        ring
      have hl2 : Tendsto (fun i => 2 * ∫ x, ((avg κ)^[2 * i] f x - g x) ^ 2 ∂π + 2 * ∫ x, ((avg κ)^[2 * (i + 1)] f x - g x) ^ 2 ∂π) atTop (𝓝 0) := by
        have := (hlim.const_mul 2).add ((hlim.comp (tendsto_add_atTop_nat 1)).const_mul 2)
        simpa using this
      exact ge_of_tendsto' hl2 hb
    have h1 : ∫ x, (avg κ (avg κ g) x - g x) ^ 2 ∂π = 0 := le_antisymm h0 (integral_nonneg fun x => sq_nonneg _)
    have h2 := (integral_eq_zero_iff_of_nonneg (fun x => sq_nonneg _) ((hgg.sub hg).sq.integrable π)).mp h1
    filter_upwards [h2] with x hx
    have := pow_eq_zero_iff (two_ne_zero) |>.mp hx
    linarith
  obtain ⟨c, hc⟩ := fixed_const hrev hreach hg hfix
  have hlim' : Tendsto (fun i => ∫ x, ((avg κ)^[2 * i] f x - c) ^ 2 ∂π) atTop (𝓝 0) := by
    refine hlim.congr fun i => integral_congr_ae ?_
    filter_upwards [hc] with x hx
    rw [hx]
  have hcI : c = ∫ y, f y ∂π := by
    -- (mean - c)² ≤ mean of squares
    have hb : ∀ i, (∫ y, f y ∂π - c) ^ 2 ≤ ∫ x, ((avg κ)^[2 * i] f x - c) ^ 2 ∂π := by
      intro i
      have hi := hf.iter (κ := κ) (2 * i)
      set m := ∫ y, f y ∂π with hmdef
      have h1 : 0 ≤ ∫ x, ((avg κ)^[2 * i] f x - m) ^ 2 ∂π := integral_nonneg fun x => sq_nonneg _
      have h2 : ∫ x, ((avg κ)^[2 * i] f x - c) ^ 2 ∂π = ∫ x, ((avg κ)^[2 * i] f x - m) ^ 2 ∂π + (m - c) ^ 2 := by
        have e : ∀ x, ((avg κ)^[2 * i] f x - c) ^ 2 = ((avg κ)^[2 * i] f x - m) ^ 2 - 2 * ((c - m) * ((avg κ)^[2 * i] f x - m)) + (m - c) ^ 2 := fun x => by ring
        simp only [e]
        rw [integral_comb (hi.sub (BM.const m)).sq ((BM.const (c - m)).mul (hi.sub (BM.const m))) (BM.const _), integral_const_mul,
          integral_sub (hi.integrable π) (integrable_const _), iter_integral hrev hf]
        simp [hmdef]
      linarith
    have h0 : (∫ y, f y ∂π - c) ^ 2 ≤ 0 := ge_of_tendsto' hlim' hb
    have := pow_eq_zero_iff (two_ne_zero) |>.mp (le_antisymm h0 (sq_nonneg _))
    linarith
  rw [hcI] at hlim'
  set m := ∫ y, f y ∂π
  have hanti : Antitone fun n => ∫ x, ((avg κ)^[n] f x - m) ^ 2 ∂π := by
    refine antitone_nat_of_succ_le fun n => ?_
    have h1 := avg_contracts (κ := κ) hrev ((hf.iter (κ := κ) n).sub (BM.const m))
    rw [avg_sub (hf.iter n) (BM.const m), avg_const, ← Function.iterate_succ_apply' (avg κ)] at h1
    exact h1
  rw [Metric.tendsto_atTop]
  intro ε hε
  obtain ⟨N, hN⟩ := Metric.tendsto_atTop.mp hlim' ε hε
  refine ⟨2 * N, fun n hn => ?_⟩
  have h1 := hN N le_rfl
  rw [Real.dist_0_eq_abs, abs_of_nonneg (integral_nonneg fun x => sq_nonneg _)] at h1 ⊢
  exact (hanti hn).trans_lt h1

/-! ### Distributions after many steps -/

theorem avg_indicator {C : Set E} (hC : MeasurableSet C) (x : E) : avg κ (C.indicator fun _ => (1 : ℝ)) x = (κ x C).toReal := by
  unfold avg
  rw [integral_indicator hC]
  simp [Measure.real]

theorem iter_nonneg {f : E → ℝ} (hf0 : ∀ x, 0 ≤ f x) (n : ℕ) (x : E) : 0 ≤ (avg κ)^[n] f x := by
  induction n generalizing x with
  | zero => exact hf0 x
  | succ n ih => rw [Function.iterate_succ_apply']; exact integral_nonneg ih

/-- One step from a bounded density. -/
theorem step_density (hrev : κ.IsReversible π) {f : E → ℝ} (hf : BM f) (hf0 : ∀ x, 0 ≤ f x) {C : Set E} (hC : MeasurableSet C) :
    ∫⁻ x, κ x C ∂(π.withDensity fun x => ENNReal.ofReal (f x)) = (π.withDensity fun x => ENNReal.ofReal (avg κ f x)) C := by
  have hav0 : ∀ x, 0 ≤ avg κ f x := fun x => integral_nonneg hf0
  have hm : Measurable fun x => ENNReal.ofReal (f x) := hf.1.ennreal_ofReal
  have hI := BM.indicator hC
  rw [lintegral_withDensity_eq_lintegral_mul _ hm (Kernel.measurable_coe κ hC), withDensity_apply _ hC, ← lintegral_indicator hC]
  have e1 : ∀ x, ((fun x => ENNReal.ofReal (f x)) * fun x => κ x C) x = ENNReal.ofReal (f x * avg κ (C.indicator fun _ => (1 : ℝ)) x) := by
    intro x
    rw [avg_indicator hC, ENNReal.ofReal_mul (hf0 x), ENNReal.ofReal_toReal (measure_ne_top _ _)]
    rfl
  have e2 : ∀ x, C.indicator (fun x => ENNReal.ofReal (avg κ f x)) x = ENNReal.ofReal (avg κ f x * C.indicator (fun _ => (1 : ℝ)) x) := by
    intro x
    by_cases h : x ∈ C <;> simp [h]
  simp only [e1, e2]
  rw [← ofReal_integral_eq_lintegral_ofReal ((hf.mul hI.average).integrable π) (ae_of_all _ fun x => ?_),
    ← ofReal_integral_eq_lintegral_ofReal ((hf.average.mul hI).integrable π) (ae_of_all _ fun x => ?_), avg_adjoint hrev hf hI]
  · exact mul_nonneg (hav0 x) (Set.indicator_nonneg (fun _ _ => zero_le_one) x)
  · exact mul_nonneg (hf0 x) (integral_nonneg fun y => Set.indicator_nonneg (fun _ _ => zero_le_one) y)

/-- From a bounded density. -/
theorem bounded_converges (hrev : κ.IsReversible π) (hreach : Reach κ π) {f : E → ℝ} (hf : BM f) (hf0 : ∀ x, 0 ≤ f x) {ε : ℝ} (hε : 0 < ε) :
    ∃ N, ∀ n ≥ N, ∀ C, MeasurableSet C →
      |((π.withDensity fun x => ENNReal.ofReal ((avg κ)^[n] f x)) C).toReal - (∫ x, f x ∂π) * (π C).toReal| ≤ ε := by
  obtain ⟨N, hN⟩ := Metric.tendsto_atTop.mp (avg_converges hrev hreach hf) (ε ^ 2) (by positivity)
  refine ⟨N, fun n hn C hC => ?_⟩
  have h1 := hN n hn
  rw [Real.dist_0_eq_abs, abs_of_nonneg (integral_nonneg fun x => sq_nonneg _)] at h1
  set m := ∫ x, f x ∂π
  have hi := hf.iter (κ := κ) n
  have e1 : ((π.withDensity fun x => ENNReal.ofReal ((avg κ)^[n] f x)) C).toReal = ∫ x in C, (avg κ)^[n] f x ∂π := by
    rw [withDensity_apply _ hC, ← ofReal_integral_eq_lintegral_ofReal (hi.integrable _) (ae_of_all _ fun x => iter_nonneg hf0 n x),
      ENNReal.toReal_ofReal (integral_nonneg fun x => iter_nonneg hf0 n x)]
  have e2 : m * (π C).toReal = ∫ x in C, m ∂π := by simp [Measure.real, mul_comm]
  rw [e1, e2, ← integral_sub (hi.integrable _) (integrable_const _)]
  have hw := hi.sub (BM.const m)
  calc |∫ x in C, ((avg κ)^[n] f x - m) ∂π| ≤ ∫ x in C, |(avg κ)^[n] f x - m| ∂π := abs_integral_le_integral_abs
    _ ≤ ∫ x, |(avg κ)^[n] f x - m| ∂π :=
        setIntegral_le_integral (hw.integrable π).abs (ae_of_all _ fun x => abs_nonneg _)
    _ ≤ ∫ x, ((((avg κ)^[n] f x - m) ^ 2) * (1 / (2 * ε)) + ε / 2) ∂π := by
        refine integral_mono (hw.integrable π).abs (((hw.sq.integrable π).mul_const _).add (integrable_const _)) fun x => ?_
        show |(avg κ)^[n] f x - m| ≤ ((avg κ)^[n] f x - m) ^ 2 * (1 / (2 * ε)) + ε / 2
        rw [← sq_abs ((avg κ)^[n] f x - m)]
        generalize |(avg κ)^[n] f x - m| = t
        have : t ^ 2 * (1 / (2 * ε)) + ε / 2 - t = (t - ε) ^ 2 / (2 * ε) := by field_simp; ring
        have h0 : 0 ≤ (t - ε) ^ 2 / (2 * ε) := by positivity
        linarith
    _ = (∫ x, ((avg κ)^[n] f x - m) ^ 2 ∂π) * (1 / (2 * ε)) + ε / 2 := by
        rw [integral_add ((hw.sq.integrable π).mul_const _) (integrable_const _), integral_mul_const]
        simp
    _ ≤ ε ^ 2 * (1 / (2 * ε)) + ε / 2 := add_le_add (mul_le_mul_of_nonneg_right h1.le (by positivity)) le_rfl
    _ = ε := by field_simp; ring

/-- **The convergence theorem.** Let a reversible chain be able to reach everything in one step from every point of a set `G` of full
measure, and let its steps from a point of `G` leave out every null set that does not contain the point. Then from every initial distribution on `G`
the distribution after `n` steps converges to `π`, uniformly over all sets. -/
theorem chain_converges (hrev : κ.IsReversible π) {G : Set E} (hG : MeasurableSet G) (hGπ : π Gᶜ = 0)
    (hreach : ∀ x ∈ G, ∀ C, MeasurableSet C → π C ≠ 0 → κ x C ≠ 0)
    (hac : ∀ x ∈ G, ∀ C, MeasurableSet C → π C = 0 → x ∉ C → κ x C = 0)
    (μ : ℕ → Measure E) [∀ n, IsProbabilityMeasure (μ n)] (hμ0 : μ 0 Gᶜ = 0)
    (hμ : ∀ n C, MeasurableSet C → μ (n + 1) C = ∫⁻ x, κ x C ∂(μ n)) {ε : ℝ} (hε : 0 < ε) :
    ∃ N, ∀ n ≥ N, ∀ C, MeasurableSet C → |(μ n C).toReal - (π C).toReal| ≤ ε := by
  have hR : Reach κ π := by
    have : ∀ᵐ x ∂π, x ∈ G := by rw [ae_iff]; exact hGπ
    filter_upwards [this] with x hx
    exact hreach x hx
  have hGn : ∀ n, ∀ᵐ x ∂(μ n), x ∈ G := by
    intro n
    rw [ae_iff]
    show μ n Gᶜ = 0
    induction n with
    | zero => exact hμ0
    | succ n ih =>
      rw [hμ n _ hG.compl]
      have : ∀ᵐ x ∂(μ n), κ x Gᶜ = 0 := by
        have h : ∀ᵐ x ∂(μ n), x ∈ G := by rw [ae_iff]; exact ih
        filter_upwards [h] with x hx
        exact hac x hx _ hG.compl hGπ (fun h => h hx)
      rw [lintegral_congr_ae this, lintegral_zero]
  -- the mass that has not moved yet
  obtain ⟨Z, hZ, hZμ, hZπ⟩ : ∃ Z, MeasurableSet Z ∧ (∀ C, MeasurableSet C → π C = 0 → C ∩ Z = ∅ → μ 0 C = 0) ∧ π Z = 0 := by
    obtain ⟨Z, hZ, h1, h2⟩ := (Measure.mutuallySingular_singularPart (μ 0) π)
    refine ⟨Zᶜ, hZ.compl, fun C hC hC0 hdis => ?_, h2⟩
    have hsub : C ⊆ Z := by
      intro x hx
      by_contra hc
      have : x ∈ C ∩ Zᶜ := ⟨hx, hc⟩
      rw [hdis] at this
      exact this
    rw [Measure.haveLebesgueDecomposition_add (μ 0) π, Measure.add_apply, measure_mono_null hsub h1, zero_add]
    exact withDensity_absolutelyContinuous _ _ hC0
  let r : E → ℝ≥0∞ := fun x => κ x Z
  have hr : Measurable r := Kernel.measurable_coe κ hZ
  have hrC : ∀ x ∈ G, ∀ C, MeasurableSet C → C ⊆ Z → κ x C = C.indicator r x := by
    intro x hx C hC hCZ
    by_cases hxC : x ∈ C
    · rw [Set.indicator_of_mem hxC]
      have h1 : κ x (Z \ C) = 0 := hac x hx _ (hZ.diff hC) (measure_mono_null Set.diff_subset hZπ) (fun h => h.2 hxC)
      have h2 := measure_inter_add_diff (μ := κ x) Z hC
      rw [h1, add_zero, Set.inter_eq_right.mpr hCZ] at h2
      exact h2
    · rw [Set.indicator_of_notMem hxC]
      exact hac x hx _ hC (measure_mono_null hCZ hZπ) hxC
  have hstay : ∀ n, (μ n).restrict Z = ((μ 0).restrict Z).withDensity fun x => r x ^ n := by
    intro n
    induction n with
    | zero => simp
    | succ n ih =>
      ext C hC
      have e1 : ∫⁻ x, κ x (C ∩ Z) ∂(μ n) = ∫⁻ x, (C ∩ Z).indicator r x ∂(μ n) := by
        refine lintegral_congr_ae ?_
        filter_upwards [hGn n] with x hx
        exact hrC x hx _ (hC.inter hZ) Set.inter_subset_right
      rw [Measure.restrict_apply hC, hμ n _ (hC.inter hZ), e1, lintegral_indicator (hC.inter hZ), ← Measure.restrict_restrict hC, ih,
        withDensity_apply _ hC, restrict_withDensity hC, lintegral_withDensity_eq_lintegral_mul _ (hr.pow_const n) hr]
      refine lintegral_congr fun x => ?_
      show r x ^ n * r x = r x ^ (n + 1)
      rw [pow_succ]
  have hr1 : ∀ x ∈ G, r x < 1 := by
    intro x hx
    have h1 : κ x Zᶜ ≠ 0 := hreach x hx _ hZ.compl (by
      intro h
      have := prob_compl_eq_zero_iff hZ |>.mp h
      rw [hZπ] at this
      exact zero_ne_one this)
    refine lt_of_le_of_ne prob_le_one fun h => h1 ?_
    exact (prob_compl_eq_zero_iff hZ).mpr h
  have hvanish : Tendsto (fun n => μ n Z) atTop (𝓝 0) := by
    have e1 : ∀ n, μ n Z = ∫⁻ x in Z, r x ^ n ∂(μ 0) := by
      intro n
      have := congrArg (fun m : Measure E => m Set.univ) (hstay n)
      simpa [withDensity_apply] using this
    simp only [e1]
    have := tendsto_lintegral_of_dominated_convergence (μ := (μ 0).restrict Z) (F := fun n x => r x ^ n) (f := fun _ => 0) (fun _ => 1)
      (fun n => hr.pow_const n) (fun n => ae_of_all _ fun x => pow_le_one₀ zero_le prob_le_one) (by simp)
      (by
        filter_upwards [ae_restrict_of_ae (hGn 0)] with x hx
        exact ENNReal.tendsto_pow_atTop_nhds_zero_of_lt_one (hr1 x hx))
    simpa using this
  have hoff : ∀ n C, MeasurableSet C → π C = 0 → C ∩ Z = ∅ → μ n C = 0 := by
    intro n
    induction n with
    | zero => exact hZμ
    | succ n ih =>
      intro C hC h0 hd
      rw [hμ n C hC]
      have hz : ∀ᵐ x ∂(μ n), x ∉ C := by rw [ae_iff]; simpa using ih C hC h0 hd
      have : ∀ᵐ x ∂(μ n), κ x C = 0 := by
        filter_upwards [hGn n, hz] with x hx hxC
        exact hac x hx C hC h0 hxC
      rw [lintegral_congr_ae this, lintegral_zero]
  -- after `k` steps almost all of the mass has a density; cut it off at a bound
  obtain ⟨k, hk⟩ : ∃ k, μ k Z ≤ ENNReal.ofReal (ε / 5) :=
    ((hvanish.eventually_lt_const (ENNReal.ofReal_pos.mpr (show 0 < ε / 5 by positivity))).exists).imp fun _ h => h.le
  have hac' : (μ k).restrict Zᶜ ≪ π := by
    refine Measure.AbsolutelyContinuous.mk fun C hC h0 => ?_
    rw [Measure.restrict_apply hC]
    refine hoff k _ (hC.inter hZ.compl) (measure_mono_null Set.inter_subset_left h0) ?_
    ext x; simp
  let f' := ((μ k).restrict Zᶜ).rnDeriv π
  have hf' : Measurable f' := Measure.measurable_rnDeriv _ _
  have hf'd : π.withDensity f' = (μ k).restrict Zᶜ := Measure.withDensity_rnDeriv_eq _ _ hac'
  have hmono : Tendsto (fun M : ℕ => ∫⁻ x, min (f' x) M ∂π) atTop (𝓝 (∫⁻ x, f' x ∂π)) := by
    refine lintegral_tendsto_of_tendsto_of_monotone (fun M => (hf'.min measurable_const).aemeasurable) (ae_of_all _ fun x M N h => ?_) (ae_of_all _ fun x => ?_)
    · exact min_le_min le_rfl (by exact_mod_cast h)
    · have : Tendsto (fun M : ℕ => min (f' x) (M : ℝ≥0∞)) atTop (𝓝 (min (f' x) ⊤)) :=
        tendsto_const_nhds.min ENNReal.tendsto_nat_nhds_top
      simpa using this
  have hmass : ∫⁻ x, f' x ∂π = μ k Zᶜ := by
    have := congrArg (fun m : Measure E => m Set.univ) hf'd
    simpa [withDensity_apply] using this
  have hZc : (μ k Zᶜ).toReal = 1 - (μ k Z).toReal := by
    rw [prob_compl_eq_one_sub hZ, ENNReal.toReal_sub_of_le prob_le_one ENNReal.one_ne_top, ENNReal.toReal_one]
  have hkr : (μ k Z).toReal ≤ ε / 5 := ENNReal.toReal_le_of_le_ofReal (by positivity) hk
  obtain ⟨M, hM⟩ : ∃ M : ℕ, 1 - 2 * (ε / 5) ≤ (∫⁻ x, min (f' x) M ∂π).toReal := by
    have h1 : Tendsto (fun M : ℕ => (∫⁻ x, min (f' x) M ∂π).toReal) atTop (𝓝 (μ k Zᶜ).toReal) := by
      rw [hmass] at hmono
      exact (ENNReal.tendsto_toReal (measure_ne_top _ _)).comp hmono
    have h2 := h1.eventually_const_lt (show 1 - 2 * (ε / 5) < (μ k Zᶜ).toReal by linarith)
    exact h2.exists.imp fun _ h => h.le
  let F : E → ℝ := fun x => (min (f' x) M).toReal
  have hFe : ∀ x, ENNReal.ofReal (F x) = min (f' x) M := fun x =>
    ENNReal.ofReal_toReal (ne_top_of_le_ne_top (ENNReal.natCast_ne_top M) (min_le_right _ _))
  have hF0 : ∀ x, 0 ≤ F x := fun x => ENNReal.toReal_nonneg
  have hF : BM F := by
    refine ⟨(hf'.min measurable_const).ennreal_toReal, M, fun x => ?_⟩
    rw [abs_of_nonneg (hF0 x)]
    have := ENNReal.toReal_mono (ENNReal.natCast_ne_top M) (min_le_right (f' x) (M : ℝ≥0∞))
    simpa using this
  have hFm : ∫ x, F x ∂π = (∫⁻ x, min (f' x) M ∂π).toReal := by
    rw [integral_eq_lintegral_of_nonneg_ae (ae_of_all _ hF0) hF.1.aestronglyMeasurable]
    simp only [hFe]
  set m := ∫ x, F x ∂π with hm
  let lam : ℕ → Measure E := fun n => π.withDensity fun x => ENNReal.ofReal ((avg κ)^[n] F x)
  have hlam : ∀ n C, MeasurableSet C → lam (n + 1) C = ∫⁻ x, κ x C ∂(lam n) := by
    intro n C hC
    show (π.withDensity fun x => ENNReal.ofReal ((avg κ)^[n + 1] F x)) C = _
    rw [step_density hrev (hF.iter n) (iter_nonneg hF0 n) hC]
    simp only [Function.iterate_succ_apply']
  have hle : ∀ n, lam n ≤ μ (k + n) := by
    intro n
    induction n with
    | zero =>
      calc lam 0 = π.withDensity fun x => min (f' x) M := by show π.withDensity (fun x => ENNReal.ofReal (F x)) = _; simp only [hFe]
        _ ≤ π.withDensity f' := withDensity_mono (ae_of_all _ fun x => min_le_left _ _)
        _ = (μ k).restrict Zᶜ := hf'd
        _ ≤ μ k := Measure.restrict_le_self
    | succ n ih =>
      refine Measure.le_iff.mpr fun C hC => ?_
      rw [hlam n C hC, ← add_assoc, hμ _ C hC]
      exact lintegral_mono' ih le_rfl
  have hlm : ∀ n, (lam n Set.univ).toReal = m := by
    intro n
    have hi := hF.iter (κ := κ) n
    show ((π.withDensity fun x => ENNReal.ofReal ((avg κ)^[n] F x)) Set.univ).toReal = m
    rw [withDensity_apply _ MeasurableSet.univ, Measure.restrict_univ,
      ← ofReal_integral_eq_lintegral_ofReal (hi.integrable _) (ae_of_all _ fun x => iter_nonneg hF0 n x),
      ENNReal.toReal_ofReal (integral_nonneg fun x => iter_nonneg hF0 n x), iter_integral hrev hF]
  obtain ⟨N, hN⟩ := bounded_converges hrev hR hF hF0 (show 0 < ε / 5 by positivity)
  refine ⟨k + N, fun n' hn' C hC => ?_⟩
  obtain ⟨n, rfl⟩ := Nat.exists_eq_add_of_le ((Nat.le_add_right k N).trans hn')
  have c1 := hN n (by omega) C hC
  rw [← hm] at c1
  change |(lam n C).toReal - m * (π C).toReal| ≤ ε / 5 at c1
  have fin1 : ∀ B, lam n B ≠ ⊤ := fun B => ne_top_of_le_ne_top (measure_ne_top (μ (k + n)) B) (hle n B)
  have c2 : (lam n C).toReal ≤ (μ (k + n) C).toReal := ENNReal.toReal_mono (measure_ne_top _ _) (hle n C)
  have c3 : (lam n Cᶜ).toReal ≤ (μ (k + n) Cᶜ).toReal := ENNReal.toReal_mono (measure_ne_top _ _) (hle n Cᶜ)
  have c4 : (lam n C).toReal + (lam n Cᶜ).toReal = m := by
    rw [← hlm n, ← ENNReal.toReal_add (fin1 _) (fin1 _), measure_add_measure_compl hC]
  have c5 : (μ (k + n) C).toReal + (μ (k + n) Cᶜ).toReal = 1 := by
    rw [← ENNReal.toReal_add (measure_ne_top _ _) (measure_ne_top _ _), measure_add_measure_compl hC, measure_univ, ENNReal.toReal_one]
  have c6 : m ≤ 1 := by linarith
  have c7 : 1 - 2 * (ε / 5) ≤ m := by rw [hFm]; exact hM
  have p0 : 0 ≤ (π C).toReal := ENNReal.toReal_nonneg
  have p1 : (π C).toReal ≤ 1 := by
    have := ENNReal.toReal_mono ENNReal.one_ne_top (prob_le_one (μ := π) (s := C))
    simpa using this
  have c8 : m * (π C).toReal ≤ (π C).toReal := by
    have := mul_le_mul_of_nonneg_right c6 p0
    linarith
  have c9 : (π C).toReal - (1 - m) ≤ m * (π C).toReal := by
    have : (1 - m) * (π C).toReal ≤ (1 - m) * 1 := mul_le_mul_of_nonneg_left p1 (by linarith)
    linarith
  have c0 := abs_le.mp c1
  rw [abs_le]
  constructor <;> linarith

end Poco
