import Mathlib.Topology.MetricSpace.Pseudo.Basic
import Mathlib.Topology.UniformSpace.HeineCantor
import Mathlib.Topology.Order.Compact
import Verif.Props.Smc
import Verif.Spec.SmcAdapt

/-! Laws of large numbers that are uniform over totally bounded families of functions, for C133. -/

namespace Poco
open Spec MeasureTheory Filter Topology ProbabilityTheory

/-- The set `D` falls into finitely many parts such that any two members of the same part are related by `r`. -/
def Small {Q : Type*} (D : Set Q) (r : Q → Q → Prop) : Prop :=
  ∃ (ι : Type) (_ : Finite ι) (c : Q → ι), ∀ q ∈ D, ∀ q' ∈ D, c q = c q' → r q q'

section
variable {Q Q' : Type*} {D : Set Q}

theorem Small.mono {r s : Q → Q → Prop} (h : Small D r) (hs : ∀ q ∈ D, ∀ q' ∈ D, r q q' → s q q') : Small D s := by
  obtain ⟨ι, hf, c, hc⟩ := h
  exact ⟨ι, hf, c, fun q hq q' hq' e => hs q hq q' hq' (hc q hq q' hq' e)⟩

theorem Small.and {r s : Q → Q → Prop} (h : Small D r) (hs : Small D s) : Small D fun q q' => r q q' ∧ s q q' := by
  obtain ⟨ι, hf, c, hc⟩ := h
  obtain ⟨κ, hg, k, hk⟩ := hs
  refine ⟨ι × κ, inferInstance, fun q => (c q, k q), fun q hq q' hq' e => ?_⟩
  simp only [Prod.mk.injEq] at e
  exact ⟨hc q hq q' hq' e.1, hk q hq q' hq' e.2⟩

theorem Small.forall {T : ℕ} {r : Fin T → Q → Q → Prop} (h : ∀ t, Small D (r t)) : Small D fun q q' => ∀ t, r t q q' := by
  choose ι hf c hc using h
  refine ⟨∀ t, ι t, inferInstance, fun q t => c t q, fun q hq q' hq' e t => hc t q hq q' hq' (congrFun e t)⟩

theorem Small.comap {D' : Set Q'} {r : Q' → Q' → Prop} (h : Small D' r) (f : Q → Q') (hf : ∀ q ∈ D, f q ∈ D') : Small D fun q q' => r (f q) (f q') := by
  obtain ⟨ι, hfi, c, hc⟩ := h
  exact ⟨ι, hfi, fun q => c (f q), fun q hq q' hq' e => hc _ (hf q hq) _ (hf q' hq') e⟩

theorem small_of_totallyBounded {Q : Type*} [PseudoMetricSpace Q] {D : Set Q} (h : TotallyBounded D) {δ : ℝ} (hδ : 0 < δ) :
    Small D fun q q' => dist q q' < δ := by
  obtain ⟨t, ht, hc⟩ := Metric.totallyBounded_iff.mp h (δ / 2) (by positivity)
  have : Finite t := ht
  obtain ⟨n, ⟨e⟩⟩ := Finite.exists_equiv_fin t
  classical
  have hx : ∀ q, ∃ y : Option (Fin n), q ∈ D → ∃ i, y = some i ∧ dist q (e.symm i).1 < δ / 2 := by
    intro q
    by_cases hq : q ∈ D
    · obtain ⟨y, hy, hd⟩ := Set.mem_iUnion₂.mp (hc hq)
      exact ⟨some (e ⟨y, hy⟩), fun _ => ⟨_, rfl, by simpa using hd⟩⟩
    · exact ⟨none, fun h => absurd h hq⟩
  choose c hcc using hx
  refine ⟨Option (Fin n), inferInstance, c, fun q hq q' hq' he => ?_⟩
  obtain ⟨i, hi, h1⟩ := hcc q hq
  obtain ⟨j, hj, h2⟩ := hcc q' hq'
  rw [hi, hj] at he
  have : i = j := Option.some.inj he
  subst this
  have := dist_triangle_right q q' (e.symm i).1
  linarith

theorem small_unit {δ : ℝ} (hδ : 0 < δ) : Small (Set.Icc (0 : ℝ) 1) fun a b => |a - b| < δ := by
  have := small_of_totallyBounded (isCompact_Icc (a := (0 : ℝ)) (b := 1)).totallyBounded hδ
  exact this.mono fun a _ b _ h => by rwa [Real.dist_eq] at h

end

section
variable {α : Type*} [MeasurableSpace α] {Ω : ℕ → Type*} [∀ n, MeasurableSpace (Ω n)] {P : ∀ n, Measure (Ω n)}

/-- Closeness shown with finitely many quantities that may depend on how close one wants to be. -/
theorem within_of_closes {W : ∀ n, Ω n → ℝ} {w : ℝ}
    (h : ∀ ε > 0, ∃ (ι : Type) (_ : Fintype ι) (Y : ι → ∀ n, Ω n → ℝ) (c : ι → ℝ), (∀ k, NearlyWithin P (Y k) (c k)) ∧
      ∃ δ > 0, ∀ᶠ n in atTop, ∀ ω, (∀ k, |Y k n ω| < c k + δ) → |W n ω| < w + ε) : NearlyWithin P W w := by
  intro ε hε
  obtain ⟨ι, hι, Y, c, hY, δ, hδ, hcl⟩ := h ε hε
  have hsum : Tendsto (fun n => ∑ k, P n {ω | c k + δ ≤ |Y k n ω|}) atTop (𝓝 0) := by
    have := tendsto_finset_sum Finset.univ fun k (_ : k ∈ Finset.univ) => hY k δ hδ
    simpa using this
  refine tendsto_of_tendsto_of_tendsto_of_le_of_le' tendsto_const_nhds hsum (.of_forall fun _ => zero_le') ?_
  filter_upwards [hcl] with n hn
  refine (measure_mono ?_).trans (measure_iUnion_fintype_le (P n) fun k => {ω | c k + δ ≤ |Y k n ω|})
  intro ω hω
  by_contra hno
  simp only [Set.mem_iUnion, Set.mem_setOf_eq, not_exists, not_le] at hno
  exact absurd (hn ω hno) (not_lt.mpr hω)

theorem within_mono {Y : ∀ n, Ω n → ℝ} {c c' : ℝ} (h : NearlyWithin P Y c) (hc : c ≤ c') : NearlyWithin P Y c' :=
  within_of_closes fun ε hε => ⟨Unit, inferInstance, fun _ => Y, fun _ => c, fun _ => h, ε, hε, .of_forall fun n ω hω => (hω ()).trans_le (by linarith)⟩

theorem within_zero_iff {Y : ∀ n, Ω n → ℝ} {c : ℝ} : NearlyWithin P (fun n ω => Y n ω - c) 0 ↔ InProb P Y c := by
  simp [NearlyWithin, InProb]

theorem mean_close {n : ℕ} (hn : 0 < n) (g h : α → ℝ) (x : Fin n → α) (ε : ℝ) (hgh : ∀ y, |g y - h y| ≤ ε) :
    |(∑ i, g (x i)) / n - (∑ i, h (x i)) / n| ≤ ε := by
  have hnr : (0 : ℝ) < n := by exact_mod_cast hn
  rw [← sub_div, ← Finset.sum_sub_distrib, abs_div, abs_of_pos hnr, div_le_iff₀ hnr]
  refine (Finset.abs_sum_le_sum_abs _ _).trans ((Finset.sum_le_sum fun i _ => hgh (x i)).trans ?_)
  simp [mul_comm]

theorem tame_integrable (μ : Measure α) [IsProbabilityMeasure μ] {f : α → ℝ} (hf : Tame f) : Integrable f μ := by
  obtain ⟨hm, F, hF⟩ := hf
  exact Integrable.of_bound hm.aestronglyMeasurable F (.of_forall hF)

theorem integral_close (μ : Measure α) [IsProbabilityMeasure μ] {g h : α → ℝ} (hg : Tame g) (hh : Tame h) (ε : ℝ) (hgh : ∀ y, |g y - h y| ≤ ε) :
    |∫ y, g y ∂μ - ∫ y, h y ∂μ| ≤ ε := by
  rw [← integral_sub (tame_integrable μ hg) (tame_integrable μ hh)]
  have := norm_integral_le_of_norm_le_const (μ := μ) (f := fun y => g y - h y) (C := ε) (.of_forall hgh)
  simpa using this

/-- If averages over the particles follow the expectations for every single bounded function, they do so uniformly over totally bounded families. -/
theorem uniform_within {Q : Type*} (D : Set Q) (g : Q → α → ℝ) (hg : ∀ q ∈ D, Tame (g q))
    (hs : ∀ ε > 0, Small D fun q q' => ∀ y, |g q y - g q' y| ≤ ε) (X : ∀ n, ℕ → Ω n → α) (μ : ∀ n, Ω n → Measure α)
    (hμ : ∀ n, 0 < n → ∀ ω, IsProbabilityMeasure (μ n ω))
    (κ F : ℝ) (hF : ∀ q ∈ D, ∀ y, |g q y| ≤ F) (hF0 : 0 ≤ F)
    (hA : ∀ f, Tame f → (∀ y, |f y| ≤ F) → NearlyWithin P (fun n ω => (∑ i : Fin n, f (X n i ω)) / n - ∫ y, f y ∂(μ n ω)) (κ * F))
    (q : ∀ n, Ω n → Q) (hq : ∀ n, 0 < n → ∀ ω, q n ω ∈ D) :
    NearlyWithin P (fun n ω => (∑ i : Fin n, g (q n ω) (X n i ω)) / n - ∫ y, g (q n ω) y ∂(μ n ω)) (κ * F) := by
  apply within_of_closes
  intro ε hε
  obtain ⟨ι, hfi, c, hc⟩ := hs (ε / 4) (by positivity)
  classical
  have : Fintype ι := Fintype.ofFinite ι
  let rep : ι → α → ℝ := fun k => if h : ∃ p ∈ D, c p = k then g h.choose else fun _ => 0
  have hrep : ∀ k, Tame (rep k) := by
    intro k
    simp only [rep]
    split_ifs with h
    · exact hg _ h.choose_spec.1
    · exact ⟨measurable_const, 0, fun _ => by simp⟩
  have hrepF : ∀ k y, |rep k y| ≤ F := by
    intro k y
    simp only [rep]
    split_ifs with h
    · exact hF _ h.choose_spec.1 y
    · simpa using hF0
  have hclose : ∀ p ∈ D, ∀ y, |g p y - rep (c p) y| ≤ ε / 4 := by
    intro p hp y
    have h : ∃ p' ∈ D, c p' = c p := ⟨p, hp, rfl⟩
    simp only [rep, dif_pos h]
    exact hc p hp _ h.choose_spec.1 h.choose_spec.2.symm y
  refine ⟨ι, inferInstance, fun k n ω => (∑ i : Fin n, rep k (X n i ω)) / n - ∫ y, rep k y ∂(μ n ω), fun _ => κ * F, fun k => hA _ (hrep k) (hrepF k), ε / 4, by positivity, ?_⟩
  filter_upwards [eventually_gt_atTop 0] with n hn ω hω
  have := hμ n hn ω
  have hqD := hq n hn ω
  have a1 := mean_close hn (g (q n ω)) (rep (c (q n ω))) (fun i => X n i ω) _ (hclose _ hqD)
  have a2 := integral_close (μ n ω) (hg _ hqD) (hrep (c (q n ω))) _ (hclose _ hqD)
  have a3 := hω (c (q n ω))
  rw [abs_le] at a1 a2
  rw [abs_lt] at a3 ⊢
  constructor <;> linarith [a1.1, a1.2, a2.1, a2.2, a3.1, a3.2]

end

section
variable {α : Type*} [MeasurableSpace α] {T : ℕ}

/-- The summand as a function of numbers. -/
noncomputable def summandAt (T : ℕ) (p : ℝ × (Fin T → ℝ) × (Fin T → ℝ) × ℝ × ℝ) : ℝ :=
  Real.exp (p.1 * p.2.2.2.1) / ((∑ r, Real.exp (p.1 * p.2.1 r) / p.2.2.1 r) / T) * p.2.2.2.2

theorem summandAt_uniform (hT : 0 < T) (M F : ℝ) {ε : ℝ} (hε : 0 < ε) : ∃ δ > 0, ∀ x b Z β h x' b' Z' β' h',
    |x| ≤ M → (∀ r, 0 ≤ b r ∧ b r ≤ 1) → (∀ r, Real.exp (-M) ≤ Z r ∧ Z r ≤ Real.exp M) → 0 ≤ β ∧ β ≤ 1 → |h| ≤ F →
    |x'| ≤ M → (∀ r, 0 ≤ b' r ∧ b' r ≤ 1) → (∀ r, Real.exp (-M) ≤ Z' r ∧ Z' r ≤ Real.exp M) → 0 ≤ β' ∧ β' ≤ 1 → |h'| ≤ F →
    |x - x'| < δ → (∀ r, |b r - b' r| < δ) → (∀ r, |Z r - Z' r| < δ) → |β - β'| < δ → |h - h'| < δ →
    |summandAt T (x, b, Z, β, h) - summandAt T (x', b', Z', β', h')| < ε := by
  have hTr : (0 : ℝ) < T := by exact_mod_cast hT
  have : Nonempty (Fin T) := ⟨⟨0, hT⟩⟩
  let lo : ℝ × (Fin T → ℝ) × (Fin T → ℝ) × ℝ × ℝ := (-M, fun _ => 0, fun _ => Real.exp (-M), 0, -F)
  let hi : ℝ × (Fin T → ℝ) × (Fin T → ℝ) × ℝ × ℝ := (M, fun _ => 1, fun _ => Real.exp M, 1, F)
  have hmem : ∀ x b Z β h, |x| ≤ M → (∀ r, 0 ≤ b r ∧ b r ≤ 1) → (∀ r, Real.exp (-M) ≤ Z r ∧ Z r ≤ Real.exp M) → 0 ≤ β ∧ β ≤ 1 → |h| ≤ F →
      (x, b, Z, β, h) ∈ Set.Icc lo hi := by
    intro x b Z β h h1 h2 h3 h4 h5
    rw [abs_le] at h1 h5
    exact ⟨⟨h1.1, fun r => (h2 r).1, fun r => (h3 r).1, h4.1, h5.1⟩, ⟨h1.2, fun r => (h2 r).2, fun r => (h3 r).2, h4.2, h5.2⟩⟩
  have hcont : ContinuousOn (summandAt T) (Set.Icc lo hi) := by
    intro p hp
    have hZ : ∀ r, p.2.2.1 r ≠ 0 := fun r => ((Real.exp_pos (-M)).trans_le (hp.1.2.2.1 r)).ne'
    have hZp : ∀ r, 0 < p.2.2.1 r := fun r => (Real.exp_pos (-M)).trans_le (hp.1.2.2.1 r)
    apply ContinuousAt.continuousWithinAt
    unfold summandAt
    have hsum : ContinuousAt (fun p : ℝ × (Fin T → ℝ) × (Fin T → ℝ) × ℝ × ℝ => ∑ r, Real.exp (p.1 * p.2.1 r) / p.2.2.1 r) p := by
      apply tendsto_finset_sum
      intro r _
      exact ContinuousAt.div (by fun_prop) (by fun_prop) (hZ r)
    have hpos : 0 < ∑ r, Real.exp (p.1 * p.2.1 r) / p.2.2.1 r := Finset.sum_pos (fun r _ => div_pos (Real.exp_pos _) (hZp r)) Finset.univ_nonempty
    exact (ContinuousAt.div (by fun_prop) (hsum.div_const _) (div_pos hpos hTr).ne').mul (by fun_prop)
  have hu := (isCompact_Icc (a := lo) (b := hi)).uniformContinuousOn_of_continuous hcont
  obtain ⟨δ, hδ, h⟩ := Metric.uniformContinuousOn_iff.mp hu ε hε
  refine ⟨δ, hδ, fun x b Z β h' x' b' Z' β' h'' a1 a2 a3 a4 a5 b1 b2 b3 b4 b5 c1 c2 c3 c4 c5 => ?_⟩
  have := h _ (hmem x b Z β h' a1 a2 a3 a4 a5) _ (hmem x' b' Z' β' h'' b1 b2 b3 b4 b5) (by
    simp only [Prod.dist_eq, Real.dist_eq]
    refine max_lt c1 (max_lt ?_ (max_lt ?_ (max_lt c4 c5)))
    · exact (dist_pi_lt_iff hδ).mpr fun r => by rw [Real.dist_eq]; exact c2 r
    · exact (dist_pi_lt_iff hδ).mpr fun r => by rw [Real.dist_eq]; exact c3 r)
  rwa [Real.dist_eq] at this

theorem evidence_range (π : Measure α) [IsProbabilityMeasure π] (l : α → ℝ) (hl : Tame l) (M : ℝ) (hM : ∀ y, |l y| ≤ M) {b : ℝ} (h0 : 0 ≤ b) (h1 : b ≤ 1) :
    Real.exp (-M) ≤ evidenceAt π l b ∧ evidenceAt π l b ≤ Real.exp M := by
  have hi := exp_integrable π l hl b
  have hb : ∀ y, |l y * b| ≤ M := fun y => by
    rw [abs_mul, abs_of_nonneg h0]
    exact (mul_le_of_le_one_right (abs_nonneg _) h1).trans (hM y)
  constructor
  · have : ∫ _, Real.exp (-M) ∂π ≤ ∫ x, Real.exp (l x * b) ∂π :=
      integral_mono (integrable_const _) hi fun x => Real.exp_le_exp.mpr (abs_le.mp (hb x)).1
    simpa [evidenceAt] using this
  · have : ∫ x, Real.exp (l x * b) ∂π ≤ ∫ _, Real.exp M ∂π :=
      integral_mono hi (integrable_const _) fun x => Real.exp_le_exp.mpr (abs_le.mp (hb x)).2
    simpa [evidenceAt] using this

theorem evidence_uniform (π : Measure α) [IsProbabilityMeasure π] (l : α → ℝ) (hl : Tame l) {ε : ℝ} (hε : 0 < ε) : ∃ δ > 0, ∀ b b', 0 ≤ b ∧ b ≤ 1 → 0 ≤ b' ∧ b' ≤ 1 →
    |b - b'| < δ → |evidenceAt π l b - evidenceAt π l b'| < ε := by
  obtain ⟨-, M, hM⟩ := id hl
  have hcont : ContinuousOn (fun p : ℝ × ℝ => Real.exp (p.1 * p.2)) (Set.Icc (-M, 0) (M, 1)) := by fun_prop
  obtain ⟨δ, hδ, h⟩ := Metric.uniformContinuousOn_iff.mp (isCompact_Icc.uniformContinuousOn_of_continuous hcont) (ε / 2) (by positivity)
  refine ⟨δ, hδ, fun b b' hb hb' hd => ?_⟩
  have hp : ∀ y, |Real.exp (l y * b) - Real.exp (l y * b')| ≤ ε / 2 := by
    intro y
    have hy := abs_le.mp (hM y)
    have := h (l y, b) ⟨⟨hy.1, hb.1⟩, ⟨hy.2, hb.2⟩⟩ (l y, b') ⟨⟨hy.1, hb'.1⟩, ⟨hy.2, hb'.2⟩⟩ (by
      rw [Prod.dist_eq, dist_self, Real.dist_eq]
      exact max_lt hδ hd)
    rw [Real.dist_eq] at this
    exact this.le
  have := integral_close π (g := fun y => Real.exp (l y * b)) (h := fun y => Real.exp (l y * b'))
    ⟨by have := hl.1; fun_prop, _, fun y => by rw [abs_of_pos (Real.exp_pos _)]; exact Real.exp_le_exp.mpr ((le_abs_self _).trans (by rw [abs_mul]; exact mul_le_mul_of_nonneg_right (hM y) (abs_nonneg _)))⟩
    ⟨by have := hl.1; fun_prop, _, fun y => by rw [abs_of_pos (Real.exp_pos _)]; exact Real.exp_le_exp.mpr ((le_abs_self _).trans (by rw [abs_mul]; exact mul_le_mul_of_nonneg_right (hM y) (abs_nonneg _)))⟩ _ hp
  unfold evidenceAt
  linarith

end
end Poco
