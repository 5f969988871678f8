import Mathlib.MeasureTheory.Integral.Bochner.ContinuousLinearMap
import Mathlib.MeasureTheory.Measure.WithDensity
import Mathlib.MeasureTheory.Function.L1Space.Integrable
import Mathlib.MeasureTheory.Measure.Dirac
import Mathlib.MeasureTheory.Constructions.Pi
import Mathlib.MeasureTheory.Integral.Bochner.Basic
import Mathlib.MeasureTheory.Integral.Bochner.Set
import Verif.Props.Particles

/-! C102: the weights and the evidence computed from the history are unbiased. -/

namespace Poco.Spec
open MeasureTheory

/-- The evidence at inverse temperature `b`: the integral of `L^b` over the prior `π`, `l = log L`. -/
noncomputable def evidenceAt {α : Type*} [MeasurableSpace α] (π : Measure α) (l : α → ℝ) (b : ℝ) : ℝ := ∫ x, Real.exp (l x * b) ∂π

/-- The tempered posterior: density `L^b / Z` with respect to the prior. -/
noncomputable def tempered {α : Type*} [MeasurableSpace α] (π : Measure α) (l : α → ℝ) (b : ℝ) : Measure α :=
  π.withDensity fun x => ENNReal.ofReal (Real.exp (l x * b) / evidenceAt π l b)

/-- All particles of `T` iterations of `n` particles, in storage order. -/
def allParticles {α : Type*} {T n : ℕ} (x : Fin T → Fin n → α) : List α := (List.ofFn fun t => List.ofFn (x t)).flatten

end Poco.Spec

namespace Poco
open F Spec MeasureTheory

section
variable {α : Type*} {T n : ℕ}

theorem allParticles_sum (x : Fin T → Fin n → α) (g : α → ℝ) : ((allParticles x).map g).sum = ∑ t, ∑ i, g (x t i) := by
  unfold allParticles
  rw [List.map_flatten, List.sum_flatten, List.map_ofFn, List.map_ofFn, List.sum_ofFn]
  simp [List.map_ofFn, List.sum_ofFn, Function.comp_def]

theorem allParticles_length (x : Fin T → Fin n → α) : (allParticles x).length = T * n := by
  have := allParticles_sum x fun _ => (1 : ℝ)
  simp at this
  exact_mod_cast this

/-- The history in which iteration `t` has inverse temperature `b t`, log-evidence `logZ t` and particles `x t`. -/
noncomputable def stagesOf (l : α → ℝ) (b logZ : Fin T → ℝ) (x : Fin T → Fin n → α) : List Stage :=
  List.ofFn fun t => ⟨b t, logZ t, List.ofFn fun i => l (x t i)⟩

theorem stagesOf_allLogl (l : α → ℝ) (b logZ : Fin T → ℝ) (x : Fin T → Fin n → α) : allLogl (stagesOf l b logZ x) = (allParticles x).map l := by
  unfold allLogl stagesOf allParticles
  rw [List.map_flatten, List.map_ofFn, List.flatMap_def, List.map_ofFn]
  simp [Function.comp_def, List.map_ofFn]

theorem stagesOf_mixture (l : α → ℝ) (b logZ : Fin T → ℝ) (x : Fin T → Fin n → α) (v : ℝ) :
    mixture (stagesOf l b logZ x) v = (∑ t, Real.exp (v * b t) / Real.exp (logZ t)) / T := by
  unfold mixture stagesOf
  rw [List.map_ofFn, List.sum_ofFn]
  simp

theorem stagesOf_rect (l : α → ℝ) (b logZ : Fin T → ℝ) (x : Fin T → Fin n → α) (hT : 0 < T) (hn : 0 < n) : Rect (stagesOf l b logZ x) n := by
  refine ⟨?_, hn, ?_⟩
  · intro h
    have := congrArg List.length h
    simp [stagesOf] at this
    omega
  · intro s hs
    obtain ⟨t, rfl⟩ := (List.mem_ofFn' _ _).mp hs
    simp

/-- What the returned log-weights and evidence amount to: the average over all particles of weight times function value. -/
theorem weighted_average {d : ℕ} {B : Type} (l : α → ℝ) (b logZ : Fin T → ℝ) (x : Fin T → Fin n → α) (hT : 0 < T) (hn : 0 < n)
    (past : Cols d B List) (hp : Holds past (stagesOf l b logZ x)) (β : ℝ) :
    ∃ (lw : List ℝ) (z : ℝ), computeLogwLogz past (fin β) = .ok (lw.map fin, fin z) ∧ (lw.map Real.exp).sum = 1 ∧
      lw.length = (allParticles x).length ∧ ∀ f : α → ℝ, Real.exp z * (List.zipWith (fun a y => Real.exp a * f y) lw (allParticles x)).sum =
        (∑ t, ∑ i, Real.exp (l (x t i) * β) / ((∑ r, Real.exp (l (x t i) * b r) / Real.exp (logZ r)) / T) * f (x t i)) / (T * n) := by
  have hr := stagesOf_rect l b logZ x hT hn
  obtain ⟨lw, z, h1, h2, h3, h4, h5⟩ := C15_mixture_weights past _ n hr hp β
  rw [stagesOf_allLogl, List.map_map] at h2
  refine ⟨lw, z, h1, h3, by simpa using congrArg List.length h2, fun f => ?_⟩
  have ht := totalWeight_pos hr β
  have e : List.zipWith (fun a y => Real.exp a * f y) lw (allParticles x) =
      (allParticles x).map fun y => weight (stagesOf l b logZ x) β (l y) * f y / totalWeight (stagesOf l b logZ x) β := by
    have : List.zipWith (fun a y => Real.exp a * f y) lw (allParticles x) = List.zipWith (fun w y => w * f y) (lw.map Real.exp) (allParticles x) := by
      rw [List.zipWith_map_left]
    rw [this, h2, List.zipWith_map_left]
    rw [show (fun (a b_1 : α) => ((fun l_1 => weight (stagesOf l b logZ x) β l_1 / totalWeight (stagesOf l b logZ x) β) ∘ l) a * f b_1) =
      fun a c => weight (stagesOf l b logZ x) β (l a) / totalWeight (stagesOf l b logZ x) β * f c from rfl, List.zipWith_self]
    apply List.map_congr_left
    intro y _
    ring
  rw [e, h4, stagesOf_allLogl, List.length_map, allParticles_length, allParticles_sum]
  simp only [weight, stagesOf_mixture]
  rw [← Finset.sum_congr rfl fun t _ => Finset.sum_div _ _ _, ← Finset.sum_div, Nat.cast_mul]
  have hTr : (T : ℝ) ≠ 0 := by exact_mod_cast hT.ne'
  have hnr : (n : ℝ) ≠ 0 := by exact_mod_cast hn.ne'
  rw [div_mul_div_comm, mul_comm (totalWeight _ _), mul_div_mul_right _ _ ht.ne']

end

variable {α Ω : Type*} [MeasurableSpace α] [MeasurableSpace Ω]

/-- **C102.** Suppose every particle of iteration `t` follows the tempered posterior at `b t` (the particles need not be independent)
and the stored evidences are the true ones. Then the evidence computed from the history for any `β` is, on average, the true one, and
for every function `f` the weighted sum of `f` over all particles, times the computed evidence, is on average the integral of
`f L^β` over the prior. -/
theorem C102_unbiased {d T n : ℕ} {B : Type} (hT : 0 < T) (hn : 0 < n) (π : Measure α) (P : Measure Ω) [IsProbabilityMeasure P]
    (l : α → ℝ) (hl : Measurable l) (b : Fin T → ℝ) (hpos : ∀ t, 0 < evidenceAt π l (b t))
    (X : Fin T → Fin n → Ω → α) (hX : ∀ t i, Measurable (X t i)) (hlaw : ∀ t i, P.map (X t i) = tempered π l (b t))
    (past : Ω → Cols d B List) (hp : ∀ ω, Holds (past ω) (stagesOf l b (fun t => Real.log (evidenceAt π l (b t))) fun t i => X t i ω))
    (β : ℝ) (hβ : Integrable (fun x => Real.exp (l x * β)) π) :
    ∃ (lw : Ω → List ℝ) (z : Ω → ℝ), (∀ ω, computeLogwLogz (past ω) (fin β) = .ok ((lw ω).map fin, fin (z ω))) ∧
      ∫ ω, Real.exp (z ω) ∂P = evidenceAt π l β ∧
      ∀ f : α → ℝ, Measurable f → Integrable (fun x => f x * Real.exp (l x * β)) π →
        ∫ ω, Real.exp (z ω) * (List.zipWith (fun a y => Real.exp a * f y) (lw ω) (allParticles fun t i => X t i ω)).sum ∂P =
          ∫ x, f x * Real.exp (l x * β) ∂π := by
  have hex := fun ω => weighted_average l b (fun t => Real.log (evidenceAt π l (b t))) (fun t i => X t i ω) hT hn (past ω) (hp ω) β
  choose lw z h1 h2 hlen h3 using hex
  have main : ∀ f : α → ℝ, Measurable f → Integrable (fun x => f x * Real.exp (l x * β)) π →
        ∫ ω, Real.exp (z ω) * (List.zipWith (fun a y => Real.exp a * f y) (lw ω) (allParticles fun t i => X t i ω)).sum ∂P =
          ∫ x, f x * Real.exp (l x * β) ∂π := by
    intro f hf hfi
    let Z := fun t => evidenceAt π l (b t)
    let m : α → ℝ := fun x => (∑ r, Real.exp (l x * b r) / Z r) / T
    have hTr : (0 : ℝ) < T := by exact_mod_cast hT
    have hnr : (0 : ℝ) < n := by exact_mod_cast hn
    have hmpos : ∀ x, 0 < m x := by
      intro x
      have : Nonempty (Fin T) := ⟨⟨0, hT⟩⟩
      exact div_pos (Finset.sum_pos (fun r _ => div_pos (Real.exp_pos _) (hpos r)) Finset.univ_nonempty) hTr
    have hmm : Measurable m := by fun_prop
    let g : α → ℝ := fun x => Real.exp (l x * β) / m x * f x
    have hgm : Measurable g := by fun_prop
    have hgd : ∀ t, Measurable fun x => ENNReal.ofReal (Real.exp (l x * b t) / evidenceAt π l (b t)) := fun t => by fun_prop
    -- one particle
    have hint : ∀ t, Integrable (fun x => Real.exp (l x * b t) / Z t * g x) π := by
      intro t
      have hterm : ∀ x, Real.exp (l x * b t) / Z t ≤ T * m x := by
        intro x
        have : T * m x = ∑ r, Real.exp (l x * b r) / Z r := by simp only [m]; field_simp
        rw [this]
        exact Finset.single_le_sum (f := fun r => Real.exp (l x * b r) / Z r) (fun r _ => (div_pos (Real.exp_pos _) (hpos r)).le) (Finset.mem_univ t)
      refine Integrable.mono' (hfi.abs.const_mul (T : ℝ)) (by fun_prop) (.of_forall fun x => ?_)
      have hp0 : 0 < Real.exp (l x * b t) / Z t := div_pos (Real.exp_pos _) (hpos t)
      have e0 := Real.exp_pos (l x * β)
      have : Real.exp (l x * b t) / Z t * g x = (Real.exp (l x * b t) / Z t / m x) * (f x * Real.exp (l x * β)) := by
        simp only [g]; field_simp
      rw [this, Real.norm_eq_abs, abs_mul, abs_of_pos (div_pos hp0 (hmpos x))]
      apply mul_le_mul_of_nonneg_right _ (abs_nonneg _)
      rw [div_le_iff₀ (hmpos x)]
      exact hterm x
    have hone : ∀ t i, Integrable (fun ω => g (X t i ω)) P ∧ ∫ ω, g (X t i ω) ∂P = ∫ x, Real.exp (l x * b t) / Z t * g x ∂π := by
      intro t i
      have e1 : ∀ x, (ENNReal.ofReal (Real.exp (l x * b t) / evidenceAt π l (b t))).toReal = Real.exp (l x * b t) / Z t := fun x =>
        ENNReal.toReal_ofReal (div_pos (Real.exp_pos _) (hpos t)).le
      have hlt : ∀ᵐ x ∂π, ENNReal.ofReal (Real.exp (l x * b t) / evidenceAt π l (b t)) < ⊤ := .of_forall fun x => ENNReal.ofReal_lt_top
      constructor
      · have : Integrable g (P.map (X t i)) := by
          rw [hlaw, tempered, integrable_withDensity_iff_integrable_smul' (hgd t) hlt]
          simpa only [e1, smul_eq_mul] using hint t
        exact this.comp_measurable (hX t i)
      · rw [← integral_map (hX t i).aemeasurable hgm.aestronglyMeasurable, hlaw, tempered,
          integral_withDensity_eq_integral_toReal_smul (hgd t) hlt]
        simp only [e1, smul_eq_mul]
    have e2 : ∀ ω, Real.exp (z ω) * (List.zipWith (fun a y => Real.exp a * f y) (lw ω) (allParticles fun t i => X t i ω)).sum
        = (∑ t, ∑ i, g (X t i ω)) / (T * n) := by
      intro ω
      rw [h3]
      have : ∀ r, Real.exp (Real.log (Z r)) = Z r := fun r => Real.exp_log (hpos r)
      simp only [Z] at this
      simp only [this, g, m, Z]
    simp only [e2]
    rw [integral_div, integral_finset_sum _ fun t _ => integrable_finset_sum _ fun i _ => (hone t i).1]
    have e3 : ∀ t, ∫ ω, ∑ i, g (X t i ω) ∂P = n * ∫ x, Real.exp (l x * b t) / Z t * g x ∂π := by
      intro t
      rw [integral_finset_sum _ fun i _ => (hone t i).1]
      simp [(hone t _).2]
    simp only [e3]
    rw [← Finset.mul_sum, ← integral_finset_sum _ fun t _ => hint t]
    have e4 : ∀ x, ∑ t, Real.exp (l x * b t) / Z t * g x = T * (f x * Real.exp (l x * β)) := by
      intro x
      rw [← Finset.sum_mul]
      have : (∑ t, Real.exp (l x * b t) / Z t) = T * m x := by simp only [m]; field_simp
      rw [this]
      have := (hmpos x).ne'
      simp only [g]
      field_simp
    simp only [e4]
    rw [integral_const_mul]
    have : ∀ I : ℝ, n * (T * I) / (T * n) = I := fun I => by field_simp
    exact this _
  refine ⟨lw, z, h1, ?_, main⟩
  have := main (fun _ => 1) measurable_const (by simpa using hβ)
  simp only [mul_one, one_mul] at this
  rw [evidenceAt, ← this]
  congr 1
  funext ω
  have key : ∀ (a : List ℝ) (c : List α), a.length = c.length → List.zipWith (fun v (_ : α) => Real.exp v) a c = a.map Real.exp := by
    intro a
    induction a with
    | nil => intro c _; simp
    | cons v a ih =>
      intro c hc
      cases c with
      | nil => simp at hc
      | cons y c => simpa using ih c (by simpa using hc)
  rw [key _ _ (hlen ω), h2, mul_one]

/-- Tempered posteriors with finite evidence are probability measures. -/
theorem tempered_prob (π : Measure α) (l : α → ℝ) (b : ℝ) (hi : Integrable (fun x => Real.exp (l x * b)) π)
    (hpos : 0 < evidenceAt π l b) : IsProbabilityMeasure (tempered π l b) := by
  constructor
  rw [tempered, withDensity_apply _ MeasurableSet.univ, Measure.restrict_univ,
    ← ofReal_integral_eq_lintegral_ofReal (hi.div_const _) (.of_forall fun x => (div_pos (Real.exp_pos _) hpos).le), integral_div]
  rw [show (∫ x, Real.exp (l x * b) ∂π) = evidenceAt π l b from rfl, div_self hpos.ne', ENNReal.ofReal_one]

/-- Two iterations of one particle each over a two-point space, at temperatures 0 and 1: the hypotheses hold. -/
example : ∃ (π : Measure (Fin 2)) (P : Measure (Fin 2 → Fin 2)) (_ : IsProbabilityMeasure P) (l : Fin 2 → ℝ) (X : Fin 2 → Fin 1 → (Fin 2 → Fin 2) → Fin 2),
    l 0 ≠ l 1 ∧ (∀ t, 0 < evidenceAt π l ((![0, 1] : Fin 2 → ℝ) t)) ∧ (∀ t i, P.map (X t i) = tempered π l ((![0, 1] : Fin 2 → ℝ) t)) ∧
    ∃ z : (Fin 2 → Fin 2) → ℝ, (∀ ω, ∃ lw, computeLogwLogz (pastOf (stagesOf l ![0, 1]
        (fun t => Real.log (evidenceAt π l ((![0, 1] : Fin 2 → ℝ) t))) fun t i => X t i ω)) (fin 1) = .ok (lw, fin (z ω))) ∧
      ∫ ω, Real.exp (z ω) ∂P = evidenceAt π l 1 := by
  let l : Fin 2 → ℝ := ![0, 1]
  let b : Fin 2 → ℝ := ![0, 1]
  let π : Measure (Fin 2) := Measure.count
  have hi : ∀ b, Integrable (fun x => Real.exp (l x * b)) π := fun b => Integrable.of_finite
  have hpos : ∀ b, 0 < evidenceAt π l b := by
    intro b
    rw [evidenceAt, integral_countable' (hi b)]
    simp only [tsum_fintype, π, Measure.real, Measure.count_singleton]
    simp
    positivity
  have hpr : ∀ t, IsProbabilityMeasure (tempered π l (b t)) := fun t => tempered_prob π l _ (hi _) (hpos _)
  let P : Measure (Fin 2 → Fin 2) := Measure.pi fun t => tempered π l (b t)
  let X : Fin 2 → Fin 1 → (Fin 2 → Fin 2) → Fin 2 := fun t _ ω => ω t
  have hlaw : ∀ t i, P.map (X t i) = tempered π l (b t) := fun t i => (measurePreserving_eval _ t).map_eq
  obtain ⟨lw, z, h1, h2, -⟩ := C102_unbiased two_pos one_pos π P l measurable_from_top b (fun t => hpos _) X
    (fun t _ => measurable_pi_apply t) hlaw (fun ω => pastOf _) (fun ω => pastOf_holds _) 1 (hi 1)
  exact ⟨π, P, inferInstance, l, X, by simp [l], fun t => hpos _, hlaw, z, fun ω => ⟨_, h1 ω⟩, h2⟩

end Poco
