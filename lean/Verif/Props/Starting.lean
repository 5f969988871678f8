import Verif.Props.Given
import Verif.Props.Training

/-! C99: the values the two adaptive quantities start from. -/

namespace Poco
open F Spec

theorem uniform_weights {N : ℕ} (hN : 1 ≤ N) : IsWeights (List.replicate N (1 : ℝ)) := by
  refine ⟨fun x hx => ?_, ?_⟩
  · rw [(List.mem_replicate.mp hx).2]; norm_num
  · rw [List.sum_replicate, nsmul_eq_mul, mul_one]; exact_mod_cast hN

/-- **C99**: the step size of the first MCMC is 2.38 over the square root of the dimension; the share of distinct particles that
`dynamic` aims at is the expected share of distinct values among `n_active` draws from `n_effective` equally likely ones. -/
theorem C99_starting_values (a : InitArgs) (hs : Sensible a) (c : Config) (hc : construct a = .ok c) {d : ℕ} {B Φ : Type}
    (e : SamplerEnv d B Φ) (b : (Fin d → F) × (Fin d → F)) (per ref : Option (List (Fin d))) (φ : Φ) :
    let s : Sampler d B Φ := c.fresh a b per ref φ
    s.proposalScale = fin (2.38 / Real.sqrt (dimension a)) ∧ 0 < 2.38 / Real.sqrt (dimension a) ∧
    ∃ r : ℝ, (c.env e).dynamicRatio = fin r ∧ 0 < r ∧ r ≤ 1 ∧
      r * (c.env e).nActive = expectedDistinct (fun _ : Fin s.nEffective => 1 / (s.nEffective : ℝ)) (c.env e).nActive ∧
      r * (c.env e).nActive = s.nEffective * (1 - (1 - 1 / (s.nEffective : ℝ)) ^ (c.env e).nActive) := by
  intro s
  obtain ⟨s1, s2, s3, s4⟩ := construct_sizes hs hc
  obtain ⟨-, -, -, -, -, -, -, h8, -, h10, -⟩ := construct_ok hc
  have hsc : s.proposalScale = c.proposalScale := rfl
  have hdim : dimension a ≠ 0 := by
    intro h
    unfold initScale at h10
    rw [if_pos h] at h10; cases h10
  have hdpos : (0 : ℝ) < Real.sqrt (dimension a) := Real.sqrt_pos.mpr (by exact_mod_cast Nat.pos_of_ne_zero hdim)
  refine ⟨?_, by positivity, ?_⟩
  · unfold initScale at h10
    rw [if_neg hdim] at h10
    simp only [Except.ok.injEq] at h10
    rw [hsc, ← h10]
  · unfold initDynamicRatio at h8
    rw [if_neg (by omega)] at h8
    simp only [Except.ok.injEq] at h8
    obtain ⟨N, hN⟩ : ∃ N : ℕ, c.nEffective = N := ⟨c.nEffective.toNat, by omega⟩
    obtain ⟨n, hn⟩ : ∃ n : ℕ, c.nActive = n := ⟨c.nActive.toNat, by omega⟩
    have e1 : s.nEffective = N := by show c.nEffective.toNat = N; omega
    have e2 : (c.env e).nActive = n := by show c.nActive.toNat = n; omega
    have hN1 : 1 ≤ N := by omega
    have hn1 : 1 ≤ n := by omega
    have hw := uniform_weights hN1
    obtain ⟨u, k1, k2, k3, k4, k5, -⟩ := C02_uss (List.replicate N (1 : ℝ)) hw n hn1
    have hrep : List.replicate c.nEffective.toNat (fin 1) = (List.replicate N (1 : ℝ)).map fin := by
      rw [List.map_replicate, hN]; rfl
    have hnr : (0 : ℝ) < n := by exact_mod_cast hn1
    have hNr : (0 : ℝ) < N := by exact_mod_cast hN1
    have hr : c.dynamicRatio = fin (u / n) := by
      rw [← h8, hrep, show c.nActive.toNat = n by omega, hn]
      rw [k1]
      simp only [Int.cast_natCast]
      rw [fin_div _ _ hnr.ne']
    have hsum : ∑ _j : Fin N, 1 / (N : ℝ) = 1 := by simp; field_simp
    have hu : u = N * (1 - (1 - 1 / (N : ℝ)) ^ n) := by
      have := uniqueSampleSize_fin (List.replicate N (1 : ℝ)) hw.2.ne' n
      rw [k1] at this
      simp only [Prod.mk.injEq, fin_inj] at this
      rw [this.2]
      simp [List.sum_replicate]
    rw [e1, e2]
    refine ⟨u / n, hr, by positivity, by rw [div_le_one hnr]; exact k4, ?_, ?_⟩
    · rw [div_mul_cancel₀ _ hnr.ne', expectedDistinct_eq _ hsum, hu]
      simp
      ring
    · rw [div_mul_cancel₀ _ hnr.ne', hu]

section
variable {d : ℕ} {B Φ : Type} {e : SamplerEnv d B Φ} {rnd : Rnd d Φ}

/-- **C99**: every iteration starts its MCMC with the step size the sampler has (at most 0.99 for t-pCN) and leaves the one it ended with for the next. -/
theorem C99_carried {fuel : ℕ} {s s' : Sampler d B Φ} (h : smcStep e rnd fuel s = .ok s') :
    ∃ (k : McmcEnv d (List B)) (ws : List (Walker d (List B))) (r : McmcResult d (List B)), mcmc k fuel (rnd.mcmc s'.t) ws = .ok r ∧
      (mcmcInit k ws).sigma = (if e.sample = .tpcn then minimum s.proposalScale (fin 0.99) else s.proposalScale) ∧
      s'.proposalScale = r.proposalScale := by
  obtain ⟨c, s1, c1, s2, c2, s3, c3, h0, h1, h2, h3, h4, rfl⟩ := smcStep_ok h
  obtain ⟨n, rfl⟩ := reweight_keep h1
  obtain ⟨ws, k, r, -, hk, hm, h5⟩ := mutate_ok h4
  simp only [writeBack, Prod.mk.injEq] at h5
  obtain ⟨rfl, -⟩ := h5
  obtain ⟨-, -, -, -, -, k1, -, -, k2, -⟩ := kernelEnv_ok hk
  have hp : s2.proposalScale = s.proposalScale := by
    rcases train_ok h2 with ⟨-, flow, g, rfl⟩ | ⟨-, g, rfl⟩ <;> rfl
  refine ⟨k, ws, r, hm, ?_, rfl⟩
  simp only [mcmcInit, k1, k2, hp]
  cases e.preconditioned <;> cases e.sample <;> simp [kernelOf, Kern.isPcn]

end

/-- The defaults in four dimensions: 256 active out of 512 effective particles; step size 1.19. -/
example : ∃ c, construct (defaultArgs 4 .none) = .ok c ∧
    (c.fresh (defaultArgs 4 .none) ((fun _ => ninf), fun _ => pinf) none none () : Sampler 4 Unit Unit).proposalScale = fin 1.19 := by
  have hs := default_sensible 4 (by norm_num) .none
  have hf : ¬ Forbidden (defaultArgs 4 .none) := by
    unfold Forbidden
    simp [defaultArgs, wantedEffective]
  obtain ⟨c, hc⟩ := (C63_validation _ hs trivial).2 hf
  refine ⟨c, hc, ?_⟩
  have h := (C99_starting_values _ hs c hc (Demo.env true : SamplerEnv 2 Unit Unit) ((fun _ => ninf), fun _ => pinf) none none ()).1
  have hd : dimension (defaultArgs 4 .none) = 4 := rfl
  have h4 : Real.sqrt ((4 : ℕ) : ℝ) = 2 := by
    rw [show ((4 : ℕ) : ℝ) = 2 ^ 2 by norm_num, Real.sqrt_sq (by norm_num)]
  rw [hd, h4] at h
  have h' : c.proposalScale = fin (2.38 / 2) := h
  show c.proposalScale = _
  rw [h']
  norm_num

end Poco
