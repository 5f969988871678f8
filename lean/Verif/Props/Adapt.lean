import Verif.Spec.Adapt
import Verif.Props.Kernel
import Verif.Props.Diagnostics

/-! C144: the adaptation of the step size and of the centre fades, and aims at 23.4 % acceptance. -/

namespace Poco
open F Spec

variable {d : ℕ} {B : Type}

theorem gain_pos (k : Kern) (i : ℕ) : 0 < gain k i := by
  unfold gain
  split <;> positivity

theorem gain_le_one (k : Kern) (i : ℕ) : gain k i ≤ 1 := by
  unfold gain
  split
  · exact (gain_range i 0.75 (by norm_num)).2
  · rw [div_le_one (by positivity)]
    linarith [Nat.cast_nonneg (α := ℝ) i]

theorem gain_le_two (k : Kern) (i : ℕ) : gain k i ≤ 2 * gain k (i + 1) := by
  have hi : (0 : ℝ) ≤ i := Nat.cast_nonneg i
  unfold gain
  split
  · have h1 : (((i + 1 : ℕ) : ℝ) + 1) ^ (0.75 : ℝ) ≤ 2 * ((i : ℝ) + 1) ^ (0.75 : ℝ) := by
      calc (((i + 1 : ℕ) : ℝ) + 1) ^ (0.75 : ℝ) ≤ (2 * ((i : ℝ) + 1)) ^ (0.75 : ℝ) := by
            apply Real.rpow_le_rpow (by positivity) _ (by norm_num)
            push_cast; linarith
        _ = 2 ^ (0.75 : ℝ) * ((i : ℝ) + 1) ^ (0.75 : ℝ) := Real.mul_rpow (by norm_num) (by linarith)
        _ ≤ 2 * ((i : ℝ) + 1) ^ (0.75 : ℝ) := by
            apply mul_le_mul_of_nonneg_right _ (by positivity)
            calc (2 : ℝ) ^ (0.75 : ℝ) ≤ 2 ^ (1 : ℝ) := Real.rpow_le_rpow_of_exponent_le (by norm_num) (by norm_num)
              _ = 2 := Real.rpow_one 2
    have h2 : (0 : ℝ) < ((i : ℝ) + 1) ^ (0.75 : ℝ) := by positivity
    have h3 : (0 : ℝ) < (((i + 1 : ℕ) : ℝ) + 1) ^ (0.75 : ℝ) := by positivity
    rw [mul_one_div, div_le_div_iff₀ h2 h3]
    linarith
  · push_cast
    rw [mul_one_div, div_le_div_iff₀ (by positivity) (by positivity)]
    linarith

theorem gain_one : (0.588 : ℝ) ≤ 1 / (((1 : ℕ) : ℝ) + 1) ^ (0.75 : ℝ) ∧ 1 / (((1 : ℕ) : ℝ) + 1) ^ (0.75 : ℝ) ≤ 0.6 := by
  have h : (((1 : ℕ) : ℝ) + 1) ^ (0.75 : ℝ) ≤ 1.7 ∧ 1.68 ≤ (((1 : ℕ) : ℝ) + 1) ^ (0.75 : ℝ) := by
    have e : ((((1 : ℕ) : ℝ) + 1) ^ (0.75 : ℝ)) ^ 4 = 8 := by
      rw [← Real.rpow_natCast, ← Real.rpow_mul (by norm_num)]
      norm_num
    have p : (0 : ℝ) < (((1 : ℕ) : ℝ) + 1) ^ (0.75 : ℝ) := by positivity
    constructor
    · by_contra hc
      push Not at hc
      have := pow_lt_pow_left₀ hc (by norm_num) (n := 4) (by norm_num)
      rw [e] at this
      norm_num at this
    · by_contra hc
      push Not at hc
      have := pow_lt_pow_left₀ hc p.le (n := 4) (by norm_num)
      rw [e] at this
      norm_num at this
  have p : (0 : ℝ) < (((1 : ℕ) : ℝ) + 1) ^ (0.75 : ℝ) := by positivity
  constructor
  · rw [le_div_iff₀ p]; linarith
  · rw [div_le_iff₀ p]; linarith

/-- One update of the step size from `s`, mean acceptance `a`. -/
theorem sigmaNext_real (k : Kern) (hd : 0 < d) (i : ℕ) (s a : ℝ) : sigmaNext k d i (fin s) (fin a) = fin (match k with
    | .prwm => s + gain k i * (a - 0.234)
    | .rwm => |s + gain k i * (a - 0.234)|
    | _ => |min (s + gain k i * (a - 0.234)) (largestScale d)|) := by
  have hd' : (0 : ℝ) < Real.sqrt d := Real.sqrt_pos.mpr (by exact_mod_cast hd)
  cases k <;> simp [sigmaNext, gain, Kern.isPcn, largestScale, fin_div _ _ hd'.ne']

theorem abs_abs_sub_le {m s : ℝ} (hs : 0 ≤ s) : |(|m|) - s| ≤ |m - s| := by
  have := abs_abs_sub_abs_le m s
  rwa [abs_of_nonneg hs] at this

/-- The new step size is close to the old one. -/
theorem sigmaNext_near {k : Kern} (hd : 0 < d) (i : ℕ) {s a : ℝ} (ha : 0 ≤ a) (ha' : a ≤ 1) (hs : k ≠ .prwm → 0 ≤ s)
    (hk : k.isPcn = true → s ≤ largestScale d + 0.766 * gain k i) :
    ∃ t, sigmaNext k d i (fin s) (fin a) = fin t ∧ |t - s| ≤ 0.766 * gain k i ∧ (k ≠ .prwm → 0 ≤ t) ∧
      (k.isPcn = true → t ≤ largestScale d + 0.766 * gain k (i + 1)) := by
  have g0 := gain_pos k i
  have g2 := gain_le_two k i
  have g1 := gain_pos k (i + 1)
  have hd' : (0 : ℝ) < Real.sqrt d := Real.sqrt_pos.mpr (by exact_mod_cast hd)
  have hc : 0 < largestScale d := by unfold largestScale; exact lt_min (by positivity) (by norm_num)
  have hlo : -(0.234 * gain k i) ≤ gain k i * (a - 0.234) := by nlinarith
  have hhi : gain k i * (a - 0.234) ≤ 0.766 * gain k i := by nlinarith
  refine ⟨_, sigmaNext_real k hd i s a, ?_⟩
  have pcn : k.isPcn = true → 0 ≤ s → |(|min (s + gain k i * (a - 0.234)) (largestScale d)|) - s| ≤ 0.766 * gain k i ∧
      |min (s + gain k i * (a - 0.234)) (largestScale d)| ≤ largestScale d + 0.766 * gain k (i + 1) := by
    intro h1 h2
    have h3 := hk h1
    constructor
    · refine (abs_abs_sub_le h2).trans ?_
      rw [abs_le]
      rcases min_cases (s + gain k i * (a - 0.234)) (largestScale d) with ⟨q, hq⟩ | ⟨q, hq⟩ <;> rw [q] <;>
        constructor <;> nlinarith
    · rw [abs_le]
      constructor
      · refine le_min ?_ ?_ <;> nlinarith
      · exact (min_le_right _ _).trans (by nlinarith)
  cases k with
  | ppcn => exact ⟨(pcn rfl (hs (by simp))).1, fun _ => abs_nonneg _, fun _ => (pcn rfl (hs (by simp))).2⟩
  | pcn => exact ⟨(pcn rfl (hs (by simp))).1, fun _ => abs_nonneg _, fun _ => (pcn rfl (hs (by simp))).2⟩
  | prwm =>
    refine ⟨?_, fun h => absurd rfl h, fun h => by (simp [Kern.isPcn] at h)⟩
    dsimp only
    rw [abs_le]; constructor <;> nlinarith
  | rwm =>
    refine ⟨?_, fun _ => abs_nonneg _, fun h => by (simp [Kern.isPcn] at h)⟩
    refine (abs_abs_sub_le (hs (by simp))).trans ?_
    rw [abs_le]; constructor <;> nlinarith

/-- A kernel called with a usual step size starts within reach of the largest one. -/
theorem Spec.UsualScale.start {e : McmcEnv d B} {s0 : ℝ} (hs : e.proposalScale = fin s0) (hu : UsualScale e.kernel d s0)
    (ws : List (Walker d B)) : ∃ s, (mcmcInit e ws).sigma = fin s ∧ (e.kernel ≠ .prwm → 0 ≤ s) ∧
      (e.kernel.isPcn = true → s ≤ largestScale d + 0.766 * gain e.kernel 1) := by
  have pcn : e.kernel.isPcn = true → 0 ≤ s0 ∧ s0 ≤ 2.38 / Real.sqrt d + 0.45 → ∃ s, (mcmcInit e ws).sigma = fin s ∧
      (e.kernel ≠ .prwm → 0 ≤ s) ∧ (e.kernel.isPcn = true → s ≤ largestScale d + 0.766 * gain e.kernel 1) := by
    intro hk h
    refine ⟨min s0 0.99, by simp [mcmcInit, hk, hs], fun _ => le_min h.1 (by norm_num), fun _ => ?_⟩
    have hg : (0.45 : ℝ) ≤ 0.766 * gain e.kernel 1 := by
      rw [show gain e.kernel 1 = 1 / (((1 : ℕ) : ℝ) + 1) ^ (0.75 : ℝ) by unfold gain; rw [if_pos hk]]
      linarith [gain_one.1]
    unfold largestScale
    rcases min_cases (2.38 / Real.sqrt d) 0.99 with ⟨q, -⟩ | ⟨q, -⟩ <;> rw [q]
    · exact (min_le_left _ _).trans (by linarith [h.2])
    · exact (min_le_right _ _).trans (by linarith)
  cases hk : e.kernel with
  | ppcn => rw [← hk]; exact pcn (by rw [hk]; rfl) (by rw [hk] at hu; exact hu)
  | pcn => rw [← hk]; exact pcn (by rw [hk]; rfl) (by rw [hk] at hu; exact hu)
  | prwm => exact ⟨s0, by simp [mcmcInit, hk, Kern.isPcn, hs], fun h => absurd rfl h, fun h => by (simp [Kern.isPcn] at h)⟩
  | rwm => exact ⟨s0, by simp [mcmcInit, hk, Kern.isPcn, hs], fun _ => by (rw [hk] at hu; exact hu), fun h => by (simp [Kern.isPcn] at h)⟩

/-- **C144, the step size.** At step `i` of a kernel call the step size changes by at most 0.766 times the weight of the step,
whatever is accepted. `st 0, st 1, …` are the successive states of the call. -/
theorem C144_scale_partial {e : McmcEnv d B} (hd : 0 < d) {s0 : ℝ} (hs : e.proposalScale = fin s0) (hu : UsualScale e.kernel d s0)
    {fuel : ℕ} {rnd : ℕ → ℕ → Draw d} {ws : List (Walker d B)} (hne : ws ≠ []) {st : ℕ → McmcState d B} {n : ℕ}
    (h0 : st 0 = mcmcInit e ws) (hstep : ∀ i < n, mcmcStep e fuel (rnd (i + 1)) (i + 1) (st i) = .ok (st (i + 1))) :
    ∀ i < n, ∃ s s' : ℝ, (st i).sigma = fin s ∧ (st (i + 1)).sigma = fin s' ∧ |s' - s| ≤ 0.766 * gain e.kernel (i + 1) := by
  have key : ∀ i ≤ n, (st i).walkers ≠ [] ∧ ∃ s, (st i).sigma = fin s ∧ (e.kernel ≠ .prwm → 0 ≤ s) ∧
      (e.kernel.isPcn = true → s ≤ largestScale d + 0.766 * gain e.kernel (i + 1)) := by
    intro i
    induction i with
    | zero =>
      intro _
      rw [h0]
      exact ⟨by simpa [mcmcInit] using hne, UsualScale.start hs hu ws⟩
    | succ i ih =>
      intro hi
      obtain ⟨h1, s, h2, h3, h4⟩ := ih (by omega)
      obtain ⟨h5, a, h6, h7, h8⟩ := step_accept_unit (hstep i (by omega)) h1
      obtain ⟨_, _, _, _, _, _, _, _, h9, _⟩ := mcmcStep_ok (hstep i (by omega))
      obtain ⟨t, k1, -, k3, k4⟩ := sigmaNext_near (k := e.kernel) hd (i + 1) h7 h8 h3 h4
      exact ⟨h5, t, by rw [h9, h6, h2, k1], k3, k4⟩
  intro i hi
  obtain ⟨h1, s, h2, h3, h4⟩ := key i (by omega)
  obtain ⟨h5, a, h6, h7, h8⟩ := step_accept_unit (hstep i hi) h1
  obtain ⟨_, _, _, _, _, _, _, _, h9, _⟩ := mcmcStep_ok (hstep i hi)
  obtain ⟨t, k1, k2, -⟩ := sigmaNext_near (k := e.kernel) hd (i + 1) h7 h8 h3 h4
  exact ⟨s, t, h2, by rw [h9, h6, h2, k1], k2⟩

theorem usual_step {e : McmcEnv d B} (hd : 0 < d) {fuel : ℕ} {draw : ℕ → Draw d} {i : ℕ} {st st' : McmcState d B}
    (h : mcmcStep e fuel draw i st = .ok st') (hne : st.walkers ≠ []) {s : ℝ} (hs : st.sigma = fin s)
    (hu : UsualScale e.kernel d s) : ∃ s', st'.sigma = fin s' ∧ UsualScale e.kernel d s' := by
  have hd' : (0 : ℝ) < Real.sqrt d := Real.sqrt_pos.mpr (by exact_mod_cast hd)
  have hcap : largestScale d ≤ 2.38 / Real.sqrt d := min_le_left _ _
  have hc : 0 < largestScale d := by unfold largestScale; exact lt_min (by positivity) (by norm_num)
  obtain ⟨-, m, h6, h7, h8⟩ := step_accept_unit h hne
  obtain ⟨_, _, _, _, _, _, _, _, h9, _⟩ := mcmcStep_ok h
  refine ⟨_, by rw [h9, h6, hs, sigmaNext_real e.kernel hd], ?_⟩
  have g0 := gain_pos e.kernel i
  have g1 := gain_le_one e.kernel i
  have hlo : -0.234 ≤ gain e.kernel i * (m - 0.234) := by nlinarith
  have pcn : 0 ≤ s → |min (s + gain e.kernel i * (m - 0.234)) (largestScale d)| ≤ 2.38 / Real.sqrt d + 0.45 := by
    intro h10
    rw [abs_le]
    constructor
    · refine le_min ?_ ?_ <;> linarith
    · exact (min_le_right _ _).trans (by linarith)
  cases hk : e.kernel <;> rw [hk] at hu pcn
  · exact ⟨abs_nonneg _, pcn hu.1⟩
  · trivial
  · exact ⟨abs_nonneg _, pcn hu.1⟩
  · exact abs_nonneg (s + gain Kern.rwm i * (m - 0.234))

theorem usual_init {e : McmcEnv d B} {s0 : ℝ} (hs : e.proposalScale = fin s0) (hu : UsualScale e.kernel d s0) (ws : List (Walker d B)) :
    ∃ s, (mcmcInit e ws).sigma = fin s ∧ UsualScale e.kernel d s := by
  have pcn : e.kernel.isPcn = true → 0 ≤ s0 ∧ s0 ≤ 2.38 / Real.sqrt d + 0.45 → ∃ s, (mcmcInit e ws).sigma = fin s ∧
      0 ≤ s ∧ s ≤ 2.38 / Real.sqrt d + 0.45 := fun hk h =>
    ⟨min s0 0.99, by simp [mcmcInit, hk, hs], le_min h.1 (by norm_num), (min_le_left _ _).trans h.2⟩
  cases hk : e.kernel <;> rw [hk] at hu
  · exact pcn (by rw [hk]; rfl) hu
  · exact ⟨s0, by simp [mcmcInit, hk, Kern.isPcn, hs], trivial⟩
  · exact pcn (by rw [hk]; rfl) hu
  · exact ⟨s0, by simp [mcmcInit, hk, Kern.isPcn, hs], hu⟩

/-- **C144, the next iteration.** The step size a kernel call ends with is again one a call can be started with. -/
theorem C144_usual {e : McmcEnv d B} (hd : 0 < d) {s0 : ℝ} (hs : e.proposalScale = fin s0) (hu : UsualScale e.kernel d s0)
    {fuel : ℕ} {rnd : ℕ → ℕ → Draw d} {ws : List (Walker d B)} (hne : ws ≠ []) {r : McmcResult d B}
    (h : mcmc e fuel rnd ws = .ok r) : ∃ s, r.proposalScale = fin s ∧ UsualScale e.kernel d s := by
  obtain ⟨st, hl, -, -, -, -, hp, -⟩ := mcmc_ok h
  obtain ⟨s, h1, h2⟩ := (mcmcLoop_ind (fun st => st.walkers ≠ [] ∧ ∃ s, st.sigma = fin s ∧ UsualScale e.kernel d s)
    (fun i a b h hb => ⟨(step_accept_unit hb h.1).1, by obtain ⟨h1, s, h2, h3⟩ := h; exact usual_step hd hb h1 h2 h3⟩)
    ⟨by simpa [mcmcInit] using hne, usual_init hs hu ws⟩ hl).2
  exact ⟨s, by rw [hp, h1], h2⟩

section
variable {Φ : Type} {e : SamplerEnv d B Φ} {rnd : Rnd d Φ} {ll lp : Pt d → F} {bb : Pt d → List B} {hb : Bool}

theorem usual_smc (hd0 : 0 < d) (hu : UserFns e ll lp bb hb) (hc : Configured e) {s s' : Sampler d B Φ}
    {its : List (Iter d (List B))} (hd : Draws s.scaler.low s.scaler.high rnd) (hi : Inv e ll lp bb hb s its) {fuel : ℕ}
    (hq : smcStep e rnd fuel s = .ok s')
    (h : ∃ σ, s.proposalScale = fin σ ∧ UsualScale (kernelOf e.preconditioned e.sample) d σ) :
    (∃ σ, s'.proposalScale = fin σ ∧ UsualScale (kernelOf e.preconditioned e.sample) d σ) ∧
    ∃ (k : McmcEnv d (List B)) (ws : List (Walker d (List B))) (n : ℕ) (st : ℕ → McmcState d (List B)) (props : List (Walker d (List B))),
      Phase k fuel (rnd.mcmc s'.t) ws n st props ∧ k.proposalScale = s.proposalScale ∧ s'.proposalScale = (st n).sigma ∧
      s'.particles.past.steps = s.particles.past.steps ++ [n] ∧
      ∀ i < n, ∃ σ σ' : ℝ, (st i).sigma = fin σ ∧ (st (i + 1)).sigma = fin σ' ∧
        |σ' - σ| ≤ 0.766 * gain (kernelOf e.preconditioned e.sample) (i + 1) := by
  obtain ⟨k, ws, n, st, props, c1, c2, c3, c4, c5, c6, c7, c8, c9, c10, c11, c12⟩ := C113_iteration hq
  have hl := smc_walkers hu hc hd hi hq c6
  have hne : (st n).walkers ≠ [] := by
    intro hh
    rw [hh] at hl
    simp only [List.map_nil, List.length_nil] at hl
    have := hc.1
    omega
  have hw := phase_walkers c5 hne
  obtain ⟨σ, h1, h2⟩ := h
  rw [← c1] at h2 ⊢
  have hws : ws ≠ [] := by
    have := hw 0 (by omega)
    rw [c5.starts] at this
    simpa [mcmcInit] using this
  refine ⟨?_, k, ws, n, st, props, c5, c4, c10, c7, C144_scale_partial hd0 (c4.trans h1) h2 hws c5.starts c5.steps⟩
  have key : ∀ i ≤ n, ∃ σ, (st i).sigma = fin σ ∧ UsualScale k.kernel d σ := by
    intro i
    induction i with
    | zero => intro _; rw [c5.starts]; exact usual_init (c4.trans h1) h2 ws
    | succ i ih =>
      intro hi'
      obtain ⟨σ, q1, q2⟩ := ih (by omega)
      exact usual_step hd0 (c5.steps i (by omega)) (hw i (by omega)) q1 q2
  rw [c10]
  exact key n le_rfl

/-- **C144, a run.** From a sampler with a usual step size (a new one: C99), every iteration of every run begins and ends with a
usual step size, and at step `i` of its MCMC phase the step size changes by at most 0.766 times the weight of the step. -/
theorem C144_run_partial (hd0 : 0 < d) (hu : UserFns e ll lp bb hb) (hc : Configured e) {s : Sampler d B Φ} (hs : Session e hb s)
    (hd : Draws s.scaler.low s.scaler.high rnd)
    (h : ∃ σ, s.proposalScale = fin σ ∧ UsualScale (kernelOf e.preconditioned e.sample) d σ) :
    (∀ fuel n a s', (run e rnd fuel n a s).2 = .ok s' → ∃ σ, s'.proposalScale = fin σ ∧ UsualScale (kernelOf e.preconditioned e.sample) d σ) ∧
    ∀ s1, Moves e rnd s s1 → ∀ fuel s2, smcStep e rnd fuel s1 = .ok s2 →
      ∃ (k : McmcEnv d (List B)) (ws : List (Walker d (List B))) (n : ℕ) (st : ℕ → McmcState d (List B)) (props : List (Walker d (List B))),
        Phase k fuel (rnd.mcmc s2.t) ws n st props ∧ k.proposalScale = s1.proposalScale ∧ s2.proposalScale = (st n).sigma ∧
        s2.particles.past.steps = s1.particles.past.steps ++ [n] ∧
        ∀ i < n, ∃ σ σ' : ℝ, (st i).sigma = fin σ ∧ (st (i + 1)).sigma = fin σ' ∧
          |σ' - σ| ≤ 0.766 * gain (kernelOf e.preconditioned e.sample) (i + 1) := by
  obtain ⟨its, hi⟩ := hs.inv hu hc (ll := ll) (lp := lp) (bb := bb)
  have key : ∀ s', Moves e rnd s s' → ∃ σ, s'.proposalScale = fin σ ∧ UsualScale (kernelOf e.preconditioned e.sample) d σ := by
    intro s' hm
    induction hm with
    | refl => exact h
    | @tail s1 s2 hm0 hm ih =>
      obtain ⟨m1, k1, k2, k3⟩ := hi.moves hu hc hd hm0
      refine move_diag (fun _ q => ∃ σ, q = fin σ ∧ UsualScale (kernelOf e.preconditioned e.sample) d σ) ?_ ?_ hm ih
      · intro q q' i hq hi'
        obtain ⟨-, -, -, -, -, -, -, g8⟩ := C113_warmup hq
        rw [g8]
        exact hi'
      · intro fuel hq hi'
        exact (usual_smc hd0 hu hc (by rw [k2, k3]; exact hd) k1 hq hi').1
  refine ⟨fun fuel n a s' hr => key s' ((Along.run fuel n a _).to_end _ hr).1, fun s1 hm fuel s2 hq => ?_⟩
  obtain ⟨m1, k1, k2, k3⟩ := hi.moves hu hc hd hm
  exact (usual_smc hd0 hu hc (by rw [k2, k3]; exact hd) k1 hq (key s1 hm)).2

end

/-- **C144, the centre.** At step `i` the centre of preconditioned t-pCN moves by at most `1/(i+1)` of the extent of the
ensemble, in each coordinate. (The other kernels keep it: C91_fixed.) -/
theorem C144_centre {e : McmcEnv d B} (hk : e.kernel = .ppcn) {fuel : ℕ} {rnd : ℕ → ℕ → Draw d} {ws : List (Walker d B)}
    {st : ℕ → McmcState d B} {n : ℕ} (h0 : st 0 = mcmcInit e ws)
    (hstep : ∀ i < n, mcmcStep e fuel (rnd (i + 1)) (i + 1) (st i) = .ok (st (i + 1)))
    {m : Fin d → ℝ} (hm : e.tMean = fun j => fin (m j)) {T : ℕ → List (Fin d → ℝ)} (hne : ws ≠ [])
    (hT : ∀ i ≤ n, (st i).walkers.map (·.theta) = (T i).map fun p j => fin (p j))
    {a b : Fin d → ℝ} (hma : ∀ j, a j ≤ m j ∧ m j ≤ b j) (hTa : ∀ i ≤ n, ∀ p ∈ T i, ∀ j, a j ≤ p j ∧ p j ≤ b j) :
    ∀ i < n, ∀ j, ∃ c c' : ℝ, (st i).mu j = fin c ∧ (st (i + 1)).mu j = fin c' ∧ |c' - c| ≤ (b j - a j) / (i + 2) := by
  intro i hi j
  obtain ⟨c, hc, hca, hcb⟩ := C91_box hk h0 hstep hm hne hT hma hTa i (by omega) j
  have hlen : ∀ q ≤ n, (st q).walkers.length = ws.length := by
    intro q
    induction q with
    | zero => intro _; rw [h0]; simp [mcmcInit]
    | succ q ih => intro hq; rw [(step_walker (hstep q (by omega))).1, ih (by omega)]
  have hTne : T (i + 1) ≠ [] := by
    intro hTe
    have h1 := hT (i + 1) hi
    rw [hTe] at h1
    have h4 : (st (i + 1)).walkers = [] := by simpa using h1
    have h5 := hlen (i + 1) hi
    rw [h4] at h5
    exact hne (List.length_eq_zero_iff.mp h5.symm)
  obtain ⟨_, _, _, _, _, _, _, _, _, hmu, _⟩ := mcmcStep_ok (hstep i hi)
  have hmean : mean ((st (i + 1)).walkers.map fun w => w.theta j) = fin (centroid (T (i + 1)) j) := by
    have h1 : ((st (i + 1)).walkers.map fun w => w.theta j) = ((T (i + 1)).map fun p => p j).map fin := by
      have := congrArg (List.map fun p : Pt d => p j) (hT (i + 1) hi)
      simpa [List.map_map, Function.comp_def] using this
    rw [h1, mean_fin _ (by simpa using hTne)]
    simp [centroid]
  obtain ⟨x1, x2⟩ := centroid_mem hTne fun p hp => hTa (i + 1) hi p hp j
  refine ⟨c, c + 1 / (((i + 1 : ℕ) : ℝ) + 1) * (centroid (T (i + 1)) j - c), hc, ?_, ?_⟩
  · rw [hmu, hk]
    simp only [muNext, hmean, hc, fin_sub, fin_mul, fin_add]
  · have hp : (0 : ℝ) < i + 2 := by positivity
    have e1 : ((i + 1 : ℕ) : ℝ) + 1 = i + 2 := by push_cast; ring
    rw [e1, add_sub_cancel_left, one_div_mul_eq_div, abs_div, abs_of_pos hp]
    apply div_le_div_of_nonneg_right _ hp.le
    rw [abs_le]
    constructor <;> linarith

/-- **C144, the aim.** A step at which at least 23.4 % is accepted does not lower the step size (t-pCN: unless it is above
the largest allowed one); a step at which at most 23.4 % is accepted does not raise it, if it is at least half of the
largest possible reduction (or, in the preconditioned random walk, always). -/
theorem C144_aim_partial {e : McmcEnv d B} (hd : 0 < d) {fuel : ℕ} {rnd : ℕ → Draw d} {i : ℕ} {st st' : McmcState d B}
    (hw : st.walkers ≠ []) (h : mcmcStep e fuel rnd i st = .ok st') {s : ℝ} (hs : st.sigma = fin s)
    (h0 : e.kernel ≠ .prwm → 0 ≤ s) : ∃ a s', st'.accept = fin a ∧ st'.sigma = fin s' ∧
      (0.234 ≤ a → (e.kernel.isPcn = true → s ≤ largestScale d) → s ≤ s') ∧
      (a ≤ 0.234 → (e.kernel ≠ .prwm → 0.117 * gain e.kernel i ≤ s) → s' ≤ s) := by
  obtain ⟨-, a, h6, h7, h8⟩ := step_accept_unit h hw
  obtain ⟨_, _, _, _, _, _, _, _, h9, _⟩ := mcmcStep_ok h
  have g0 := gain_pos e.kernel i
  have hd' : (0 : ℝ) < Real.sqrt d := Real.sqrt_pos.mpr (by exact_mod_cast hd)
  have hc : 0 < largestScale d := by unfold largestScale; exact lt_min (by positivity) (by norm_num)
  refine ⟨a, _, h6, by rw [h9, h6, hs, sigmaNext_real e.kernel hd], ?_⟩
  have hlo : -(0.234 * gain e.kernel i) ≤ gain e.kernel i * (a - 0.234) := by nlinarith
  have pcn : 0 ≤ s → (0.234 ≤ a → s ≤ largestScale d → s ≤ |min (s + gain e.kernel i * (a - 0.234)) (largestScale d)|) ∧
      (a ≤ 0.234 → 0.117 * gain e.kernel i ≤ s → |min (s + gain e.kernel i * (a - 0.234)) (largestScale d)| ≤ s) := by
    intro hs0
    refine ⟨fun ha hcap => ?_, fun ha hg => ?_⟩
    · refine le_trans (le_min ?_ hcap) (le_abs_self _)
      nlinarith
    · have : gain e.kernel i * (a - 0.234) ≤ 0 := by nlinarith
      rw [abs_le]
      refine ⟨le_min (by linarith) (by linarith), (min_le_left _ _).trans (by linarith)⟩
  cases hk : e.kernel <;> rw [hk] at pcn h0 g0 hlo
  · have := pcn (h0 (by simp)); exact ⟨fun x y => this.1 x (y rfl), fun x y => this.2 x (y (by simp))⟩
  · exact ⟨fun x _ => by (dsimp only; nlinarith), fun x _ => by (dsimp only; nlinarith)⟩
  · have := pcn (h0 (by simp)); exact ⟨fun x y => this.1 x (y rfl), fun x y => this.2 x (y (by simp))⟩
  · refine ⟨fun x _ => ?_, fun x y => ?_⟩
    · refine le_trans ?_ (le_abs_self _)
      nlinarith
    · have y' := y (by simp)
      have : gain Kern.rwm i * (a - 0.234) ≤ 0 := by nlinarith
      dsimp only
      rw [abs_le]
      constructor <;> linarith

/-- Where the likelihood vanishes everywhere nothing is accepted. -/
theorem step_reject_accept {e : McmcEnv d B} {b : ℝ} (hβ : e.beta = fin b) (hb : 0 ≤ b) {lp : Pt d → F} {bb : Pt d → B}
    (hrow : RowWise e (fun _ => ninf) lp bb) {fuel : ℕ} {rnd : ℕ → Draw d}
    {i : ℕ} {st st' : McmcState d B} (hw : st.walkers ≠ []) (h : mcmcStep e fuel rnd i st = .ok st') : st'.accept = fin 0 := by
  have hacc := step_accept_unit h hw
  obtain ⟨cands, props, ev, n, h2, h3, h4, h5, -⟩ := mcmcStep_ok h
  rw [evaluate_rowwise _ _ _ _ hrow] at h3
  simp only [Except.ok.injEq, Prod.mk.injEq] at h3
  have hz : (st.walkers.zip props).map (fun q => alpha e st.mu q.1 q.2)
      = (List.replicate (st.walkers.zip props).length (0 : ℝ)).map fin := by
    rw [List.map_replicate, List.eq_replicate_iff]
    refine ⟨by simp, fun b' hb' => ?_⟩
    obtain ⟨q, hq, rfl⟩ := List.mem_map.mp hb'
    refine alpha_bad _ b hβ hb _ _ _ ?_
    have := (List.of_mem_zip hq).2
    rw [← h3.1] at this
    obtain ⟨c, -, hc⟩ := List.mem_map.mp this
    rw [← hc]
    right
    simp
  rw [h5, hz, mean_fin]
  · simp
  · intro hc
    rw [List.replicate_eq_nil_iff, List.length_eq_zero_iff] at hc
    rw [hc] at h4
    exact hacc.1 (by simpa using h4)

/-- **C144** is false for small step sizes, in the default kernel: the new step size is made non-negative by dropping its sign,
so a call in which nothing at all is accepted can end with a larger step size than it began with. -/
theorem C144_not_always : ∃ (e : McmcEnv 2 Unit) (ws : List (Walker 2 Unit)), e.kernel = .ppcn ∧ e.proposalScale = fin 0.05 ∧
    UsualScale e.kernel 2 0.05 ∧ ∀ (fuel : ℕ) (rnd : ℕ → ℕ → Draw 2), ∃ r s, mcmc e fuel rnd ws = .ok r ∧ r.accept = fin 0 ∧
      r.efficiency = fin s ∧ 0.08 < s := by
  refine ⟨exampleEnv .ppcn (fun _ => ninf) 0.05, [exampleWalker (fun _ => fin 0) 0], rfl, rfl, ⟨by norm_num, ?_⟩, fun fuel rnd => ?_⟩
  · have : (0 : ℝ) ≤ 2.38 / Real.sqrt ((2 : ℕ) : ℝ) := by positivity
    linarith
  obtain ⟨r, hr, -, hs⟩ := C28_terminates (exampleEnv .ppcn (fun _ => ninf) 0.05)
    (exampleEnv_bounds _ _ _) (by simp [exampleEnv]) _ _ _ (exampleEnv_rowwise _ _ _) fuel rnd
    [exampleWalker (fun _ => fin 0) 0]
  obtain ⟨st, hl, -, he, hacc, -⟩ := mcmc_ok hr
  rw [mcmcLoop] at hl
  cases h1 : mcmcStep (exampleEnv .ppcn (fun _ => ninf) 0.05) fuel (rnd 1) 1
    (mcmcInit (exampleEnv .ppcn (fun _ => ninf) 0.05) [exampleWalker (fun _ => fin 0) 0]) with
  | error x => simp [h1] at hl
  | ok st1 =>
    have hst : st = st1 := by
      simp only [Nat.zero_add, h1] at hl
      have hn : (exampleEnv .ppcn (fun _ => ninf) 0.05).nMax ≤ 1 := by simp [exampleEnv]
      rw [if_pos hn] at hl
      split at hl <;> simp only [Except.ok.injEq, Prod.mk.injEq] at hl <;> exact hl.1.symm
    subst hst
    have ha := step_reject_accept (b := 1) rfl zero_le_one (exampleEnv_rowwise _ _ _) (by simp [mcmcInit]) h1
    obtain ⟨_, _, _, _, _, _, _, _, h9, _⟩ := mcmcStep_ok h1
    have h0 : (mcmcInit (exampleEnv .ppcn (fun _ => ninf) 0.05) [exampleWalker (fun _ => fin 0) 0]).sigma = fin 0.05 := by
      simp only [mcmcInit, exampleEnv, Kern.isPcn, if_true, minimum_fin]
      norm_num
    rw [ha, h0, sigmaNext_real _ (by norm_num)] at h9
    refine ⟨r, _, hr, by rw [hacc, ha], by rw [he, h9], ?_⟩
    change 0.08 < |min (0.05 + gain Kern.ppcn 1 * (0 - 0.234)) (largestScale 2)|
    have hg : (0.588 : ℝ) ≤ gain Kern.ppcn 1 := gain_one.1
    refine lt_of_lt_of_le ?_ (neg_le_abs _)
    have := min_le_left (0.05 + gain Kern.ppcn 1 * (0 - 0.234)) (largestScale 2)
    linarith

/-- The hypotheses of C144_scale_partial, C144_usual and C144_aim_partial can be met: the example with log-likelihood -x²/2, any
kernel, any draws, any number of steps. -/
example (k : Kern) (rnd : ℕ → ℕ → Draw 2) (n : ℕ) : ∃ st : ℕ → McmcState 2 Unit, ∀ i < n, ∃ s s' : ℝ, (st i).sigma = fin s ∧
    (st (i + 1)).sigma = fin s' ∧ |s' - s| ≤ 0.766 * gain k (i + 1) := by
  have hex : ∀ (i : ℕ) (s : McmcState 2 Unit), ∃ s', mcmcStep (exampleEnv k (fun x => -(sq (x 0)) / fin 2) 0.4) 0 (rnd (i + 1)) (i + 1) s =
      .ok s' := fun i s =>
    mcmcStep_exists _ (exampleEnv_bounds _ _ _) (by simp [exampleEnv]) _ _ _ (exampleEnv_rowwise _ _ _) 0 (rnd (i + 1)) (i + 1) s
  choose next hnext using hex
  let st : ℕ → McmcState 2 Unit := fun i => Nat.rec (mcmcInit (exampleEnv k (fun x => -(sq (x 0)) / fin 2) 0.4)
    [exampleWalker (fun x => -(sq (x 0)) / fin 2) 1, exampleWalker (fun x => -(sq (x 0)) / fin 2) (-2)]) (fun i s => next i s) i
  refine ⟨st, C144_scale_partial (e := exampleEnv k (fun x => -(sq (x 0)) / fin 2) 0.4) (by norm_num) rfl ?_ (by simp) rfl
    fun i _ => hnext i (st i)⟩
  have : (0 : ℝ) ≤ 2.38 / Real.sqrt ((2 : ℕ) : ℝ) := by positivity
  cases k
  · exact ⟨by norm_num, by linarith⟩
  · trivial
  · exact ⟨by norm_num, by linarith⟩
  · show (0 : ℝ) ≤ 0.4
    norm_num

/-- The hypotheses of C144_run_partial hold for a new sampler of the demonstration problem, whose run returns. -/
example (p : Bool) : ∃ s σ, (run (Demo.env p) Demo.rnd 0 1 (Demo.args 0) Demo.start).2 = .ok s ∧ s.proposalScale = fin σ ∧
    UsualScale (kernelOf (Demo.env p).preconditioned (Demo.env p).sample) 2 σ := by
  obtain ⟨s, hr, -, -⟩ := Demo.session p 0
  have h2 : (0.55 : ℝ) ≤ 2.38 / Real.sqrt ((2 : ℕ) : ℝ) := by
    rw [le_div_iff₀ (by positivity)]
    have : Real.sqrt ((2 : ℕ) : ℝ) ≤ 2 := by
      rw [Real.sqrt_le_left (by norm_num)]
      norm_num
    generalize Real.sqrt ((2 : ℕ) : ℝ) = r at this ⊢
    linarith
  obtain ⟨σ, h1, h2⟩ := (C144_run_partial (by norm_num) (Demo.user p) (Demo.configured p) (.fresh (Demo.fresh p)) Demo.draws
    ⟨1, rfl, by cases p <;> first | exact ⟨by norm_num, by linarith⟩ | exact trivial | exact zero_le_one (α := ℝ)⟩).1 0 1 (Demo.args 0) s hr
  exact ⟨s, σ, hr, h1, h2⟩

end Poco
