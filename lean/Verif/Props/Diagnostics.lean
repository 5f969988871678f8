import Verif.Props.Plateau
import Verif.Props.Demo

/-! # C113: the diagnostics recorded with each iteration -/

namespace Poco
open F Spec

variable {d : ℕ} {B Φ : Type} {e : SamplerEnv d B Φ} {rnd : Rnd d Φ}

namespace Spec

/-- An MCMC phase of `n` turns: its successive states, with the proposals `props` of the last turn. -/
structure Phase (k : McmcEnv d (List B)) (fuel : ℕ) (draw : ℕ → ℕ → Draw d) (ws : List (Walker d (List B))) (n : ℕ)
    (st : ℕ → McmcState d (List B)) (props : List (Walker d (List B))) : Prop where
  turns : 1 ≤ n
  starts : st 0 = mcmcInit k ws
  steps : ∀ i < n, mcmcStep k fuel (draw (i + 1)) (i + 1) (st i) = .ok (st (i + 1))
  accepted : (st n).walkers = ((st (n - 1)).walkers.zip props).mapIdx
    fun j q => if (draw n j).rand < alpha k (st (n - 1)).mu q.1 q.2 then q.2 else q.1
  each : props.length = (st (n - 1)).walkers.length

/-- The diagnostics of an iteration that are in their proper ranges. -/
structure InRange (nMax : ℕ) (p : Cols d (List B) List) : Prop where
  steps : ∀ n ∈ p.steps, 1 ≤ n ∧ n ≤ max 1 nMax
  accept : ∀ a ∈ p.accept, ∃ m : ℝ, a = fin m ∧ 0 ≤ m ∧ m ≤ 1

end Spec

/-- **C113, the main loop.** What an iteration records about its MCMC phase: `steps` is the number of turns made, `accept` the
mean over the walkers of the probability with which their proposals in the last turn were accepted, `efficiency` the final
proposal scale relative to `2.38/√d`, which is also the scale the next iteration starts with, and `calls` the counter of the
sampler. -/
theorem C113_iteration {fuel : ℕ} {s s' : Sampler d B Φ} (h : smcStep e rnd fuel s = .ok s') :
    ∃ (k : McmcEnv d (List B)) (ws : List (Walker d (List B))) (n : ℕ) (st : ℕ → McmcState d (List B)) (props : List (Walker d (List B))),
      k.kernel = kernelOf e.preconditioned e.sample ∧ k.nMax = e.nMaxSteps ∧ k.nSteps = e.nSteps ∧ k.proposalScale = s.proposalScale ∧
      Phase k fuel (rnd.mcmc s'.t) ws n st props ∧
      s'.particles.past.x = s.particles.past.x ++ [(st n).walkers.map (·.x)] ∧
      s'.particles.past.steps = s.particles.past.steps ++ [n] ∧
      s'.particles.past.accept = s.particles.past.accept ++
        [mean (((st (n - 1)).walkers.zip props).map fun q => alpha k (st (n - 1)).mu q.1 q.2)] ∧
      s'.particles.past.efficiency = s.particles.past.efficiency ++ [s'.proposalScale / (fin 2.38 / sqrt (F.ofNat d))] ∧
      s'.proposalScale = (st n).sigma ∧ s'.particles.past.calls = s.particles.past.calls ++ [s'.calls] ∧
      (1 < n → n ≤ e.nMaxSteps) := by
  obtain ⟨c, s1, c1, s2, c2, s3, c3, h0, h1, h2, h3, h4, rfl⟩ := smcStep_ok h
  obtain ⟨nEff, beta, logz, ess, w, tr, -, -, -, g, rfl⟩ := reweight_ok h1
  obtain ⟨ws, k, r, g1, g2, g3, h5⟩ := mutate_ok h4
  simp only [writeBack, Prod.mk.injEq] at h5
  obtain ⟨rfl, rfl⟩ := h5
  have hp : s2.particles = s.particles ∧ s2.proposalScale = s.proposalScale := by
    rcases train_ok h2 with ⟨-, f, g, rfl⟩ | ⟨-, g, rfl⟩ <;> exact ⟨rfl, rfl⟩
  have hk : k.kernel = kernelOf e.preconditioned e.sample ∧ k.nMax = e.nMaxSteps ∧ k.nSteps = e.nSteps ∧ k.proposalScale = s2.proposalScale := by
    unfold kernelEnv at g2
    obtain ⟨_, -, g2⟩ := bind_ok g2
    obtain ⟨_, -, g2⟩ := bind_ok g2
    obtain ⟨_, -, g2⟩ := bind_ok g2
    simp only [pure, Except.pure, Except.ok.injEq] at g2
    subst g2
    exact ⟨rfl, rfl, rfl, rfl⟩
  obtain ⟨st, s0, ss⟩ := mcmc_states g3
  obtain ⟨st', l1, l2, l3, l4, l5, l6, l7⟩ := mcmc_ok g3
  obtain ⟨e1, e2, e3⟩ := mcmcLoop_ends l1 st s0 (fun j _ hj => ss j hj)
  have hs := ss (r.steps - 1) (by omega)
  rw [Nat.sub_add_cancel e1] at hs
  obtain ⟨cands, props, ev, n, m1, m2, m3, m4, -⟩ := mcmcStep_ok hs
  have hlen : props.length = (st (r.steps - 1)).walkers.length := by
    rw [(evaluate_ok _ _ _ _ _ m2).1, (mapM_eq_ok m1).1, List.length_mapIdx]
  refine ⟨k, ws, r.steps, st, props, hk.1, hk.2.1, hk.2.2.1, hk.2.2.2.trans hp.2, ⟨e1, s0, ss, m3, hlen⟩, ?_, ?_, ?_, ?_, ?_, ?_, ?_⟩
  · simp only [Particles.update, Cols.full, hp.1, l2, e2]
    rfl
  · simp only [Particles.update, Cols.full, hp.1]
    rfl
  · simp only [Particles.update, Cols.full, hp.1, l4, ← e2, m4]
    rfl
  · simp only [Particles.update, Cols.full, hp.1, l3, l6]
    rfl
  · exact l6.trans (by rw [e2])
  · simp only [Particles.update, Cols.full, hp.1]
    rfl
  · intro hn
    by_contra hh
    have := (e3 (r.steps - 1) (by omega) (by omega)).2 (.inr (by rw [hk.2.1]; omega))
    omega

/-- **C113, the warm-up.** What a warm-up batch records: one step, everything accepted, efficiency one, temperature and
log-evidence zero, the counter of the sampler. -/
theorem C113_warmup {s s' : Sampler d B Φ} {i : ℕ} (h : warmupStep e rnd s i = .ok s') :
    s'.particles.past.steps = s.particles.past.steps ++ [1] ∧ s'.particles.past.accept = s.particles.past.accept ++ [fin 1] ∧
    s'.particles.past.efficiency = s.particles.past.efficiency ++ [fin 1] ∧ s'.particles.past.beta = s.particles.past.beta ++ [fin 0] ∧
    s'.particles.past.logz = s.particles.past.logz ++ [fin 0] ∧ s'.particles.past.calls = s.particles.past.calls ++ [s'.calls] ∧
    s'.particles.past.ess = s.particles.past.ess ++ [F.ofNat s.nEffective] ∧ s'.proposalScale = s.proposalScale := by
  unfold warmupStep at h
  obtain ⟨⟨b0, hb⟩, h1, h⟩ := bind_ok h
  obtain ⟨b, h2, h⟩ := bind_ok h
  simp only [pure, Except.pure, Except.ok.injEq] at h
  subst h
  exact ⟨rfl, rfl, rfl, rfl, rfl, rfl, rfl, rfl⟩

theorem move_diag (P : Cols d (List B) List → F → Prop)
    (hw : ∀ s s' : Sampler d B Φ, ∀ i, warmupStep e rnd s i = .ok s' → P s.particles.past s.proposalScale → P s'.particles.past s'.proposalScale)
    {s s' : Sampler d B Φ}
    (hs : ∀ fuel, smcStep e rnd fuel s = .ok s' → P s.particles.past s.proposalScale → P s'.particles.past s'.proposalScale)
    (hm : Move e rnd s s') (h : P s.particles.past s.proposalScale) : P s'.particles.past s'.proposalScale := by
  cases hm with
  | init a hm =>
    unfold runInit at hm
    cases hps : s.priorSamples with
    | some ps => simp only [hps, Except.ok.injEq] at hm; subst hm; exact h
    | none =>
      simp only [hps] at hm
      obtain ⟨sc, -, hm⟩ := bind_ok hm
      simp only [pure, Except.pure, Except.ok.injEq] at hm
      subst hm
      exact h
  | warm i _ _ hm => exact hw _ _ _ hm h
  | endWarm _ => exact h
  | smc fuel _ hm => exact hs fuel hm h
  | evidence _ hm =>
    rcases finalEvidence_ok hm with ⟨-, -, hm⟩ | ⟨-, lw, z, -, rfl⟩
    · obtain ⟨inv, ll', bl, hbl, -, -, rfl⟩ := computeEvidence_ok hm
      exact h
    · exact h

section
variable {ll lp : Pt d → F} {bb : Pt d → List B} {hb : Bool}

theorem phase_walkers {k : McmcEnv d (List B)} {fuel : ℕ} {draw : ℕ → ℕ → Draw d} {ws props : List (Walker d (List B))} {n : ℕ}
    {st : ℕ → McmcState d (List B)} (hp : Phase k fuel draw ws n st props) (hne : (st n).walkers ≠ []) : ∀ i ≤ n, (st i).walkers ≠ [] := by
  have : ∀ j ≤ n, (st (n - j)).walkers ≠ [] := by
    intro j
    induction j with
    | zero => intro _; exact hne
    | succ j ih =>
      intro hj
      have h1 := hp.steps (n - (j + 1)) (by omega)
      rw [show n - (j + 1) + 1 = n - j by omega] at h1
      intro hc
      have h2 := (step_walker h1).1
      rw [hc] at h2
      exact ih (by omega) (List.length_eq_zero_iff.1 h2)
  intro i hi
  have h1 := this (n - i) (by omega)
  rwa [show n - (n - i) = i by omega] at h1

theorem smc_walkers (hu : UserFns e ll lp bb hb) (hc : Configured e) {s s' : Sampler d B Φ} {its : List (Iter d (List B))}
    (hd : Draws s.scaler.low s.scaler.high rnd) (h : Inv e ll lp bb hb s its) {fuel : ℕ} (hm : smcStep e rnd fuel s = .ok s')
    {l : List (Pt d)} (hl : s'.particles.past.x = s.particles.past.x ++ [l]) : l.length = e.nActive := by
  obtain ⟨c, c3, b, β, r, -, -, -, -, -, -, -, ⟨rows, r1, r2, -⟩, -, -, -, -, -, -, -, -, -, hp, -⟩ := h.smcStep_spec hu hc hd hm
  rw [hp] at hl
  simp only [Particles.update, Cols.full, List.append_cancel_left_eq, List.cons.injEq, and_true] at hl
  have hl' : [c3.it.x] = [l] := hl
  rw [← List.singleton_inj.1 hl', r2.x, List.length_map, r1]

theorem range_moves (hu : UserFns e ll lp bb hb) (hc : Configured e) {s s' : Sampler d B Φ} {its : List (Iter d (List B))}
    (hd : Draws s.scaler.low s.scaler.high rnd) (h : Inv e ll lp bb hb s its) (hr : InRange e.nMaxSteps s.particles.past)
    (hm : Moves e rnd s s') : InRange e.nMaxSteps s'.particles.past := by
  induction hm with
  | refl => exact hr
  | @tail s1 s2 hm0 hm ih =>
    obtain ⟨m1, k1, k2, k3⟩ := h.moves hu hc hd hm0
    refine move_diag (fun p _ => InRange e.nMaxSteps p) ?_ ?_ hm ih
    · intro q q' i hq hi
      obtain ⟨g1, g2, -⟩ := C113_warmup hq
      refine ⟨fun n hn => ?_, fun a ha => ?_⟩
      · rw [g1] at hn
        rcases List.mem_append.1 hn with hn | hn
        · exact hi.steps n hn
        · rw [List.mem_singleton.1 hn]; exact ⟨le_rfl, le_max_left _ _⟩
      · rw [g2] at ha
        rcases List.mem_append.1 ha with ha | ha
        · exact hi.accept a ha
        · exact ⟨1, List.mem_singleton.1 ha, by norm_num, by norm_num⟩
    · intro fuel hq hi
      obtain ⟨k, ws, n, st, props, c1, c2, c3, c4, c5, c6, c7, c8, c9, c10, c11, c12⟩ := C113_iteration hq
      have hl := smc_walkers hu hc (by rw [k2, k3]; exact hd) k1 hq c6
      have hne : (st n).walkers ≠ [] := by
        intro hh
        rw [hh] at hl
        simp only [List.map_nil, List.length_nil] at hl
        have := hc.1
        omega
      refine ⟨fun j hj => ?_, fun a ha => ?_⟩
      · rw [c7] at hj
        rcases List.mem_append.1 hj with hj | hj
        · exact hi.steps j hj
        · rw [List.mem_singleton.1 hj]
          refine ⟨c5.turns, ?_⟩
          have := c5.turns
          by_cases h1 : 1 < n
          · exact (c12 h1).trans (le_max_right _ _)
          · exact le_trans (by omega) (le_max_left _ _)
      · rw [c8] at ha
        rcases List.mem_append.1 ha with ha | ha
        · exact hi.accept a ha
        · rw [List.mem_singleton.1 ha]
          apply mean_unit
          · rw [Ne, List.map_eq_nil_iff]
            intro hh
            have h1 := c5.accepted
            rw [hh] at h1
            exact hne h1
          · intro a ha
            obtain ⟨q, -, rfl⟩ := List.mem_map.mp ha
            exact alpha_range k _ q.1 q.2

/-- **C113, ranges.** In every state a sampler can reach: every recorded number of steps is between one and
`max(1, n_max_steps)`, every recorded acceptance is a number between zero and one. -/
theorem C113_ranges (hu : UserFns e ll lp bb hb) (hc : Configured e) {s : Sampler d B Φ} (h : Session e hb s) :
    InRange e.nMaxSteps s.particles.past := by
  induction h with
  | fresh h =>
    rw [h.particles]
    exact ⟨fun n hn => by (cases hn), fun a ha => by (cases ha)⟩
  | ran rnd fuel n a hs hd hr ih =>
    obtain ⟨its, hi⟩ := hs.inv hu hc (ll := ll) (lp := lp) (bb := bb)
    exact range_moves hu hc hd hi ih ((Along.run fuel n a _).to_end _ hr).1
  | loaded rnd fuel n a sv hs hd hr ih =>
    obtain ⟨its, hi⟩ := hs.inv hu hc (ll := ll) (lp := lp) (bb := bb)
    exact range_moves hu hc hd hi ih ((Along.run fuel n a _).from_start sv hr)

namespace Spec

/-- The efficiencies and the proposal scale are numbers; those of the t-pCN kernels between zero and 0.99 times √d/2.38
(or one, in the warm-up) and between zero and 0.99, or larger only before the first iteration; those of the plain random walk not
negative. -/
def Efficient (e : SamplerEnv d B Φ) (effs : List F) (scale : F) : Prop :=
  (∃ σ : ℝ, scale = fin σ ∧ (e.sample = .tpcn ∨ e.preconditioned = false → 0 ≤ σ)) ∧
  ∀ f ∈ effs, ∃ r : ℝ, f = fin r ∧ (e.sample = .tpcn ∨ e.preconditioned = false → 0 ≤ r) ∧
    (e.sample = .tpcn → r ≤ max 1 (0.99 * (Real.sqrt d / 2.38)))

end Spec

theorem scale_step {k : McmcEnv d (List B)} (hd : 0 < d) {fuel : ℕ} {draw : ℕ → Draw d} {i : ℕ} {st st' : McmcState d (List B)}
    (h : mcmcStep k fuel draw i st = .ok st') (hne : st.walkers ≠ []) {σ : ℝ} (hσ : st.sigma = fin σ)
    (hp : k.kernel.isPcn = true → 0 ≤ σ ∧ σ ≤ 0.99) :
    ∃ τ : ℝ, st'.sigma = fin τ ∧ (k.kernel.isPcn = true → 0 ≤ τ ∧ τ ≤ 0.99) ∧ (k.kernel = .rwm → 0 ≤ τ) := by
  obtain ⟨-, m, hm, m0, m1⟩ := step_accept_unit h hne
  obtain ⟨_, _, _, _, _, _, _, _, h5, _⟩ := mcmcStep_ok h
  rw [h5, hm, hσ]
  by_cases hk : k.kernel.isPcn = true
  · obtain ⟨t, h1, h2, h3⟩ := sigmaNext_pcn hk hd i σ m (hp hk).1 (hp hk).2 m0 m1
    exact ⟨t, h1, fun _ => ⟨h2, h3⟩, fun _ => h2⟩
  · cases hk' : k.kernel with
    | ppcn => rw [hk'] at hk; exact absurd rfl hk
    | pcn => rw [hk'] at hk; exact absurd rfl hk
    | prwm =>
      simp only [sigmaNext, fin_sub, fin_mul, fin_add]
      exact ⟨_, rfl, fun hh => by (cases hh), fun hh => by (cases hh)⟩
    | rwm =>
      simp only [sigmaNext, fin_sub, fin_mul, fin_add, abs_fin]
      exact ⟨_, rfl, fun hh => by (cases hh), fun _ => abs_nonneg _⟩

theorem efficient_smc (hd0 : 0 < d) (hu : UserFns e ll lp bb hb) (hc : Configured e) {s s' : Sampler d B Φ}
    {its : List (Iter d (List B))} (hd : Draws s.scaler.low s.scaler.high rnd) (hi : Inv e ll lp bb hb s its) {fuel : ℕ}
    (hq : smcStep e rnd fuel s = .ok s') (h : Efficient e s.particles.past.efficiency s.proposalScale) :
    Efficient e s'.particles.past.efficiency s'.proposalScale := by
  obtain ⟨k, ws, n, st, props, c1, c2, c3, c4, c5, c6, c7, c8, c9, c10, c11, c12⟩ := C113_iteration hq
  have hl := smc_walkers hu hc hd hi hq c6
  have hne : (st n).walkers ≠ [] := by
    intro hh
    rw [hh] at hl
    simp only [List.map_nil, List.length_nil] at hl
    have := hc.1
    omega
  have hw := phase_walkers c5 hne
  obtain ⟨⟨σ0, hσ0, hσ1⟩, he⟩ := h
  have hpcn : k.kernel.isPcn = true ↔ e.sample = .tpcn := by
    rw [c1]
    unfold kernelOf
    cases e.preconditioned <;> cases e.sample <;> simp [Kern.isPcn]
  have hrwm : e.preconditioned = false → e.sample ≠ .tpcn → k.kernel = .rwm := by
    intro h1 h2
    rw [c1, h1]
    cases hh : e.sample with
    | tpcn => exact absurd hh h2
    | rwm => rfl
  have key : ∀ i ≤ n, ∃ τ : ℝ, (st i).sigma = fin τ ∧ (k.kernel.isPcn = true → 0 ≤ τ ∧ τ ≤ 0.99) ∧
      (1 ≤ i → k.kernel = .rwm → 0 ≤ τ) := by
    intro i
    induction i with
    | zero =>
      intro _
      rw [c5.starts]
      unfold mcmcInit
      simp only [c4, hσ0]
      by_cases hk : k.kernel.isPcn = true
      · rw [if_pos hk, minimum_fin]
        exact ⟨_, rfl, fun _ => ⟨le_min (hσ1 (.inl (hpcn.1 hk))) (by norm_num), min_le_right _ _⟩, fun hh => by omega⟩
      · rw [if_neg hk]
        exact ⟨_, rfl, fun hh => absurd hh hk, fun hh => by omega⟩
    | succ i ih =>
      intro hin
      obtain ⟨τ, t1, t2, -⟩ := ih (by omega)
      obtain ⟨τ', q1, q2, q3⟩ := scale_step hd0 (c5.steps i (by omega)) (hw i (by omega)) t1 t2
      exact ⟨τ', q1, q2, fun _ => q3⟩
  obtain ⟨τ, t1, t2, t3⟩ := key n le_rfl
  have hnn : e.sample = .tpcn ∨ e.preconditioned = false → 0 ≤ τ := by
    intro hh
    by_cases h1 : e.sample = .tpcn
    · exact (t2 (hpcn.2 h1)).1
    · exact t3 c5.turns (hrwm (hh.resolve_left h1) h1)
  refine ⟨⟨τ, c10.trans t1, hnn⟩, fun f hf => ?_⟩
  rw [c9] at hf
  rcases List.mem_append.1 hf with hf | hf
  · exact he f hf
  · have hsq : (0 : ℝ) < Real.sqrt d := Real.sqrt_pos.mpr (by exact_mod_cast hd0)
    have hpos : (0 : ℝ) < 2.38 / Real.sqrt d := by positivity
    rw [List.mem_singleton.1 hf, c10, t1, F.ofNat, sqrt_fin _ (Nat.cast_nonneg _), fin_div _ _ hsq.ne', fin_div _ _ hpos.ne']
    refine ⟨_, rfl, fun hh => div_nonneg (hnn hh) hpos.le, fun hh => ?_⟩
    refine le_trans ?_ (le_max_right _ _)
    rw [div_le_iff₀ hpos]
    have h1 : 0.99 * (Real.sqrt d / 2.38) * (2.38 / Real.sqrt d) = 0.99 := by
      field_simp
    rw [h1]
    exact (t2 (hpcn.2 hh)).2

/-- **C113, efficiency.** If the proposal scale was a number (not negative unless the kernel is the random walk in flow space) when a
sampler was new, and so on along any sequence of calls: after every run, and in every state file, all recorded efficiencies
are numbers, of t-pCN at least zero and at most `0.99·√d/2.38` (or one), of the plain random walk at least zero. -/
theorem C113_efficiency (hd0 : 0 < d) (hu : UserFns e ll lp bb hb) (hc : Configured e) {s : Sampler d B Φ} (hs : Session e hb s)
    (hd : Draws s.scaler.low s.scaler.high rnd) (h : Efficient e s.particles.past.efficiency s.proposalScale) (fuel n : ℕ) (a : RunArgs) :
    (∀ s', (run e rnd fuel n a s).2 = .ok s' → Efficient e s'.particles.past.efficiency s'.proposalScale) ∧
    ∀ sv ∈ (run e rnd fuel n a s).1, Efficient e sv.state.particles.past.efficiency sv.state.proposalScale := by
  obtain ⟨its, hi⟩ := hs.inv hu hc (ll := ll) (lp := lp) (bb := bb)
  have key : ∀ s', Moves e rnd s s' → Efficient e s'.particles.past.efficiency s'.proposalScale := by
    intro s' hm
    induction hm with
    | refl => exact h
    | @tail s1 s2 hm0 hm ih =>
      obtain ⟨m1, k1, k2, k3⟩ := hi.moves hu hc hd hm0
      refine move_diag (fun p q => Efficient e p.efficiency q) ?_ ?_ hm ih
      · intro q q' i hq hi'
        obtain ⟨-, -, g3, -, -, -, -, g8⟩ := C113_warmup hq
        rw [g3, g8]
        refine ⟨hi'.1, fun f hf => ?_⟩
        rcases List.mem_append.1 hf with hf | hf
        · exact hi'.2 f hf
        · exact ⟨1, List.mem_singleton.1 hf, fun _ => by norm_num, fun _ => le_max_left _ _⟩
      · intro fuel hq hi'
        exact efficient_smc hd0 hu hc (by rw [k2, k3]; exact hd) k1 hq hi'
  exact ⟨fun s' hr => key s' ((Along.run fuel n a _).to_end _ hr).1, fun sv hsv => key _ ((Along.run fuel n a _).from_start sv hsv)⟩

end

/-! ### the hypotheses can be met -/

namespace Demo

example (p : Bool) : ∃ s, Session (env p) true s ∧ s.particles.past.x.length = 3 ∧ InRange 10 s.particles.past ∧
    Efficient (env p) s.particles.past.efficiency s.proposalScale := by
  obtain ⟨s, hr, hs, hl⟩ := session p 0
  refine ⟨s, hs, hl, C113_ranges (user p) (configured p) hs, ?_⟩
  refine (C113_efficiency (by norm_num) (user p) (configured p) (.fresh (fresh p)) draws ?_ 0 1 (args 0)).1 s hr
  exact ⟨⟨1, rfl, fun _ => by norm_num⟩, fun f hf => by cases hf⟩

/-- There is an iteration of the main loop. -/
example (p : Bool) : ∃ (s s' : Sampler 2 Unit Unit) (fuel : ℕ), smcStep (env p) Demo.rnd fuel s = .ok s' := by
  obtain ⟨s, its, hr, hi, -, hl, -, -, -, h8, h9⟩ := first_run p 0
  have hs : Session (env p) true s := .ran Demo.rnd 0 1 (args 0) (.fresh (fresh p)) draws hr
  have hd : Draws s.scaler.low s.scaler.high Demo.rnd := by rw [h8, h9]; exact draws
  obtain ⟨fuel, h⟩ := C75_iteration_returns (env p) _ _ _ true (user p) (configured p) (flat p).proper s s hs Demo.rnd hd (reliable p) .refl
    (by rw [hi.past]; intro h; simp [columns] at h; rw [h] at hl; simp at hl)
  obtain ⟨s', h⟩ := h fuel le_rfl
  exact ⟨s, s', fuel, h⟩

end Demo

end Poco
