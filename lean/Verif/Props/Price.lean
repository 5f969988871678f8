import Verif.Props.Diagnostics
import Verif.Props.Termination

/-! C115: what a run costs in likelihood evaluations. -/

namespace Poco
open F Spec

variable {d : ℕ} {B Φ : Type}

theorem maskSelect_length_le {α : Type} (mask : List Bool) (a : List α) : (maskSelect mask a).length ≤ a.length := by
  unfold maskSelect
  rw [List.length_map]
  refine (List.length_filter_le _ _).trans ?_
  rw [List.length_zip]
  exact Nat.min_le_right _ _

theorem evaluate_cost {e : McmcEnv d B} {cands full : List (Walker d B)} {ev : List (Pt d)} {n : ℕ} (h : evaluate e cands = .ok (full, ev, n)) :
    ev.length ≤ cands.length := by
  unfold evaluate at h
  obtain ⟨logp, -, h⟩ := bind_ok h
  obtain ⟨⟨ll, bl⟩, -, h⟩ := bind_ok h
  obtain ⟨logl, -, h⟩ := bind_ok h
  obtain ⟨blobs, -, h⟩ := bind_ok h
  simp only [pure, Except.pure, Except.ok.injEq, Prod.mk.injEq] at h
  obtain ⟨-, rfl, -⟩ := h
  refine (maskSelect_length_le _ _).trans ?_
  rw [List.length_map]

/-- Each step of the MCMC evaluates at most one point for each walker. -/
theorem mcmc_cost {e : McmcEnv d B} {fuel : ℕ} {rnd : ℕ → ℕ → Draw d} {ws : List (Walker d B)} {r : McmcResult d B} (h : mcmc e fuel rnd ws = .ok r) :
    r.evaluated.length ≤ ws.length * r.steps ∧ 1 ≤ r.steps ∧ r.steps ≤ max 1 e.nMax := by
  obtain ⟨st, s0, ss⟩ := mcmc_states h
  obtain ⟨st', l1, l2, l3, l4, l5, l6, l7⟩ := mcmc_ok h
  obtain ⟨e1, e2, -⟩ := mcmcLoop_ends l1 st s0 (fun j _ hj => ss j hj)
  have key : ∀ i ≤ r.steps, (st i).walkers.length = ws.length ∧ (st i).evaluated.length ≤ ws.length * i := by
    intro i
    induction i with
    | zero => intro _; rw [s0]; simp [mcmcInit]
    | succ i ih =>
      intro hi
      obtain ⟨k1, k2⟩ := ih (by omega)
      have hs := ss i (by omega)
      refine ⟨(step_walker hs).1.trans k1, ?_⟩
      obtain ⟨cands, props, ev, n, m1, m2, -, -, -, -, -, m8⟩ := mcmcStep_ok hs
      have := evaluate_cost m2
      rw [(mapM_eq_ok m1).1, List.length_mapIdx, k1] at this
      rw [m8, List.length_append, Nat.mul_succ]
      omega
  have := (key r.steps le_rfl).2
  rw [e2] at this
  refine ⟨by rw [l7]; exact this, e1, ?_⟩
  have := (loop_steps l1).2
  omega

theorem gather_len {α : Type} {l : List α} {idx : List ℕ} {out : List α} (h : gather l idx = .ok out) : out.length = idx.length := by
  unfold gather at h
  exact (mapM_eq_ok h).1

theorem resampleStep_len {e : SamplerEnv d B Φ} {rnd : Rnd d Φ} {s : Sampler d B Φ} {c c' : Cur d B} (h : resampleStep e rnd s c = .ok c') :
    List.length c'.it.x = e.nActive := by
  unfold resampleStep at h
  obtain ⟨w, -, h⟩ := bind_ok h
  obtain ⟨idx, h1, h⟩ := bind_ok h
  obtain ⟨u, -, h⟩ := bind_ok h
  obtain ⟨x, h2, h⟩ := bind_ok h
  obtain ⟨_, -, h⟩ := bind_ok h
  obtain ⟨_, -, h⟩ := bind_ok h
  obtain ⟨_, -, h⟩ := bind_ok h
  obtain ⟨_, -, h⟩ := bind_ok h
  simp only [pure, Except.pure, Except.ok.injEq] at h
  subst h
  exact (gather_len h2).trans (resampleIdx_length h1)

theorem toWalkers_len {it : Iter d (List B)} {hb : Bool} {ws : List (Walker d (List B))} (h : toWalkers it hb = .ok ws) : ws.length = List.length it.x := by
  have key : ∀ bl : List (Option (List B)), (let n := List.length it.x
      if List.length it.u = n ∧ List.length it.logdetj = n ∧ List.length it.logl = n ∧ List.length it.logp = n ∧ bl.length = n then
        (pure ((List.range n).map fun k => ({ theta := fun _ => nan, u := it.u.getD k (fun _ => nan), x := it.x.getD k (fun _ => nan), logdetj := it.logdetj.getD k nan, logdetjFlow := nan, logl := it.logl.getD k nan, logp := it.logp.getD k nan, blob := bl.getD k none } : Walker d (List B))) : Except PyErr _)
      else .error .indexError) = .ok ws → ws.length = List.length it.x := by
    intro bl h
    dsimp only at h
    split_ifs at h
    simp only [pure, Except.pure, Except.ok.injEq] at h
    subst h
    simp
  unfold toWalkers at h
  cases hb with
  | false => exact key _ h
  | true =>
    cases hbl : it.blobs with
    | none => rw [hbl] at h; cases h
    | some b => rw [hbl] at h; exact key _ h

section
variable {e : SamplerEnv d B Φ} {rnd : Rnd d Φ}

/-- **C115, one iteration**: between one and `max(1, n_max_steps)` steps are recorded, and at most `n_active` points are evaluated per recorded step; nothing evaluated before is
forgotten.  For all user functions. -/
theorem C115_iteration {fuel : ℕ} {s s' : Sampler d B Φ} (h : smcStep e rnd fuel s = .ok s') :
    ∃ (n : ℕ) (new : List (Pt d)), s'.particles.past.steps = s.particles.past.steps ++ [n] ∧ s'.evals = s.evals ++ new ∧ new.length ≤ e.nActive * n ∧
      1 ≤ n ∧ n ≤ max 1 e.nMaxSteps ∧ s'.nEvidence = s.nEvidence := by
  obtain ⟨c, s1, c1, s2, c2, s3, c3, h0, h1, h2, h3, h4, rfl⟩ := smcStep_ok h
  obtain ⟨nEff, beta, logz, ess, w, tr, -, -, -, g, rfl⟩ := reweight_ok h1
  obtain ⟨ws, k, r, g1, g2, g3, h5⟩ := mutate_ok h4
  simp only [writeBack, Prod.mk.injEq] at h5
  obtain ⟨rfl, rfl⟩ := h5
  have hp : s2.particles = s.particles ∧ s2.evals = s.evals ∧ s2.nEvidence = s.nEvidence := by
    rcases train_ok h2 with ⟨-, f, g, rfl⟩ | ⟨-, g, rfl⟩ <;> exact ⟨rfl, rfl, rfl⟩
  have hk : k.nMax = e.nMaxSteps := by
    unfold kernelEnv at g2
    obtain ⟨_, -, g2⟩ := bind_ok g2
    obtain ⟨_, -, g2⟩ := bind_ok g2
    obtain ⟨_, -, g2⟩ := bind_ok g2
    simp only [pure, Except.pure, Except.ok.injEq] at g2
    subst g2
    rfl
  obtain ⟨m1, m2, m3⟩ := mcmc_cost g3
  rw [toWalkers_len g1, resampleStep_len h3] at m1
  rw [hk] at m3
  refine ⟨r.steps, r.evaluated, ?_, ?_, m1, m2, m3, hp.2.2⟩
  · simp only [Particles.update, Cols.full, hp.1]
    rfl
  · simp only [hp.2.1]

/-- A warm-up batch evaluates at most `n_active` points. -/
theorem warmup_cost {s s' : Sampler d B Φ} {i : ℕ} (h : warmupStep e rnd s i = .ok s') :
    s'.particles.past.steps = s.particles.past.steps ++ [1] ∧ ∃ new, s'.evals = s.evals ++ new ∧ new.length ≤ e.nActive ∧ s'.nEvidence = s.nEvidence := by
  refine ⟨(C113_warmup h).1, ?_⟩
  obtain ⟨b0, hb, b, h1, -, rfl⟩ := warmupStep_shape h
  refine ⟨b0.x, rfl, ?_, rfl⟩
  unfold warmupBatch at h1
  obtain ⟨ps, -, h1⟩ := bind_ok h1
  obtain ⟨u, -, h1⟩ := bind_ok h1
  obtain ⟨inv, -, h1⟩ := bind_ok h1
  obtain ⟨⟨ll, bl, hb'⟩, -, h1⟩ := bind_ok h1
  simp only [pure, Except.pure, Except.ok.injEq, Prod.mk.injEq] at h1
  rw [← h1.1]
  simp only [List.length_take]
  exact Nat.min_le_left _ _

theorem evidence_cost {s s' : Sampler d B Φ} (hf : ∀ t φ n, (rnd.flowSample t φ n).length ≤ n) (h : finalEvidence e rnd s = .ok s') :
    s'.particles = s.particles ∧ ∃ new, s'.evals = s.evals ++ new ∧ new.length ≤ (if e.preconditioned then s.nEvidence else 0) := by
  rcases finalEvidence_ok h with ⟨g1, g2, h⟩ | ⟨-, lw, z, -, rfl⟩
  · rw [if_pos g2]
    unfold computeEvidence at h
    obtain ⟨inv, h1, h⟩ := bind_ok h
    obtain ⟨⟨ll, bl, hb⟩, h2, h⟩ := bind_ok h
    simp only [pure, Except.pure, Except.ok.injEq] at h
    subst h
    refine ⟨rfl, _, rfl, (maskSelect_length_le _ _).trans ?_⟩
    unfold Scaler.inverse at h1
    rw [List.length_map, (mapM_eq_ok h1).1, List.length_map]
    exact hf _ _ _
  · exact ⟨rfl, [], by simp, by simp⟩

theorem warmupLoop_cost {k : Option ℕ} {t0 : ℕ} (n : ℕ) : ∀ (i : ℕ) (s s' : Sampler d B Φ), (warmupLoop e rnd k t0 n i s).2 = .ok s' →
    s'.particles.past.steps = s.particles.past.steps ++ List.replicate n 1 ∧ s'.nEvidence = s.nEvidence ∧ ∃ new, s'.evals = s.evals ++ new ∧ new.length ≤ e.nActive * n := by
  induction n with
  | zero =>
    intro i s s' h
    simp only [warmupLoop, Except.ok.injEq] at h
    subst h
    exact ⟨by simp, rfl, [], by simp, by simp⟩
  | succ n ih =>
    intro i s s' h
    unfold warmupLoop at h
    obtain ⟨s1, h1, hn⟩ := andThen_ok h
    rw [save_ok h1] at hn
    obtain ⟨s2, h2, h⟩ := andThen_ok hn
    obtain ⟨k1, new, k2, k3, k4⟩ := warmup_cost h2
    obtain ⟨j1, j2, new', j3, j4⟩ := ih _ _ _ h
    refine ⟨by rw [j1, k1, List.replicate_succ]; simp, j2.trans k4, new ++ new', by rw [j3, k2, List.append_assoc], ?_⟩
    rw [List.length_append, Nat.mul_succ]
    omega

theorem smcLoop_cost {k : Option ℕ} {t0 fuel : ℕ} (n : ℕ) : ∀ (s s' : Sampler d B Φ), (smcLoop e rnd fuel k t0 n s).2 = .ok s' →
    ∃ (steps : List ℕ) (new : List (Pt d)), s'.particles.past.steps = s.particles.past.steps ++ steps ∧ s'.evals = s.evals ++ new ∧ new.length ≤ e.nActive * steps.sum ∧
      (∀ k ∈ steps, 1 ≤ k ∧ k ≤ max 1 e.nMaxSteps) ∧ steps.length ≤ n ∧ s'.nEvidence = s.nEvidence := by
  induction n with
  | zero =>
    intro s s' h
    unfold smcLoop at h
    split at h
    · cases h
    · simp only [Except.ok.injEq] at h
      subst h
      exact ⟨[], [], by simp, by simp, by simp, by simp, by simp, rfl⟩
    · cases h
  | succ n ih =>
    intro s s' h
    unfold smcLoop at h
    split at h
    · cases h
    · simp only [Except.ok.injEq] at h
      subst h
      exact ⟨[], [], by simp, by simp, by simp, by simp, by simp, rfl⟩
    · obtain ⟨s1, h1, hn⟩ := andThen_ok h
      rw [save_ok h1] at hn
      obtain ⟨s2, h2, h⟩ := andThen_ok hn
      obtain ⟨m, new, k1, k2, k3, k4, k5, k6⟩ := C115_iteration h2
      obtain ⟨steps, new', j1, j2, j3, j4, j5, j6⟩ := ih _ _ h
      refine ⟨m :: steps, new ++ new', by rw [j1, k1]; simp, by rw [j2, k2, List.append_assoc], ?_, ?_, by simpa using j5, j6.trans k6⟩
      · rw [List.length_append, List.sum_cons, Nat.mul_add]
        omega
      · intro q hq
        rcases List.mem_cons.mp hq with rfl | hq
        · exact ⟨k4, k5⟩
        · exact j4 q hq

/-- **C115, a run**: the warm-up batches (when the run begins with the warm-up) record one step each, and the iterations after them record between one and `max(1, n_max_steps)` steps; the
points the run evaluates are at most `n_active` for each recorded step, plus `n_evidence` when the evidence is estimated with the flow, and they follow the earlier evaluations.
For all user functions, states and draws. -/
theorem C115_run (e : SamplerEnv d B Φ) (rnd : Rnd d Φ) (hf : ∀ t φ n, (rnd.flowSample t φ n).length ≤ n) (fuel n : ℕ) (a : RunArgs) (s s' : Sampler d B Φ)
    (hr : (run e rnd fuel n a s).2 = .ok s') :
    ∃ (steps : List ℕ) (new : List (Pt d)),
      s'.particles.past.steps = s.particles.past.steps ++ List.replicate (if s.warmup then e.nPrior / e.nActive else 0) 1 ++ steps ∧ s'.evals = s.evals ++ new ∧
      new.length ≤ e.nActive * ((if s.warmup then e.nPrior / e.nActive else 0) + steps.sum) + (if e.preconditioned then a.nEvidence else 0) ∧
      (∀ k ∈ steps, 1 ≤ k ∧ k ≤ max 1 e.nMaxSteps) ∧ steps.length ≤ n := by
  obtain ⟨s1, s2, s3, h1, h2, h3, h4⟩ := run_ok hr
  have k1 : s1.particles = s.particles ∧ s1.evals = s.evals ∧ s1.nEvidence = a.nEvidence ∧ s1.warmup = s.warmup := by
    rcases runInit_ok h1 with ⟨-, rfl⟩ | ⟨-, sc, -, rfl⟩ <;> exact ⟨rfl, rfl, rfl, rfl⟩
  have k2 : s2.particles.past.steps = s.particles.past.steps ++ List.replicate (if s.warmup then e.nPrior / e.nActive else 0) 1 ∧ s2.nEvidence = a.nEvidence ∧
      ∃ new, s2.evals = s.evals ++ new ∧ new.length ≤ e.nActive * (if s.warmup then e.nPrior / e.nActive else 0) := by
    unfold runWarmup at h2
    rw [← k1.2.2.2, ← k1.1, ← k1.2.1, ← k1.2.2.1]
    by_cases hw : s1.warmup = true
    · rw [if_pos hw] at h2 ⊢
      by_cases hz : e.nActive = 0
      · rw [if_pos hz] at h2; cases h2
      · rw [if_neg hz] at h2
        obtain ⟨s1', g1, g2⟩ := andThen_ok h2
        simp only [Except.ok.injEq] at g2
        subst g2
        exact warmupLoop_cost (e := e) (rnd := rnd) _ _ _ s1' g1
    · rw [if_neg hw] at h2 ⊢
      simp only [Except.ok.injEq] at h2
      subst h2
      exact ⟨by simp, rfl, [], by simp, by simp⟩
  obtain ⟨j1, j2, new1, j3, j4⟩ := k2
  obtain ⟨steps, new2, l1, l2, l3, l4, l5, l6⟩ := smcLoop_cost n _ _ h3
  obtain ⟨p1, new3, p2, p3⟩ := evidence_cost hf h4
  rw [l6, j2] at p3
  refine ⟨steps, new1 ++ new2 ++ new3, by rw [p1, l1, j1], by rw [p2, l2, j3]; simp, ?_, l4, l5⟩
  rw [List.length_append, List.length_append, Nat.mul_add]
  omega

/-- **C115, the total**: a run of at most `n` iterations evaluates at most `n_prior` points in the warm-up, `n_active` times `max(1, n_max_steps)` in each iteration, and `n_evidence`. -/
theorem C115_total (e : SamplerEnv d B Φ) (rnd : Rnd d Φ) (hf : ∀ t φ n, (rnd.flowSample t φ n).length ≤ n) (fuel n : ℕ) (a : RunArgs) (s s' : Sampler d B Φ)
    (hr : (run e rnd fuel n a s).2 = .ok s') :
    s'.evals.length ≤ s.evals.length + (if s.warmup then e.nPrior else 0) + n * (e.nActive * max 1 e.nMaxSteps) + (if e.preconditioned then a.nEvidence else 0) := by
  obtain ⟨steps, new, -, h2, h3, h4, h5⟩ := C115_run e rnd hf fuel n a s s' hr
  have hw : e.nActive * (if s.warmup then e.nPrior / e.nActive else 0) ≤ (if s.warmup then e.nPrior else 0) := by
    split_ifs
    · exact Nat.mul_div_le _ _
    · simp
  have hs : steps.sum ≤ n * max 1 e.nMaxSteps := by
    have := List.sum_le_card_nsmul steps (max 1 e.nMaxSteps) fun k hk => (h4 k hk).2
    rw [smul_eq_mul] at this
    exact this.trans (Nat.mul_le_mul_right _ h5)
  have hs2 : e.nActive * steps.sum ≤ n * (e.nActive * max 1 e.nMaxSteps) := by
    rw [Nat.mul_left_comm]
    exact Nat.mul_le_mul_left _ hs
  rw [h2, List.length_append]
  rw [Nat.mul_add] at h3
  omega

/-- **C115, a bounded likelihood**: with a log-likelihood between `lo` and `hi` wherever it is not `-inf`, every run ends, and the number of points it evaluates is below a number that
depends only on `lo`, `hi`, the settings and the arguments, whatever the draws. -/
theorem C115_bounded (e : SamplerEnv d B Φ) (ll lp : Pt d → F) (bb : Pt d → List B) (hb : Bool) (hu : UserFns e ll lp bb hb)
    (hc : Configured e) (hp : ProperLike ll) (s : Sampler d B Φ) (hs : Session e hb s) (lo hi : ℝ) (hbd : Bounded s.scaler.low s.scaler.high ll lo hi)
    (r : ℝ) (hdr : e.dynamicRatio = fin r) (hr : e.dynamic = true → 0.95 * r < 1) (a : RunArgs) (hk : a.saveEvery ≠ some 0)
    (rnd : Rnd d Φ) (hd : Draws s.scaler.low s.scaler.high rnd) (hrel : Reliable e rnd) (hf : ∀ t φ n, (rnd.flowSample t φ n).length ≤ n)
    (hsup : s.warmup = true → Supported e ll (s.priorSamples.getD (rnd.prior e.nPrior)))
    (hne : s.warmup = false → s.particles.past.x ≠ []) :
    ∃ fuel₀, ∀ fuel, fuel₀ ≤ fuel → ∃ s', (run e rnd fuel (iterationBound lo hi r e.dynamic e.nActive s.nEffective a.nTotal + 1) a s).2 = .ok s' ∧
      s'.evals.length ≤ s.evals.length + (if s.warmup then e.nPrior else 0) +
        (iterationBound lo hi r e.dynamic e.nActive s.nEffective a.nTotal + 1) * (e.nActive * max 1 e.nMaxSteps) + (if e.preconditioned then a.nEvidence else 0) := by
  obtain ⟨f0, h⟩ := C114_ends e ll lp bb hb hu hc hp s hs lo hi hbd r hdr hr a hk rnd hd hrel hsup hne
  refine ⟨f0, fun fuel hfu => ?_⟩
  obtain ⟨s', hs'⟩ := h fuel hfu
  exact ⟨s', hs', C115_total e rnd hf fuel _ a s s' hs'⟩

end
end Poco

namespace Poco.Demo
open F Spec

/-- The hypotheses are met by the example of C114, whose flow returns as many points as it is asked for. -/
example : ∃ fuel₀, ∀ fuel, fuel₀ ≤ fuel → ∃ s', (run env114 rnd fuel (iterationBound 0 1 0.5 true 2 start.nEffective 100 + 1) ⟨100, 3, none⟩ start).2 = .ok s' ∧
    s'.evals.length ≤ 0 + 4 + (iterationBound 0 1 0.5 true 2 start.nEffective 100 + 1) * (2 * max 1 env114.nMaxSteps) + 3 := by
  obtain ⟨f0, h⟩ := ends114
  refine ⟨f0, fun fuel hf => ?_⟩
  obtain ⟨s', hs'⟩ := h fuel hf
  exact ⟨s', hs', C115_total env114 rnd (fun _ _ n => by simp [rnd]) _ _ _ _ _ hs'⟩

end Poco.Demo
