import Verif.Props.Failure

/-! Calling `run` again after an exception: C108. -/

namespace Poco
open F Spec

variable {d : ℕ} {B Φ : Type}

section
variable {e e' : SamplerEnv d B Φ} {ll lp : Pt d → F} {bb : Pt d → List B} {hb : Bool} {s s' : Sampler d B Φ} {rnd : Rnd d Φ}
  {its : List (Iter d (List B))} {lo : Leftover d Φ}

/-- With the last stored iteration put back, the state is as after a run without failures. -/
theorem Kept.restored (h : Kept true e ll lp bb hb s its) (hg : s.flowUntrained = false → s.thetaGeometry.isSome = true) {it : Iter d (List B)}
    (hl : its.getLast? = some it) (w : Option (List F)) : Inv e ll lp bb hb { s with cur := some { it := it, weights := w } } its :=
  ⟨h.past, h.rows, hl.symm, h.betas, h.logz, h.blobs, h.blobs', h.bounds, h.scale, h.noPrior, h.prior, hg, h.warm⟩

theorem Kept.smcStep_restored (h : Kept true e ll lp bb hb s its) {it : Iter d (List B)} (hl : its.getLast? = some it) (w : Option (List F)) (fuel : ℕ) :
    smcStep e' rnd fuel s = smcStep e' rnd fuel { s with cur := some { it := it, weights := w } } := by
  rcases h.cur rfl with ⟨-, h2⟩ | ⟨c, it', h1, h2, h3⟩
  · rw [h2] at hl; simp at hl
  · rw [h2] at hl
    simp only [Option.some.injEq] at hl
    subst hl
    have hhb : s.haveBlobs = hb := h.blobs (by rintro rfl; simp at h2)
    obtain ⟨l1, l2, l3, l4⟩ := h3.late rfl
    refine (smcStep_same h1 ⟨h3.iter.symm, h3.logw.symm, fun _ => ⟨l1.symm, l2.symm, l3.symm, l4.symm⟩, fun hh => ?_⟩).symm
    exact (h3.blobs (hhb ▸ hh)).symm

/-- C108, the part that holds. In every state reached after any number of failed runs, with at least one stored iteration (the last one being `it`): an iteration
of the main loop does what it would do if `current_particles` were that stored iteration, so nothing the failed attempts computed about the particles enters; and,
with all components working and the flow either marked as untrained or with its geometry fitted, it returns.

Missing for the full claim: `run` decides to stop from the temperature of the failed attempt (`C108_stops_early`), repeats the warm-up from the start
(`C108_warmup_repeated`), and can be left with a flow that counts as trained but has no geometry (`C108_retry_fails`). -/
theorem C108_retry_partial (hu : UserFns e ll lp bb hb) (hc : Configured e) (h : Attempts e hb true s) (hne : s.particles.past.x ≠ []) :
    ∃ (its : List (Iter d (List B))) (it : Iter d (List B)), s.particles.past = columns its ∧ its.getLast? = some it ∧
      (∀ (e' : SamplerEnv d B Φ) (rnd : Rnd d Φ) (fuel : ℕ) (w : Option (List F)), smcStep e' rnd fuel s = smcStep e' rnd fuel { s with cur := some { it := it, weights := w } }) ∧
      ∀ rnd, ProperLike ll → Reliable e rnd → (s.flowUntrained = false → s.thetaGeometry.isSome = true) →
        ∃ fuel₀, ∀ fuel, fuel₀ ≤ fuel → ∃ s', smcStep e rnd fuel s = .ok s' := by
  obtain ⟨its, hk⟩ := h.kept hu hc (ll := ll) (lp := lp) (bb := bb)
  have hn : its ≠ [] := by
    rintro rfl
    rw [hk.past] at hne
    exact hne rfl
  refine ⟨its, its.getLast hn, hk.past, List.getLast?_eq_getLast_of_ne_nil hn,
    fun e' rnd fuel w => hk.smcStep_restored (List.getLast?_eq_getLast_of_ne_nil hn) w fuel, fun rnd hp hrel hg => ?_⟩
  obtain ⟨f0, hf⟩ := (hk.restored hg (List.getLast?_eq_getLast_of_ne_nil hn) none).smcStep_total hu hc hrel hp hn
  refine ⟨f0, fun fuel hfu => ?_⟩
  rw [hk.smcStep_restored (List.getLast?_eq_getLast_of_ne_nil hn) none fuel]
  exact hf fuel hfu

/-! ### building failing runs -/

theorem Beside.of_ok {α γ : Type} {m : PyM d B Φ α} {a : Except PyErr γ} {ok : α → γ → Sampler d B Φ → Prop} {err : Sampler d B Φ → Prop} {r : γ}
    (h : Beside true m s a ok err) (ha : a = .ok r) : ∃ v s', m none s = .ok (v, none) s' ∧ ok v r s' := by
  have := h none fun _ => rfl
  cases hm : m none s with
  | ok v s' =>
    rw [hm] at this
    obtain ⟨h0, w, h1, h2⟩ := this
    rw [ha] at h1
    simp only [Except.ok.injEq] at h1
    subst h1
    exact ⟨v.1, s', by rw [← h0 rfl], h2⟩
  | error x s' =>
    rw [hm, ha] at this
    rcases this with ⟨h, -⟩ | ⟨h | ⟨h, -⟩, -⟩ <;> cases h

theorem Beside.of_error {α γ : Type} {m : PyM d B Φ α} {a : Except PyErr γ} {ok : α → γ → Sampler d B Φ → Prop} {err : Sampler d B Φ → Prop} {x : PyErr}
    (h : Beside true m s a ok err) (ha : a = .error x) : ∃ s', m none s = .error x s' ∧ err s' := by
  have := h none fun _ => rfl
  cases hm : m none s with
  | ok v s' =>
    rw [hm] at this
    obtain ⟨h0, w, h1, h2⟩ := this
    rw [ha] at h1
    cases h1
  | error y s' =>
    rw [hm, ha] at this
    rcases this with ⟨h, -⟩ | ⟨h | ⟨h, -⟩, h'⟩
    · cases h
    · simp only [Except.error.injEq] at h
      subst h
      exact ⟨s', rfl, h'⟩
    · cases h

theorem bindX_ok {α β : Type} {m : PyM d B Φ α} {f : α → PyM d B Φ β} {v : α} {k k' : Option ℕ} {s s' : Sampler d B Φ} (h : m k s = .ok (v, k') s') :
    (m >>= f) k s = f v k' s' := by
  change EStateM.bind (m k) (fun p => f p.1 p.2) s = _
  unfold EStateM.bind
  rw [h]

theorem bindX_error {α β : Type} {m : PyM d B Φ α} {f : α → PyM d B Φ β} {x : PyErr} {k : Option ℕ} {s s' : Sampler d B Φ} (h : m k s = .error x s') :
    (m >>= f) k s = .error x s' := by
  change EStateM.bind (m k) (fun p => f p.1 p.2) s = _
  unfold EStateM.bind
  rw [h]

theorem runX_of_loop {fuel n : ℕ} {a : RunArgs} {s s1 s2 s3 : Sampler d B Φ} {x : PyErr} (h1 : runInit e rnd a s = .ok s1)
    (h2 : (runWarmup e rnd a s.t s1).2 = .ok s2) (h3 : smcLoopX e rnd lo fuel a.saveEvery s.t n none s2 = .error x s3) :
    Raised (runX e rnd lo fuel n a none s) x s3 := by
  unfold Raised runX
  rw [bindX_ok (show (PyM.look : PyM d B Φ _) none s = .ok (s, none) s from rfl)]
  obtain ⟨_, s1', g1, rfl⟩ := (runInitX_spec a s).of_ok h1
  rw [bindX_ok g1]
  obtain ⟨_, s2', g2, rfl⟩ := (runWarmupX_spec s1').of_ok h2
  rw [bindX_ok g2, bindX_error h3]

theorem runX_of_warmup {fuel n : ℕ} {a : RunArgs} {s s1 s2 : Sampler d B Φ} {x : PyErr} (h1 : runInit e rnd a s = .ok s1)
    (h2 : runWarmupX e rnd a s.t none s1 = .error x s2) :
    Raised (runX e rnd lo fuel n a none s) x s2 := by
  unfold Raised runX
  rw [bindX_ok (show (PyM.look : PyM d B Φ _) none s = .ok (s, none) s from rfl)]
  obtain ⟨_, s1', g1, rfl⟩ := (runInitX_spec a s).of_ok h1
  rw [bindX_ok g1, bindX_error h2]

theorem smcLoopX_of_train {fuel n t0 : ℕ} {s s1 s3 : Sampler d B Φ} {c c1 : Cur d B} {x : PyErr} (h0 : notTermination e s = .ok true) (hc : s.cur = some c)
    (h1 : reweight e fuel s c = .ok (s1, c1)) (h2 : trainX e rnd lo none { s1 with cur := some c1 } = .error x s3) :
    smcLoopX e rnd lo fuel none t0 (n + 1) none s = .error x s3 := by
  have hstep : smcStepX e rnd lo fuel none s = .error x s3 := by
    unfold smcStepX
    rw [bindX_ok (show (PyM.look : PyM d B Φ _) none s = .ok (s, none) s from rfl), hc, bindX_ok (show (PyM.call (orErr .attributeError (some c)) : PyM d B Φ _) none s = .ok (c, none) s from rfl)]
    obtain ⟨_, s1', g1, rfl, -⟩ := (reweightX_spec hc).of_ok h1
    rw [bindX_ok g1, bindX_error h2]
  unfold smcLoopX
  rw [bindX_ok (show (PyM.look : PyM d B Φ _) none s = .ok (s, none) s from rfl), h0, bindX_ok (show (PyM.call (Except.ok true) : PyM d B Φ _) none s = .ok (true, none) s from rfl)]
  simp only [if_true]
  rw [bindX_ok (show (PyM.call (saveNow none t0 s) : PyM d B Φ _) none s = .ok (_, none) s from rfl), bindX_error hstep]

theorem trainX_theta_fails {s : Sampler d B Φ} {c : Cur d B} {w : List F} {x : PyErr} (hc : s.cur = some c) (hw : c.weights = some w)
    (hp : trainNow e s c.it.beta = .ok true) (hf : rnd.flowFit s.t s.flow c.it.u w = .error x) :
    trainX e rnd lo none s = .error x { s with flowUntrained := false, flow := lo.flow s.t } := by
  unfold trainX
  rw [bindX_ok (show (PyM.look : PyM d B Φ _) none s = .ok (s, none) s from rfl), show orErr PyErr.attributeError s.cur = .ok c by rw [hc]; rfl,
    bindX_ok (show (PyM.call (Except.ok c) : PyM d B Φ _) none s = .ok (c, none) s from rfl), hw,
    bindX_ok (show (PyM.call (orErr .typeError (some w)) : PyM d B Φ _) none s = .ok (w, none) s from rfl), hp,
    bindX_ok (show (PyM.call (Except.ok true) : PyM d B Φ _) none s = .ok (true, none) s from rfl)]
  simp only [if_true]
  apply bindX_error
  unfold trainFlowX
  rw [hf]
  rfl

theorem trainX_u_fails {s : Sampler d B Φ} {c : Cur d B} {w : List F} {x : PyErr} (hc : s.cur = some c) (hw : c.weights = some w)
    (hp : trainNow e s c.it.beta = .ok false) (hf : rnd.geoFit s.t c.it.u w = .error x) :
    trainX e rnd lo none s = .error x { s with uGeometry := lo.uGeo s.t } := by
  unfold trainX
  rw [bindX_ok (show (PyM.look : PyM d B Φ _) none s = .ok (s, none) s from rfl), show orErr PyErr.attributeError s.cur = .ok c by rw [hc]; rfl,
    bindX_ok (show (PyM.call (Except.ok c) : PyM d B Φ _) none s = .ok (c, none) s from rfl), hw,
    bindX_ok (show (PyM.call (orErr .typeError (some w)) : PyM d B Φ _) none s = .ok (w, none) s from rfl), hp,
    bindX_ok (show (PyM.call (Except.ok false) : PyM d B Φ _) none s = .ok (false, none) s from rfl)]
  simp only [Bool.false_eq_true, if_false]
  unfold fitUX
  rw [hf]
  rfl

/-- A flow that counts as trained although its geometry was never fitted: an iteration of the main loop that does not train raises. -/
theorem Kept.stuck (hu : UserFns e ll lp bb hb) (hc : Configured e) (hrel : Reliable e rnd) (h : Kept true e ll lp bb hb s its)
    {H : List Stage} (hH : Holds s.particles.past H) (hR : Rect H e.nActive) (hlen : H.length = its.length) (hne : its ≠ [])
    {fuel : ℕ} {β lz : ℝ} {es : F}
    (hbeta : chooseBeta s.particles.past e.metric (F.ofNat s.nEffective) fuel = .ok (fin β, fin lz, es)) (hβ : β ≠ 1)
    (hp : e.preconditioned = true) (hut : s.flowUntrained = false) (hg : s.thetaGeometry = none) (ht : (s.t + 1) % e.trainFrequency ≠ 0) :
    smcStep e rnd fuel s = .error .typeError := by
  have hl := List.getLast?_eq_getLast_of_ne_nil hne
  have h5 : Kept true e ll lp bb hb { s with flowUntrained := true } its :=
    ⟨h.past, h.rows, h.cur, h.curOk, h.betas, h.logz, h.blobs, h.blobs', h.bounds, h.scale, h.noPrior, h.prior, h.warm⟩
  obtain ⟨s', k1, -⟩ := (h5.restored (fun hh => by cases hh) hl none).smcStep_of_beta hu hc hrel hH hR hlen hne hbeta
  obtain ⟨c, s1, c1, s2, c2, s3, c3, g0, g1, g2, g3, g4, -⟩ := smcStep_ok k1
  simp only [Option.some.injEq] at g0
  subst g0
  obtain ⟨nEff, beta, logz, ess, w, tr, r1, r2, r3, r4, rfl⟩ := reweight_ok g1
  have hb' : beta = fin β := by
    rw [hbeta] at r1
    simp only [Except.ok.injEq, Prod.mk.injEq] at r1
    exact r1.1.symm
  have hhb := h.blobs hne
  have r4' := r4
  simp only [h.past, hhb] at r4'
  obtain ⟨-, qw, -, -, -, -, -, -, qb, -⟩ := gatherCur_ok hne h.rows (fun hf => by
    obtain ⟨rows, -, r2, -⟩ := h.rows (its.getLast hne) (List.getLast_mem hne)
    rw [r2.blobs, hf]; rfl) r4'
  obtain ⟨ws, k, res, m1, -, -, -⟩ := mutate_ok g4
  have hs2 : s2.t = s.t + 1 ∧ s2.haveBlobs = s.haveBlobs := by
    rcases train_ok g2 with ⟨-, flow, g, rfl⟩ | ⟨-, g, rfl⟩ <;> exact ⟨rfl, rfl⟩
  -- the same steps from `s`
  rw [h.smcStep_restored hl none fuel]
  have q1 : reweight e fuel { s with cur := some { it := its.getLast hne, weights := none } } { it := its.getLast hne, weights := none } =
      .ok ({ s with cur := some { it := its.getLast hne, weights := none }, t := s.t + 1, nEffective := nEff }, c1) := by
    have r2' : reweightWeights e { s with cur := some { it := its.getLast hne, weights := none }, t := s.t + 1 } beta = .ok (w, nEff) := r2
    unfold reweight
    simp only at r1 r4
    simp only [r1, bind, Except.bind, r2', r3, r4]
    rfl
  obtain ⟨g, hgeo⟩ := hrel.geo (s.t + 1) c1.it.u tr.weights
  have q2 : train e rnd { s with cur := some { it := its.getLast hne, weights := none }, t := s.t + 1, nEffective := nEff } c1 =
      .ok { s with cur := some { it := its.getLast hne, weights := none }, t := s.t + 1, nEffective := nEff, uGeometry := some g } := by
    have hnow : trainNow e { s with cur := some { it := its.getLast hne, weights := none }, t := s.t + 1, nEffective := nEff } c1.it.beta = .ok false := by
      unfold trainNow
      have hf : ¬ feq (fin β) (fin 1) := by simpa using hβ
      simp [hp, hrel.freq hp, ht, hut, qb, hb', hf]
    unfold train
    simp only [qw, orErr, bind, Except.bind, hnow, Bool.false_eq_true, if_false, hgeo]
    rfl
  have q3 : resampleStep e rnd { s with cur := some { it := its.getLast hne, weights := none }, t := s.t + 1, nEffective := nEff, uGeometry := some g } c1 = .ok c2 := by
    rw [← g3]
    unfold resampleStep
    rw [hs2.1, hs2.2]
  have q4 : mutate e rnd fuel { s with cur := some { it := its.getLast hne, weights := none }, t := s.t + 1, nEffective := nEff, uGeometry := some g } c2 = .error .typeError := by
    rw [hs2.2] at m1
    unfold mutate kernelEnv
    simp only [m1, hp, if_true, hg, orErr, bind, Except.bind]
  unfold smcStep
  rw [show orErr PyErr.attributeError ({ s with cur := some { it := its.getLast hne, weights := none } } : Sampler d B Φ).cur = .ok { it := its.getLast hne, weights := none } from rfl]
  simp only [bind, Except.bind, q1, q2, q3, q4]

theorem smcLoop_error {t0 n fuel : ℕ} {x : PyErr} (h0 : notTermination e s = .ok true) (h : smcStep e rnd fuel s = .error x) :
    (smcLoop e rnd fuel none t0 (n + 1) s).2 = .error x := by
  unfold smcLoop
  simp only [h0]
  rw [andThen_snd, save_snd, bind_assoc]
  change (Except.ok _ >>= _) = _
  simp only [bind, Except.bind, pure, Except.pure, andThen_snd, Trace.lift, h]

theorem run_error {fuel n : ℕ} {a : RunArgs} {s s1 s2 : Sampler d B Φ} {x : PyErr} (h1 : runInit e rnd a s = .ok s1)
    (h2 : (runWarmup e rnd a s.t s1).2 = .ok s2) (h3 : (smcLoop e rnd fuel a.saveEvery s.t n s2).2 = .error x) :
    (run e rnd fuel n a s).2 = .error x := by
  unfold run
  dsimp only
  rw [andThen_snd, Trace.lift, h1]
  change (Trace.andThen _ _).2 = _
  rw [andThen_snd, h2]
  change (Trace.andThen _ _).2 = _
  rw [andThen_snd, h3]
  rfl

theorem runInit_again {a : RunArgs} {ps : List (Pt d)} (h : s.priorSamples = some ps) :
    runInit e rnd a s = .ok { s with nTotal := a.nTotal, nEvidence := a.nEvidence } := by
  unfold runInit
  simp only [h]

theorem runWarmup_again {a : RunArgs} {t0 : ℕ} (h : s.warmup = false) : (runWarmup e rnd a t0 s).2 = .ok s := by
  unfold runWarmup
  simp only [h]
  rfl

end

namespace Demo

/-- The draws of `Demo.rnd`, but every fit of a geometry raises (`numpy.linalg.LinAlgError`). -/
noncomputable def badGeo : Rnd 2 Unit := { rnd with geoFit := fun _ _ _ => .error .linAlgError }

/-- The draws of `Demo.rnd`, but the training of the flow raises. -/
noncomputable def badFlow : Rnd 2 Unit := { rnd with flowFit := fun _ _ _ _ => .error .valueError }

/-- Nothing is left of an object whose fit raised. -/
def lost : Leftover 2 Unit := ⟨fun _ => (), fun _ => none, fun _ => none⟩

theorem draws_of {r : Rnd 2 Unit} (h1 : r.prior = rnd.prior) (h2 : r.mcmc = rnd.mcmc) : Draws start.scaler.low start.scaler.high r :=
  ⟨by rw [h1]; exact draws.prior, by rw [h2]; exact draws.mcmc⟩

theorem supported {r : Rnd 2 Unit} (h : r.prior = rnd.prior) (e : SamplerEnv 2 Unit Unit) (hc : Configured e) :
    Supported e (fun _ => fin 0) (r.prior e.nPrior) := by
  rw [h]
  exact supported_of hc (by simp [rnd]) fun _ _ => rfl

/-- The state after the warm-up of a first run. -/
theorem warmed (e : SamplerEnv 2 Unit Unit) (hu : UserFns e (fun _ => fin 0) (fun _ => fin 0) (fun _ => [()]) true) (hc : Configured e) (s : Sampler 2 Unit Unit)
    (hs : Fresh e true s) (hl : s.scaler = start.scaler) (r : Rnd 2 Unit) (h1 : r.prior = rnd.prior) (h2 : r.mcmc = rnd.mcmc) (a : RunArgs) (hk : a.saveEvery ≠ some 0) :
    ∃ s1 s2 its, runInit e r a s = .ok s1 ∧ (runWarmup e r a s.t s1).2 = .ok s2 ∧ Inv e (fun _ => fin 0) (fun _ => fin 0) (fun _ => [()]) true s2 its ∧
      its.length = e.nPrior / e.nActive ∧ its ≠ [] ∧ s2.warmup = false ∧ (∀ it ∈ its, it.logz = fin 0) ∧ (∀ it ∈ its, it.beta = fin 0) ∧ s2.nEffective = s.nEffective ∧
      s2.nTotal = a.nTotal ∧ s2.flowUntrained = s.flowUntrained ∧ s2.thetaGeometry = s.thetaGeometry ∧ s2.t = its.length ∧
      Draws s2.scaler.low s2.scaler.high rnd := by
  have hi := Inv.fresh (ll := fun _ => fin 0) (lp := fun _ => fin 0) (bb := fun _ => [()]) hs
  obtain ⟨s1, s2, its, k1, k2, k3, k4, k5, k6, k7, k8, k9⟩ := hi.start_total hu hc (by rw [hl]; exact draws_of h1 h2) a hk (fun _ => by
    rw [hs.priorSamples]
    exact supported h1 e hc) (fun hw => by rw [hs.warmup] at hw; cases hw)
  have hs1 : s1.particles = s.particles ∧ s1.nEffective = s.nEffective ∧ s1.nTotal = a.nTotal ∧ s1.flowUntrained = s.flowUntrained ∧ s1.thetaGeometry = s.thetaGeometry ∧
      s1.t = s.t := by
    rcases runInit_ok k1 with ⟨-, rfl⟩ | ⟨-, sc, -, rfl⟩ <;> exact ⟨rfl, rfl, rfl, rfl, rfl, rfl⟩
  obtain ⟨z1, z2, z3, z4⟩ := warmup_logz (s := s1) (by rw [hs1.1, hs.particles]; simp [Particles.init]) (by rw [hs1.1, hs.particles]; simp [Particles.init]) k2
  rw [k3.past] at z1 z2
  have hP := (TraceP.runWarmup (e := e) (rnd := r) (P := fun q => q.flowUntrained = s.flowUntrained ∧ q.thetaGeometry = s.thetaGeometry ∧ q.t = q.particles.past.x.length)
    (fun q q' i _ hq hw => by
      obtain ⟨b0, hb, b, -, -, rfl⟩ := warmupStep_shape hw
      exact ⟨hq.1, hq.2.1, by simp [Particles.update, Cols.full, hq.2.2]⟩) (fun q hq => hq) a s.t s1
    ⟨hs1.2.2.2.1, hs1.2.2.2.2.1, by rw [hs1.2.2.2.2.2, hs1.1, hs.t, hs.particles]; rfl⟩).2 s2 k2
  refine ⟨s1, s2, its, k1, k2, k3, by simpa using k9 hs.warmup, k4, k6, fun it hit => z1 _ (List.mem_map_of_mem hit), fun it hit => z2 _ (List.mem_map_of_mem hit),
    z3.trans hs1.2.1, z4.trans hs1.2.2.1, hP.1, hP.2.1, ?_, by rw [k7, k8, hl]; exact draws⟩
  rw [hP.2.2, k3.past]
  simp [columns]

/-- **C108 fails: a repeated run stops before it has sampled the posterior.** The first call of `run` raises while the first iteration of the main loop fits the
geometry. Called again with the same arguments, and everything working, `run` returns at once: it takes the temperature of the iteration that failed for
the temperature reached. Only prior samples are stored. Without the failure the same call ends at temperature 1. -/
theorem C108_stops_early : ∃ s1 s2 s3, Fresh (env false) true start ∧ Raised (runX (env false) badGeo lost 0 1 ⟨4, 0, none⟩ none start) .linAlgError s1 ∧
    Draws start.scaler.low start.scaler.high badGeo ∧ s1.particles.past.beta = [fin 0, fin 0] ∧ s1.flowUntrained = true ∧
    (run (env false) rnd 0 1 ⟨4, 0, none⟩ s1).2 = .ok s2 ∧ s2.particles.past.beta = [fin 0, fin 0] ∧
    (run (env false) rnd 0 1 ⟨4, 0, none⟩ start).2 = .ok s3 ∧ s3.particles.past.beta = [fin 0, fin 0, fin 1] := by
  obtain ⟨a1, a2, its, k1, k2, k3, k4, k5, k6, k7, k8, k9, k10, k12, -, -, k11⟩ := warmed (env false) (user false) (configured false) start (fresh false) rfl badGeo rfl rfl
    ⟨4, 0, none⟩ (by simp)
  have k4' : its.length = 2 := k4
  obtain ⟨H, b, c, hH, hR, hfl, hlen, hb1, hl, hcur, hlast, hcb⟩ := k3.flat (flat false) (configured false) k5 k7
  have hb0 : ∀ it, its.getLast? = some it → it.beta = fin 0 := fun it hit => k8 it (List.mem_of_getLast? hit)
  have hN : a2.nEffective < H.length * (env false).nActive := by rw [k9, hlen, k4']; simp [start, env]
  have hgo : notTermination (env false) a2 = .ok true := by
    rw [k3.flat_notTermination (flat false) (configured false) k5 k7 hb0]
    norm_num
  obtain ⟨s', it, j1, -⟩ := k3.flat_step (flat false) (user false) (configured false) k11 (reliable false) k6 k5 k7 (by rw [← hlen]; exact hN) 0
  obtain ⟨c', r1, c1, -, -, -, -, g0, g1, -⟩ := smcStep_ok j1
  rw [hcur] at g0
  simp only [Option.some.injEq] at g0
  subst g0
  obtain ⟨nEff, beta, logz, ess, w, tr, q1, q2, q3, q4, rfl⟩ := reweight_ok g1
  rw [flat_up (flat false) hH hR hfl hl hN 0] at q1
  simp only [Except.ok.injEq, Prod.mk.injEq] at q1
  obtain ⟨rfl, -, -⟩ := q1
  have hhb := k3.blobs k5
  rw [k3.past, hhb] at q4
  obtain ⟨-, qw, -, -, -, -, -, -, qb, -⟩ := gatherCur_ok k5 k3.rows (fun hf => by cases hf) q4
  have hfail := runX_of_loop (lo := lost) (n := 1) k1 k2 (smcLoopX_of_train (lo := lost) hgo hcur g1 (trainX_u_fails (x := .linAlgError) rfl qw rfl rfl))
  obtain ⟨ps, hps⟩ : ∃ ps, a2.priorSamples = some ps := by
    cases hps : a2.priorSamples with
    | none => exact absurd (k3.noPrior hps) k5
    | some ps => exact ⟨ps, rfl⟩
  have hbetas : a2.particles.past.beta = [fin 0, fin 0] := by
    rw [k3.past]
    have := List.eq_replicate_iff.mpr ⟨show (its.map (·.beta)).length = 2 by simp [k4'], fun b hb => by
      obtain ⟨it, hit, rfl⟩ := List.mem_map.mp hb
      exact k8 it hit⟩
    exact this
  obtain ⟨s3, its3, l1, -, -, -, -, -, -, -, -, l2⟩ := flat_warm_run (flat false) (user false) (configured false) draws (reliable false) (Inv.fresh (fresh false)) rfl (by simp)
    (supported rfl (env false) (configured false)) (by simp [start, env]) ⟨4, 0, none⟩ (by simp) (by simp [env]) 0 0
  obtain ⟨s4, e1, e2, e3, e4, e5, e6⟩ : ∃ s4 : Sampler 2 Unit Unit, Raised (runX (env false) badGeo lost 0 1 ⟨4, 0, none⟩ none start) .linAlgError s4 ∧ s4.particles = a2.particles ∧
      s4.cur = some c1 ∧ s4.priorSamples = some ps ∧ s4.warmup = false ∧ s4.flowUntrained = true := ⟨_, hfail, rfl, rfl, hps, k6, k12⟩
  rw [← e2] at hH hbetas
  have hstop : notTermination (env false) { s4 with nTotal := 4, nEvidence := 0 } = .ok false := by
    have hsz := flat_size hR hfl 1
    unfold notTermination
    rw [(flat false).metric]
    simp only [essAt_fin _ H _ hR hH, e3, orErr, bind, Except.bind, pure, Except.pure, hsz, qb, F.ofNat, fin_sub, ge_iff_le, F.fin_le, F.fin_lt, hlen, k4']
    norm_num [env]
  refine ⟨s4, { s4 with nTotal := 4, nEvidence := 0, logz := some (fin 0), logzErr := none }, s3, fresh false, e1, draws_of rfl rfl, hbetas, e6,
    run_of_parts (s3 := { s4 with nTotal := 4, nEvidence := 0 }) (runInit_again e4) (runWarmup_again e5) ?_ ?_, hbetas, l1, by simpa [env] using l2⟩
  · unfold smcLoop
    simp only [hstop]
  · unfold finalEvidence
    simp only [computeLogwLogz_fin _ H _ hR hH, gt_iff_lt, lt_irrefl, false_and, if_false, bind, Except.bind, pure, Except.pure, flat_logz hR hfl]

/-- Preconditioned, training every third iteration. -/
def env3 : SamplerEnv 2 Unit Unit := { env true with trainFrequency := 3 }

/-- A new sampler that wants four effective particles. -/
def start4 : Sampler 2 Unit Unit := { start with nEffective := 4 }

/-- **C108 fails: the repeated run raises although everything works.** The training of the flow raises in the first iteration of the main loop, and the flow counts
as trained from then on, although it has no geometry. Called again, with everything working, `run` raises `TypeError` in its first iteration (whatever the fuel).
The iteration number grows with every attempt, so that calling `run` often enough reaches a multiple of `train_frequency` and trains again. -/
theorem C108_retry_fails : ∃ s1, Fresh env3 true start4 ∧ Raised (runX env3 badFlow lost 0 1 ⟨4, 0, none⟩ none start4) .valueError s1 ∧
    Draws start4.scaler.low start4.scaler.high badFlow ∧ Draws s1.scaler.low s1.scaler.high rnd ∧ Reliable env3 rnd ∧
    ∀ fuel n, (run env3 rnd fuel (n + 1) ⟨4, 0, none⟩ s1).2 = .error .typeError := by
  have hu : UserFns env3 (fun _ => fin 0) (fun _ => fin 0) (fun _ => [()]) true := ⟨(user true).prior, (user true).like, (user true).nothing⟩
  have hc : Configured env3 := configured true
  have hf : FlatEnv env3 (fun _ => fin 0) := ⟨(flat true).ll, rfl, rfl⟩
  have hrel : Reliable env3 rnd := ⟨(reliable true).geo, (reliable true).flow, (reliable true).inv, (reliable true).chol, (reliable true).dim, by simp [env3],
    (reliable true).ratio, (reliable true).mult, (reliable true).syst⟩
  have hs : Fresh env3 true start4 := by
    have h := fresh true
    exact ⟨h.priorSamples, h.particles, h.cur, h.t, h.warmup, h.calls, h.evals, h.untrained, h.noGeoU, h.noGeoT, h.bounds, h.scale, h.blobs⟩
  obtain ⟨a1, a2, its, k1, k2, k3, k4, k5, k6, k7, k8, k9, k10, k12, k13, k14, k11⟩ := warmed env3 hu hc start4 hs rfl badFlow rfl rfl ⟨4, 0, none⟩ (by simp)
  have k4' : its.length = 2 := k4
  obtain ⟨H, b, c, hH, hR, hfl, hlen, hb1, hl, hcur, hlast, hcb⟩ := k3.flat hf hc k5 k7
  have hb0 : b = 0 := by
    have := k8 c.it (List.mem_of_getLast? hlast)
    rw [hcb] at this
    simpa using this
  subst hb0
  have hN : H.length * env3.nActive ≤ a2.nEffective := by rw [k9, hlen, k4']; simp [start4, env3, env]
  obtain ⟨es, hbeta⟩ := flat_stay hf hH hR hfl hl hN 0
  have hgo : notTermination env3 a2 = .ok true := by
    rw [k3.flat_notTermination hf hc k5 k7 (b := 0) fun it hit => k8 it (List.mem_of_getLast? hit)]
    norm_num
  obtain ⟨s', j1, -⟩ := k3.smcStep_of_beta hu hc hrel hH hR hlen k5 hbeta
  obtain ⟨c', r1, c1, -, -, -, -, g0, g1, -⟩ := smcStep_ok j1
  rw [hcur] at g0
  simp only [Option.some.injEq] at g0
  subst g0
  obtain ⟨nEff, beta, logz, ess, w, tr, q1, q2, q3, q4, rfl⟩ := reweight_ok g1
  rw [hbeta] at q1
  simp only [Except.ok.injEq, Prod.mk.injEq] at q1
  obtain ⟨rfl, -, -⟩ := q1
  have hn : nEff = a2.nEffective := by
    unfold reweightWeights at q2
    obtain ⟨w0, -, q2⟩ := bind_ok q2
    rw [hf.dynamic] at q2
    simp only [Bool.false_eq_true, if_false, pure, Except.pure, Except.ok.injEq, Prod.mk.injEq] at q2
    exact q2.2.symm
  subst hn
  have hhb := k3.blobs k5
  rw [k3.past, hhb] at q4
  obtain ⟨-, qw, ql, qi, qc, qs, qe, qa, qb, -⟩ := gatherCur_ok k5 k3.rows (fun hf => by cases hf) q4
  have hnow : trainNow env3 { ({ a2 with t := a2.t + 1, nEffective := a2.nEffective } : Sampler 2 Unit Unit) with cur := some c1 } c1.it.beta = .ok true := by
    unfold trainNow
    simp [env3, env, k12, start4, start]
  have hfail := runX_of_loop (lo := lost) (n := 1) k1 k2 (smcLoopX_of_train (lo := lost) hgo hcur g1 (trainX_theta_fails (x := .valueError) rfl qw hnow rfl))
  obtain ⟨ps, hps⟩ : ∃ ps, a2.priorSamples = some ps := by
    cases hps : a2.priorSamples with
    | none => exact absurd (k3.noPrior hps) k5
    | some ps => exact ⟨ps, rfl⟩
  obtain ⟨s4, e1, e2, e3, e4, e5, e6, e7, e8, e9, e10, e11⟩ : ∃ s4 : Sampler 2 Unit Unit, Raised (runX env3 badFlow lost 0 1 ⟨4, 0, none⟩ none start4) .valueError s4 ∧ s4.particles = a2.particles ∧
      s4.cur = some c1 ∧ s4.priorSamples = some ps ∧ s4.warmup = false ∧ s4.nEffective = a2.nEffective ∧ s4.t = 3 ∧ s4.flowUntrained = false ∧ s4.thetaGeometry = none ∧ s4.scaler = a2.scaler ∧
      s4.haveBlobs = a2.haveBlobs :=
    ⟨_, hfail, rfl, rfl, hps, k6, rfl, by simp [k14, k4'], rfl, k13, rfl, rfl⟩
  have hkept : Kept true env3 (fun _ => fin 0) (fun _ => fin 0) (fun _ => [()]) true { s4 with nTotal := 4, nEvidence := 0 } its := by
    refine ⟨by simp only [e2]; exact k3.past, by simp only [e10]; exact k3.rows, fun _ => .inr ⟨c1, c.it, e3, hlast, ⟨qi, ql, fun _ => ⟨qc, qs, qe, qa⟩, fun h => by cases h⟩⟩, ?_, k3.betas, k3.logz,
      fun _ => e11.trans hhb, fun _ => rfl, by simp only [e10]; exact k3.bounds, by simp only [e10]; exact k3.scale, ?_, ?_, ?_⟩
    · intro c' hc'
      simp only [e3, Option.some.injEq] at hc'
      subst hc'
      obtain ⟨-, -, -, -, hlw⟩ := k3.rows c.it (List.mem_of_getLast? hlast)
      exact ⟨(fun h => by cases h), by rw [ql]; exact hlw⟩
    · intro h; simp only [e4] at h; cases h
    · intro qs hqs
      simp only [e10]
      exact k3.prior qs (by rw [hps, ← e4]; exact hqs)
    · intro h; simp only [e5] at h; cases h
  refine ⟨s4, hs, e1, draws_of rfl rfl, by rw [e10]; exact k11, hrel, fun fuel n => ?_⟩
  refine run_error (s2 := { s4 with nTotal := 4, nEvidence := 0 }) (runInit_again e4) (runWarmup_again e5) (smcLoop_error ?_ ?_)
  · unfold notTermination
    rw [hf.metric]
    have hH' : Holds ({ s4 with nTotal := 4, nEvidence := 0 } : Sampler 2 Unit Unit).particles.past H := by simp only [e2]; exact hH
    simp only [essAt_fin _ H _ hR hH', e3, orErr, bind, Except.bind, pure, Except.pure, qb, fin_sub, ge_iff_le, F.fin_le]
    norm_num
  · have hH' : Holds ({ s4 with nTotal := 4, nEvidence := 0 } : Sampler 2 Unit Unit).particles.past H := by simp only [e2]; exact hH
    obtain ⟨es', hbeta'⟩ := flat_stay hf hH' hR hfl hl (N := s4.nEffective) (by rw [e6]; exact hN) fuel
    exact hkept.stuck hu hc hrel hH' hR hlen k5 hbeta' (by norm_num) rfl e8 e9 (by simp [e7, env3])

/-- The likelihood of `Demo.like`, but it raises at the point (2, 2). -/
noncomputable def badLike : LikeEnv 2 Unit :=
  { like with single := fun x => open Classical in if x = pt (fun _ => (2 : ℝ)) then .error .valueError else like.single x }

/-- The settings of `Demo.env` with this likelihood. -/
noncomputable def badEnv : SamplerEnv 2 Unit Unit := { env false with like := badLike }

theorem badLike_single {x : Pt 2} {r : LikeOut Unit} (h : badLike.single x = .ok r) : like.single x = .ok r := by
  unfold badLike at h
  simp only at h
  split_ifs at h
  exact h

theorem mapM_mono {α β : Type} {f g : α → Except PyErr β} (h : ∀ x r, f x = .ok r → g x = .ok r) (xs : List α) (rs : List β) (hx : xs.mapM f = .ok rs) :
    xs.mapM g = .ok rs := by
  induction xs generalizing rs with
  | nil => exact hx
  | cons x xs ih =>
    rw [List.mapM_cons] at hx ⊢
    exact bind_mono (h x) (fun v hv => bind_mono (ih) (fun _ h => h) hv) hx

theorem flaky : Flaky (env false) badEnv :=
  ⟨rfl, fun xs _ h => bind_mono (mapM_mono (fun _ _ => badLike_single) xs) (fun _ h => h) h⟩

theorem badLike_first : logLike badEnv.like [pt fun _ => ((0 : ℕ) : ℝ), pt fun _ => ((1 : ℕ) : ℝ)] = logLike (env false).like [pt fun _ => ((0 : ℕ) : ℝ), pt fun _ => ((1 : ℕ) : ℝ)] := by
  have h : ∀ k : ℕ, k ≠ 2 → badLike.single (pt fun _ => (k : ℝ)) = like.single (pt fun _ => (k : ℝ)) := by
    intro k hk
    unfold badLike
    simp only
    rw [if_neg]
    intro h
    have := congrFun h 0
    simp only [pt, F.fin.injEq] at this
    exact hk (by exact_mod_cast this)
  unfold logLike
  change (List.mapM badLike.single _ >>= _) = (List.mapM like.single _ >>= _)
  simp only [List.mapM_cons, List.mapM_nil, h 0 (by norm_num), h 1 (by norm_num)]

theorem badLike_second (y : Pt 2) : logLike badEnv.like [pt fun _ => ((2 : ℕ) : ℝ), y] = .error .valueError := by
  unfold logLike
  change (List.mapM badLike.single _ >>= _) = _
  rw [List.mapM_cons]
  have h : badLike.single (pt fun _ => ((2 : ℕ) : ℝ)) = .error .valueError := by
    unfold badLike
    simp
  rw [h]
  rfl

/-- **C108 fails: the warm-up is repeated from the start.** The likelihood raises in the second of two batches of prior samples. Called again, with the
likelihood working, `run` returns, but the first batch was evaluated and stored twice: there are three warm-up iterations of two particles each, for four prior
samples. -/
theorem C108_warmup_repeated : ∃ s1 s2, Fresh (env false) true start ∧ Flaky (env false) badEnv ∧ Raised (runX badEnv rnd lost 0 1 ⟨4, 0, none⟩ none start) .valueError s1 ∧
    (run (env false) rnd 0 1 ⟨4, 0, none⟩ s1).2 = .ok s2 ∧ s2.particles.past.beta = [fin 0, fin 0, fin 0, fin 1] ∧
    (env false).nPrior = 4 ∧ (env false).nActive = 2 := by
  obtain ⟨a1, a2, its, k1, k2, -⟩ := warmed (env false) (user false) (configured false) start (fresh false) rfl rnd rfl rfl ⟨4, 0, none⟩ (by simp)
  have hi := Inv.fresh (ll := fun _ => fin 0) (lp := fun _ => fin 0) (bb := fun _ => [()]) (fresh false)
  obtain ⟨i1, l1, l2⟩ := hi.init (configured false) draws k1
  have hp1 : a1.priorSamples = some (rnd.prior 4) ∧ a1.warmup = true ∧ a1.nEffective = 1 ∧ a1.particles = Particles.init := by
    rcases runInit_ok k1 with ⟨⟨ps, h⟩, -⟩ | ⟨-, sc, -, rfl⟩
    · cases h
    · exact ⟨rfl, rfl, rfl, rfl⟩
  obtain ⟨p1, p2, p3, p4⟩ := hp1
  -- the two warm-up iterations that work
  obtain ⟨m, m', h1, h2⟩ : ∃ m m', warmupStep (env false) rnd a1 0 = .ok m ∧ warmupStep (env false) rnd m 1 = .ok m' := by
    unfold runWarmup at k2
    rw [p2] at k2
    simp only [if_true, show (env false).nActive = 2 from rfl, show (env false).nPrior / 2 = 2 from rfl, if_neg (by decide : ¬ (2 : ℕ) = 0)] at k2
    rw [andThen_snd] at k2
    unfold warmupLoop at k2
    cases g1 : warmupStep (env false) rnd a1 0 with
    | error x => simp [Trace.save, saveNow, Trace.andThen, Trace.lift, g1] at k2; cases k2
    | ok m =>
      unfold warmupLoop at k2
      cases g2 : warmupStep (env false) rnd m 1 with
      | error x => simp [Trace.save, saveNow, Trace.andThen, Trace.lift, g1, g2] at k2; cases k2
      | ok m' => exact ⟨m, m', rfl, g2⟩
  obtain ⟨it, i2, sc2⟩ := i1.warmStep (user false) (configured false) p2 (by simp [env]) h1
  obtain ⟨w2, -⟩ := warmupStep_warmup h1
  obtain ⟨b0, hb, b, q1, q2, hm⟩ := warmupStep_shape h1
  -- the first batch does not notice the failing point
  have h1' : warmupStep badEnv rnd a1 0 = .ok m := by
    rw [← h1]
    have hb : warmupBatch badEnv a1 0 = warmupBatch (env false) a1 0 := by
      unfold warmupBatch
      rw [p1]
      simp only [orErr, show (rnd.prior 4) = [pt fun _ => ((0 : ℕ) : ℝ), pt fun _ => ((1 : ℕ) : ℝ), pt fun _ => ((2 : ℕ) : ℝ), pt fun _ => ((3 : ℕ) : ℝ)] from rfl,
        show (env false).nActive = 2 from rfl, show badEnv.nActive = 2 from rfl, zero_mul, List.drop_zero, List.take_succ_cons, List.take_zero, bind, Except.bind]
      rw [badLike_first]
      rfl
    unfold warmupStep
    rw [hb]
    rfl
  have hx2 : b.x.length = 2 := by
    obtain ⟨ps, r1, r2⟩ := warmupBatch_slice q1
    rw [p1] at r1
    simp only [Option.some.injEq] at r1
    subst r1
    have h0 : b0.x.length = 2 := by rw [r2]; rfl
    unfold replaceInf at q2
    obtain ⟨⟨dst, src⟩, -, q2⟩ := bind_ok q2
    simp only at q2
    split_ifs at q2 with hd
    · simp only [pure, Except.pure, Except.ok.injEq] at q2
      rw [← q2, h0]
    · obtain ⟨x, hx, q2⟩ := bind_ok q2
      obtain ⟨_, _, q2⟩ := bind_ok q2
      obtain ⟨_, _, q2⟩ := bind_ok q2
      obtain ⟨_, _, q2⟩ := bind_ok q2
      obtain ⟨_, _, q2⟩ := bind_ok q2
      obtain ⟨_, _, q2⟩ := bind_ok q2
      simp only [pure, Except.pure, Except.ok.injEq] at q2
      rw [← q2]
      exact (copyRows_length hx).trans h0
  have hslice : ∀ ps, m.priorSamples = some ps → ps.length = 4 ∧ ∃ y, (ps.drop (1 * 2)).take 2 = [pt fun _ => ((2 : ℕ) : ℝ), y] := by
    intro ps hps
    rw [hm, p1] at hps
    simp only [Option.map_some, Option.some.injEq] at hps
    have h4 : ∀ x : List (Pt 2), x.length = 2 → (writeSlice (rnd.prior 4) (0 * (env false).nActive) x).length = 4 ∧
        ∃ y, ((writeSlice (rnd.prior 4) (0 * (env false).nActive) x).drop (1 * 2)).take 2 = [pt fun _ => ((2 : ℕ) : ℝ), y] := by
      intro x hx
      match x, hx with
      | [u, v], _ => exact ⟨rfl, _, rfl⟩
    rw [← hps]
    exact h4 b.x hx2
  -- the second batch raises
  have hbat : warmupBatch badEnv m 1 = .error .valueError := by
    obtain ⟨b1, hb1, -, g1, -⟩ := warmupStep_shape h2
    unfold warmupBatch at g1 ⊢
    obtain ⟨ps, g2, g1⟩ := bind_ok g1
    obtain ⟨u, g3, g1⟩ := bind_ok g1
    obtain ⟨inv, g4, g1⟩ := bind_ok g1
    have hps : m.priorSamples = some ps := by
      cases hq : m.priorSamples with
      | none => rw [hq] at g2; cases g2
      | some q => rw [hq] at g2; simp only [orErr, Except.ok.injEq] at g2; rw [g2]
    obtain ⟨-, y, hy⟩ := hslice ps hps
    simp only [show badEnv.nActive = 2 from rfl, show (env false).nActive = 2 from rfl] at g3 ⊢
    rw [g2]
    simp only [bind, Except.bind]
    rw [g3]
    simp only
    rw [g4]
    simp only
    rw [hy, badLike_second]
  have h2' : warmupStep badEnv rnd m 1 = .error .valueError := by
    unfold warmupStep
    rw [hbat]
    rfl
  have hX : warmupStepX badEnv rnd 1 none m = .error .valueError m := by
    obtain ⟨s', g1, g2⟩ := (warmupStepX_spec 1 m).of_error h2'
    rcases g2 with rfl | ⟨⟨b0, hb, g3, -⟩, -⟩ | ⟨g3, -⟩
    · exact g1
    · rw [hbat] at g3; cases g3
    · cases g3
  have hW : runWarmupX badEnv rnd ⟨4, 0, none⟩ start.t none a1 = .error .valueError m := by
    obtain ⟨_, _, g1, rfl⟩ := (warmupStepX_spec 0 a1).of_ok h1'
    unfold runWarmupX
    rw [bindX_ok (show (PyM.look : PyM 2 Unit Unit _) none a1 = .ok (a1, none) a1 from rfl)]
    simp only [p2, if_true, show badEnv.nActive = 2 from rfl, show badEnv.nPrior / 2 = 2 from rfl, if_neg (by decide : ¬ (2 : ℕ) = 0)]
    refine bindX_error ?_
    unfold warmupLoopX
    rw [bindX_ok (show (PyM.look : PyM 2 Unit Unit _) none a1 = .ok (a1, none) a1 from rfl)]
    rw [bindX_ok (show (PyM.call (saveNow none start.t a1) : PyM 2 Unit Unit _) none a1 = .ok ([], none) a1 from rfl)]
    rw [bindX_ok g1]
    unfold warmupLoopX
    rw [bindX_ok (show (PyM.look : PyM 2 Unit Unit _) none _ = .ok (_, none) _ from rfl)]
    rw [bindX_ok (show (PyM.call (saveNow none start.t _) : PyM 2 Unit Unit _) none _ = .ok ([], none) _ from rfl)]
    exact bindX_error hX
  have k1' : runInit badEnv rnd ⟨4, 0, none⟩ start = .ok a1 := k1
  have hlog : ∀ z ∈ [it], z.logz = fin 0 := by
    have : m.particles.past.logz = [it.logz] := by rw [i2.past]; rfl
    rw [hm, p4] at this
    simp only [Particles.update, Particles.init, Cols.full, warmupIter, List.nil_append, List.cons.injEq, and_true] at this
    intro z hz
    rw [List.mem_singleton.mp hz]
    exact (List.head_eq_of_cons_eq this).symm
  obtain ⟨s2, its2, r1, -, -, -, -, -, -, -, -, r2⟩ := flat_warm_run (a := ⟨4, 0, none⟩) (s := m) (flat false) (user false) (configured false)
    (by rw [sc2, l1, l2]; exact draws) (reliable false) i2 (w2.trans p2) hlog (by
      cases hq : m.priorSamples with
      | none => rw [hm, p1] at hq; cases hq
      | some ps => exact supported_of (configured false) (hslice ps hq).1 fun _ _ => rfl)
    (by rw [hm, p3]; simp [env]) (by simp) (by simp [env]) 0 0
  exact ⟨m, s2, fresh false, flaky, runX_of_warmup k1' hW, r1, by rw [r2]; simp [env, List.replicate], rfl, rfl⟩

/-- Beside C107 and `C108_retry_partial`: their hypotheses are met after a run that failed in the main loop, with two iterations stored. -/
example : ∃ s, Attempts (env false) true true s ∧ UserFns (env false) (fun _ => fin 0) (fun _ => fin 0) (fun _ => [()]) true ∧ Configured (env false) ∧
    s.particles.past.x ≠ [] ∧ Reliable (env false) rnd ∧ ProperLike (fun _ : Pt 2 => fin 0) ∧ (s.flowUntrained = false → s.thetaGeometry.isSome = true) := by
  obtain ⟨s1, s2, s3, h1, h2, h3, h4, h5, -⟩ := C108_stops_early
  have ha : Attempts (env false) true true s1 := .failed (env false) badGeo lost 0 1 ⟨4, 0, none⟩ none .linAlgError (.fresh h1) (.refl _) h3 (fun _ => rfl) (by simp [Benign]) h2
  refine ⟨s1, ha, user false, configured false, fun hx => ?_, reliable false, fun _ => .inr ⟨0, rfl⟩, fun hf => by rw [h5] at hf; cases hf⟩
  obtain ⟨⟨its, k, -⟩, -⟩ := C107_history_whole (user false) (configured false) ha
  rw [k] at hx h4
  have : its = [] := by simpa [columns] using hx
  subst this
  simp [columns] at h4

end Demo

end Poco
