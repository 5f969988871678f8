import Verif.Props.Counts
import Verif.Props.DemoPosterior

/-! When the normalizing flow is trained, on what, and which geometry the MCMC of an iteration uses (C97, C98). -/

namespace Poco.Spec
open F
variable {d : ℕ} {B Φ : Type}

/-- The documented schedule: every `freq`-th iteration, at temperature 1, and the first time. -/
def TrainsAt (freq t : ℕ) (beta : F) (untrained : Bool) : Prop := freq ∣ t ∨ beta = fin 1 ∨ untrained = true

/-- `us` with weights `ws` are the particles `all`, whose importance weights are `wts`, after removing some of them without losing
more than 1 % of the effective sample size; the weights that are left are normalised. -/
def WeightedParticles (all : List (Pt d)) (wts : List ℝ) (us : List (Pt d)) (ws : List F) : Prop :=
  ∃ kept : List (Pt d × ℝ), kept.Sublist (all.zip wts) ∧ us = kept.map (·.1) ∧ ws = kept.map (fun q => fin (q.2 / (kept.map (·.2)).sum)) ∧
    0 < (kept.map (·.2)).sum ∧ 0.99 * ess wts ≤ ess (kept.map (·.2))

/-- The geometry the MCMC reads: with preconditioning the one in the latent space of the flow. -/
def usedGeometry (e : SamplerEnv d B Φ) (s : Sampler d B Φ) : Option (Geo d) :=
  if e.preconditioned then s.thetaGeometry else s.uGeometry

end Poco.Spec

namespace Poco
open F Spec
variable {d : ℕ} {B Φ : Type}

section
variable {e : SamplerEnv d B Φ} {rnd : Rnd d Φ}

theorem feq_one {b : F} : feq b (fin 1) ↔ b = fin 1 := by
  cases b <;> simp [feq]

theorem trainNow_ok {s : Sampler d B Φ} {beta : F} {b : Bool} (h : trainNow e s beta = .ok b) :
    b = true ↔ e.preconditioned = true ∧ TrainsAt e.trainFrequency s.t beta s.flowUntrained := by
  unfold trainNow at h
  cases hp : e.preconditioned with
  | false =>
    rw [hp] at h
    simp only [Bool.not_false, if_true, Except.ok.injEq] at h
    simp [← h]
  | true =>
    rw [hp] at h
    simp only [Bool.not_true, Bool.false_eq_true, if_false] at h
    split_ifs at h
    simp only [Except.ok.injEq] at h
    rw [← h]
    simp only [Bool.or_eq_true, decide_eq_true_eq, feq_one, true_and, TrainsAt, Nat.dvd_iff_mod_eq_zero, or_assoc]

/-- `_train`, all of it. -/
theorem train_fit {s s' : Sampler d B Φ} {c : Cur d B} (h : train e rnd s c = .ok s') :
    ∃ w, c.weights = some w ∧
    ((e.preconditioned = true ∧ TrainsAt e.trainFrequency s.t c.it.beta s.flowUntrained ∧ ∃ flow g, rnd.flowFit s.t s.flow c.it.u w = .ok flow ∧
        rnd.geoFit s.t (c.it.u.map fun u => (e.flowFwd flow u).1) w = .ok g ∧
        s' = { s with flowUntrained := false, flow := flow, thetaGeometry := some g }) ∨
     (¬ (e.preconditioned = true ∧ TrainsAt e.trainFrequency s.t c.it.beta s.flowUntrained) ∧ ∃ g, rnd.geoFit s.t c.it.u w = .ok g ∧
        s' = { s with uGeometry := some g })) := by
  unfold train at h
  obtain ⟨w, h1, h⟩ := bind_ok h
  obtain ⟨b, h2, h⟩ := bind_ok h
  have hb := trainNow_ok h2
  refine ⟨w, orErr_ok h1, ?_⟩
  cases b with
  | true =>
    simp only [if_true] at h
    obtain ⟨flow, h3, h⟩ := bind_ok h
    obtain ⟨g, h4, h⟩ := bind_ok h
    simp only [pure, Except.pure, Except.ok.injEq] at h
    exact .inl ⟨(hb.mp rfl).1, (hb.mp rfl).2, flow, g, h3, h4, h.symm⟩
  | false =>
    simp only [Bool.false_eq_true, if_false] at h
    obtain ⟨g, h4, h⟩ := bind_ok h
    simp only [pure, Except.pure, Except.ok.injEq] at h
    exact .inr ⟨(fun hh => by have := hb.mpr hh; cases this), g, h4, h.symm⟩

theorem gatherCur_part {past : Cols d (List B) List} {hb : Bool} {c c' : Cur d B} {idx : List ℕ} {w : List F} {beta logz ess : F}
    (h : gatherCur past hb c idx w beta logz ess = .ok c') :
    c'.weights = some w ∧ c'.it.beta = beta ∧ gather past.u.flatten idx = .ok c'.it.u := by
  unfold gatherCur at h
  obtain ⟨fu, g0, h⟩ := bind_ok h
  obtain ⟨u, g1, h⟩ := bind_ok h
  obtain ⟨_, -, h⟩ := bind_ok h
  obtain ⟨x, -, h⟩ := bind_ok h
  obtain ⟨_, -, h⟩ := bind_ok h
  obtain ⟨logdetj, -, h⟩ := bind_ok h
  obtain ⟨_, -, h⟩ := bind_ok h
  obtain ⟨logl, -, h⟩ := bind_ok h
  obtain ⟨_, -, h⟩ := bind_ok h
  obtain ⟨logp, -, h⟩ := bind_ok h
  have h : ∃ bl, c' = { it := { c.it with u, x, logdetj, logl, logp, blobs := bl, logz, beta, ess }, weights := some w } := by
    cases hb with
    | false =>
      simp only [Bool.false_eq_true, if_false, bind, Except.bind, pure, Except.pure, Except.ok.injEq] at h
      exact ⟨_, h.symm⟩
    | true =>
      simp only [if_true] at h
      obtain ⟨bl, -, h⟩ := bind_ok h
      simp only [pure, Except.pure, Except.ok.injEq] at h
      exact ⟨_, h.symm⟩
  obtain ⟨bl, rfl⟩ := h
  unfold getFlat at g0
  split_ifs at g0
  simp only [Except.ok.injEq] at g0
  subst g0
  exact ⟨rfl, rfl, g1⟩

theorem resampleStep_beta {s : Sampler d B Φ} {c c' : Cur d B} (h : resampleStep e rnd s c = .ok c') : c'.it.beta = c.it.beta := by
  unfold resampleStep at h
  obtain ⟨_, -, h⟩ := bind_ok h
  obtain ⟨_, -, h⟩ := bind_ok h
  obtain ⟨_, -, h⟩ := bind_ok h
  obtain ⟨_, -, h⟩ := bind_ok h
  obtain ⟨_, -, h⟩ := bind_ok h
  obtain ⟨_, -, h⟩ := bind_ok h
  obtain ⟨_, -, h⟩ := bind_ok h
  obtain ⟨_, -, h⟩ := bind_ok h
  simp only [pure, Except.pure, Except.ok.injEq] at h
  subst h
  rfl

/-- An iteration, as far as training is concerned. -/
theorem smcStep_train {fuel : ℕ} {s s' : Sampler d B Φ} (h : smcStep e rnd fuel s = .ok s') :
    ∃ (c' : Cur d B) (u : List (Pt d)) (w : List F) (beta logz ess : F) (W : List F) (nEff : ℕ) (tr : Trimmed ℕ),
      s'.cur = some c' ∧ c'.it.beta = beta ∧ s'.t = s.t + 1 ∧
      chooseBeta s.particles.past e.metric (F.ofNat s.nEffective) fuel = .ok (beta, logz, ess) ∧
      reweightWeights e { s with t := s.t + 1 } beta = .ok (W, nEff) ∧
      trimWeights (List.range W.length) W (fin 0.99) 1000 = .ok tr ∧ w = tr.weights ∧ gather s.particles.past.u.flatten tr.samples = .ok u ∧
      (∃ (k : McmcEnv d (List B)) (ws : _) (r : _), mcmc k fuel (rnd.mcmc s'.t) ws = .ok r ∧ k.flowFwd = e.flowFwd s'.flow ∧ k.flowInv = e.flowInv s'.flow ∧
        ∃ g, usedGeometry e s' = some g ∧ k.tMean = g.tMean ∧ k.tNu = g.tNu ∧ kernelInv e k.kernel g = .ok k.invCov ∧ kernelChol e k.kernel g = .ok k.cholCov) ∧
      ((e.preconditioned = true ∧ TrainsAt e.trainFrequency s'.t beta s.flowUntrained ∧ rnd.flowFit s'.t s.flow u w = .ok s'.flow ∧
          s'.flowUntrained = false ∧ s'.uGeometry = s.uGeometry ∧
          ∃ g, rnd.geoFit s'.t (u.map fun u => (e.flowFwd s'.flow u).1) w = .ok g ∧ s'.thetaGeometry = some g) ∨
       (¬ (e.preconditioned = true ∧ TrainsAt e.trainFrequency s'.t beta s.flowUntrained) ∧ s'.flow = s.flow ∧
          s'.flowUntrained = s.flowUntrained ∧ s'.thetaGeometry = s.thetaGeometry ∧
          ∃ g, rnd.geoFit s'.t u w = .ok g ∧ s'.uGeometry = some g)) := by
  obtain ⟨c, s1, c1, s2, c2, s3, c3, h0, h1, h2, h3, h4, rfl⟩ := smcStep_ok h
  obtain ⟨nEff, beta, logz, ess, W, tr, r1, r2, r3, g, rfl⟩ := reweight_ok h1
  obtain ⟨g1, g2, g3⟩ := gatherCur_part g
  obtain ⟨ws, k, r, -, hk, hm, h5⟩ := mutate_ok h4
  simp only [writeBack, Prod.mk.injEq] at h5
  obtain ⟨rfl, h5⟩ := h5
  have hb3 : c3.it.beta = beta := by
    rw [h5]; exact (resampleStep_beta h3).trans g2
  have hkg : ∃ g, usedGeometry e s2 = some g ∧ k.tMean = g.tMean ∧ k.tNu = g.tNu ∧ kernelInv e k.kernel g = .ok k.invCov ∧
      kernelChol e k.kernel g = .ok k.cholCov ∧ k.flowFwd = e.flowFwd s2.flow ∧ k.flowInv = e.flowInv s2.flow := by
    unfold kernelEnv at hk
    obtain ⟨g, k1, hk⟩ := bind_ok hk
    obtain ⟨inv, k2, hk⟩ := bind_ok hk
    obtain ⟨chol, k3, hk⟩ := bind_ok hk
    simp only [pure, Except.pure, Except.ok.injEq] at hk
    subst hk
    exact ⟨g, orErr_ok k1, rfl, rfl, k2, k3, rfl, rfl⟩
  obtain ⟨gg, m1, m2, m3, m4, m5, m6, m7⟩ := hkg
  obtain ⟨w, t1, t2⟩ := train_fit h2
  rw [g1] at t1
  simp only [Option.some.injEq] at t1
  subst t1
  rw [g2] at t2
  rcases t2 with ⟨t3, t4, flow, gf, t5, t6, rfl⟩ | ⟨t3, gf, t5, rfl⟩
  · exact ⟨c3, c1.it.u, _, beta, logz, ess, W, nEff, tr, rfl, hb3, rfl, r1, r2, r3, rfl, g3, ⟨k, ws, r, hm, m6, m7, gg, m1, m2, m3, m4, m5⟩,
      .inl ⟨t3, t4, t5, rfl, rfl, gf, t6, rfl⟩⟩
  · exact ⟨c3, c1.it.u, _, beta, logz, ess, W, nEff, tr, rfl, hb3, rfl, r1, r2, r3, rfl, g3, ⟨k, ws, r, hm, m6, m7, gg, m1, m2, m3, m4, m5⟩,
      .inr ⟨t3, rfl, rfl, rfl, gf, t5, rfl⟩⟩

variable {ll lp : Pt d → F} {bb : Pt d → List B} {hb : Bool}

theorem gather_zip {all us : List (Pt d)} {wts : List ℝ} (hl : all.length = wts.length) {kept : List (ℕ × ℝ)}
    (hk : kept.Sublist ((List.range wts.length).zip wts)) (hg : gather all (kept.map (·.1)) = .ok us) :
    ∃ k' : List (Pt d × ℝ), k'.Sublist (all.zip wts) ∧ us = k'.map (·.1) ∧ k'.map (·.2) = kept.map (·.2) := by
  let f : ℕ × ℝ → Pt d × ℝ := fun q => (all.getD q.1 (fun _ => nan), q.2)
  have hz : ((List.range wts.length).zip wts).map f = all.zip wts := by
    apply List.ext_getElem
    · simp [hl]
    · intro i h1 h2
      simp only [List.length_zip] at h2
      have hi : i < all.length := by omega
      simp [f, List.getD_eq_getElem?_getD, hi]
  refine ⟨kept.map f, hz ▸ hk.map f, ?_, by simp [f]⟩
  obtain ⟨l1, l2⟩ := mapM_eq_ok hg
  apply List.ext_getElem?
  intro i
  by_cases hi : i < kept.length
  · obtain ⟨b, hb, hf⟩ := l2 i kept[i].1 (by simp [hi])
    rw [hb]
    cases ha : all[kept[i].1]? with
    | none => rw [ha] at hf; cases hf
    | some v =>
      rw [ha] at hf
      simp only [Except.ok.injEq] at hf
      simp [f, hi, List.getD_eq_getElem?_getD, ha, hf]
  · rw [List.getElem?_eq_none (by rw [l1]; simpa using hi), List.getElem?_eq_none (by simpa using hi)]

/-! ### C97 -/

/-- C97, the schedule: with preconditioning an iteration trains the flow (starting from the flow it had) when `train_frequency` divides the
iteration number, or the new temperature is 1, or the flow has never been trained; in all other cases, and always without preconditioning, the
flow stays as it is. -/
theorem C97_schedule {fuel : ℕ} {s s' : Sampler d B Φ} (h : smcStep e rnd fuel s = .ok s') :
    ∃ c', s'.cur = some c' ∧ s'.t = s.t + 1 ∧
      (e.preconditioned = true ∧ TrainsAt e.trainFrequency s'.t c'.it.beta s.flowUntrained →
        s'.flowUntrained = false ∧ ∃ u w, (∀ p ∈ u, p ∈ s.particles.past.u.flatten) ∧ rnd.flowFit s'.t s.flow u w = .ok s'.flow) ∧
      (¬ (e.preconditioned = true ∧ TrainsAt e.trainFrequency s'.t c'.it.beta s.flowUntrained) →
        s'.flow = s.flow ∧ s'.flowUntrained = s.flowUntrained) := by
  obtain ⟨c', u, w, beta, logz, es, W, nEff, tr, h1, rfl, h3, h4, h5, h6, h7, h8, h9, h10⟩ := smcStep_train h
  refine ⟨c', h1, h3, fun ht => ?_, fun ht => ?_⟩
  · rcases h10 with ⟨-, -, k1, k2, -⟩ | ⟨k, -⟩
    · exact ⟨k2, u, w, (gather_ok h8).2, k1⟩
    · exact absurd ht k
  · rcases h10 with ⟨k1, k2, -⟩ | ⟨-, k1, k2, -⟩
    · exact absurd ⟨k1, k2⟩ ht
    · exact ⟨k1, k2⟩

/-- C97, the training set: at every point of every session, what the flow is trained on and the geometry is fitted to are the stored particles of
all iterations with their importance weights at the new temperature (up to 1 % of the effective sample size). -/
theorem C97_training_set (hu : UserFns e ll lp bb hb) (hp : ProperLike ll) (hc : Configured e) (hdr : ∃ r, e.dynamicRatio = fin r)
    {s0 s s' : Sampler d B Φ} (hs : Session e hb s0) (hd : Draws s0.scaler.low s0.scaler.high rnd) (hm : Moves e rnd s0 s)
    (hw : s.warmup = false) {fuel : ℕ} (h : smcStep e rnd fuel s = .ok s') :
    ∃ (H : List Stage) (c' : Cur d B) (β : ℝ) (us : List (Pt d)) (ws : List F), Holds s.particles.past H ∧ Rect H e.nActive ∧
      s'.cur = some c' ∧ c'.it.beta = fin β ∧
      WeightedParticles s.particles.past.u.flatten (weights H β) us ws ∧
      (e.preconditioned = true ∧ TrainsAt e.trainFrequency s'.t c'.it.beta s.flowUntrained →
        rnd.flowFit s'.t s.flow us ws = .ok s'.flow ∧
        ∃ g, rnd.geoFit s'.t (us.map fun u => (e.flowFwd s'.flow u).1) ws = .ok g ∧ s'.thetaGeometry = some g) ∧
      (e.preconditioned = false → ∃ g, rnd.geoFit s'.t us ws = .ok g ∧ s'.uGeometry = some g) := by
  obtain ⟨c', u, w, beta, logz, es, W, nEff, tr, h1, h2, h3, h4, h5, h6, h7, h8, h9, h10⟩ := smcStep_train h
  obtain ⟨its0, hi0⟩ := hs.inv hu hc (ll := ll) (lp := lp) (bb := bb)
  obtain ⟨more, hi, hl, hh⟩ := hi0.moves hu hc hd hm
  set its := its0 ++ more with hits
  have hd' : Draws s.scaler.low s.scaler.high rnd := by rw [hl, hh]; exact hd
  obtain ⟨it, hi', -⟩ := hi.smc hu hc hd' hw h
  obtain ⟨c, hcur⟩ : ∃ c, s.cur = some c := by
    obtain ⟨c, s1, c1, s2, c2, s3, c3, h0, -⟩ := smcStep_ok h
    exact ⟨c, h0⟩
  have hne : its ≠ [] := by
    intro hnil
    have := hi.cur
    rw [hnil, hcur] at this
    simp at this
  obtain ⟨H, b, z, hH, hR, -, -, -, -, hlen⟩ := hi.stages hc hp hne
  have hβ : ∃ β : ℝ, beta = fin β := by
    obtain ⟨bs, b1, -⟩ := hi'.betas
    have hit : it.beta = beta := by
      have := hi'.cur
      rw [h1] at this
      simp at this
      rw [← this, h2]
    have : it.beta ∈ bs.map fin := by rw [← b1]; simp
    obtain ⟨β, -, hb⟩ := List.mem_map.mp this
    exact ⟨β, by rw [← hit, ← hb]⟩
  obtain ⟨β, rfl⟩ := hβ
  obtain ⟨r, hr⟩ := hdr
  obtain ⟨n', w1, -⟩ := C23_reweight e { s with t := s.t + 1 } H e.nActive hR hH hc.1 r hr β
  rw [w1] at h5
  simp only [Except.ok.injEq, Prod.mk.injEq] at h5
  obtain ⟨rfl, rfl⟩ := h5
  have hW : IsWeights (weights H β) := weights_isWeights hR β
  have hwl : (weights H β).length = its.length * e.nActive := by
    unfold weights; rw [List.length_map, hR.length, hlen]
  obtain ⟨tr', t1, kept, t2, t3, t4, t5, t6, t7, -⟩ := C05_trim (List.range (weights H β).length) (weights H β) hW (by simp) 0.99 (by norm_num) 1000 (by norm_num)
  have ht : tr.samples = tr'.samples ∧ tr.weights = tr'.weights := by
    have hn : trimWeights (List.range (weights H β).length) ((weights H β).map fun x => fin (x / (weights H β).sum)) (fin 0.99) 1000 =
        trimWeights (List.range (weights H β).length) ((weights H β).map fin) (fin 0.99) 1000 := by
      have h1 : ((weights H β).map (· / (weights H β).sum)).sum = 1 := sum_normalized hW.2.ne'
      have e1 : normalize ((weights H β).map fun x => fin (x / (weights H β).sum)) = normalize ((weights H β).map fin) := by
        have := normalize_fin ((weights H β).map (· / (weights H β).sum)) (by rw [h1]; norm_num)
        rw [h1, List.map_map] at this
        rw [normalize_fin _ hW.2.ne']
        simpa [Function.comp_def] using this
      unfold trimWeights
      rw [e1]
    rw [List.length_map, hn, t1] at h6
    simp only [Except.ok.injEq] at h6
    rw [h6]; exact ⟨rfl, rfl⟩
  obtain ⟨rows, f1, -, -, -, -, -, f2, -⟩ := flat_rows its hne hi.rows
  have hflat : s.particles.past.u.flatten.length = (weights H β).length := by
    unfold getFlat at f1
    split_ifs at f1
    simp only [Except.ok.injEq] at f1
    rw [hi.past, f1, List.length_map, f2, hwl]
  rw [ht.1, t4] at h8
  obtain ⟨k', q1, q2, q3⟩ := gather_zip hflat t2 h8
  have hwp : WeightedParticles s.particles.past.u.flatten (weights H β) u w := by
    refine ⟨k', q1, q2, ?_, by rw [q3]; exact t3.2, by rw [q3]; exact t7⟩
    rw [h7, ht.2, t5, q3]
    have := congrArg (List.map fun x => fin (x / (kept.map (·.2)).sum)) q3
    simpa [List.map_map, Function.comp_def] using this.symm
  refine ⟨H, c', β, u, w, hH, hR, h1, h2, hwp, fun ht => ?_, fun ht => ?_⟩
  · rw [h2] at ht
    rcases h10 with ⟨-, -, k1, k2, -, k3⟩ | ⟨k, -⟩
    · exact ⟨k1, k3⟩
    · exact absurd ht k
  · rcases h10 with ⟨k1, -⟩ | ⟨-, -, -, -, k⟩
    · rw [ht] at k1; cases k1
    · exact k

/-- With `train_frequency = 0` and preconditioning no iteration returns (`t % 0` raises). -/
theorem C97_zero_raises (hp : e.preconditioned = true) (hz : e.trainFrequency = 0) (fuel : ℕ) (s s' : Sampler d B Φ) :
    smcStep e rnd fuel s ≠ .ok s' := by
  intro h
  obtain ⟨c, s1, c1, s2, c2, s3, c3, h0, h1, h2, h3, h4, rfl⟩ := smcStep_ok h
  unfold train at h2
  obtain ⟨w, -, h2⟩ := bind_ok h2
  obtain ⟨b, h2, -⟩ := bind_ok h2
  unfold trainNow at h2
  simp [hp, hz] at h2

/-- Loop invariant: after an iteration of the main loop the flow has been trained. -/
def TrainedIfStarted (e : SamplerEnv d B Φ) (s : Sampler d B Φ) : Prop :=
  e.preconditioned = true → s.flowUntrained = true → ∀ c, s.cur = some c → c.it.beta = fin 0

theorem Move.trained {s s' : Sampler d B Φ} (h : Move e rnd s s') (hg : TrainedIfStarted e s) : TrainedIfStarted e s' := by
  cases h with
  | init a h => rcases runInit_ok h with ⟨-, rfl⟩ | ⟨-, sc, -, rfl⟩ <;> exact hg
  | warm i hw hi h =>
    obtain ⟨b0, hb, b, -, -, rfl⟩ := warmupStep_shape h
    intro _ _ c hc
    simp only [Option.some.injEq] at hc
    rw [← hc]; rfl
  | endWarm hw => exact hg
  | smc fuel hw h =>
    intro hp hf
    obtain ⟨c', -, -, h1, h2⟩ := C97_schedule h
    by_cases ht : TrainsAt e.trainFrequency s'.t c'.it.beta s.flowUntrained
    · rw [(h1 ⟨hp, ht⟩).1] at hf; cases hf
    · rw [(h2 fun hh => ht hh.2).2] at hf
      exact absurd (.inr (.inr hf)) ht
  | evidence hw h =>
    rcases finalEvidence_ok h with ⟨-, -, h⟩ | ⟨-, lw, z, -, rfl⟩
    · obtain ⟨inv, ll', bl, hbl, -, -, rfl⟩ := computeEvidence_ok h
      exact hg
    · exact hg

theorem Moves.trained {s s' : Sampler d B Φ} (h : Moves e rnd s s') (hg : TrainedIfStarted e s) : TrainedIfStarted e s' := by
  induction h with
  | refl => exact hg
  | tail _ hm ih => exact hm.trained ih

theorem Spec.Session.trained {s : Sampler d B Φ} {hb : Bool} (h : Session e hb s) : TrainedIfStarted e s := by
  induction h with
  | fresh h => exact fun _ _ c hc => by rw [h.cur] at hc; cases hc
  | ran rnd fuel n a _ hd hr ih => exact Moves.trained ((Along.run fuel n a _).to_end _ hr).1 ih
  | loaded rnd fuel n a sv _ hd hr ih => exact Moves.trained ((Along.run fuel n a _).from_start sv hr) ih

/-- C97: a run with preconditioning that returns leaves a trained flow: the evidence is never estimated with the flow a new sampler starts with. -/
theorem C97_trained_at_end {s s' : Sampler d B Φ} {hb : Bool} (hs : Session e hb s) {fuel n : ℕ} {a : RunArgs}
    (hr : (run e rnd fuel n a s).2 = .ok s') (hp : e.preconditioned = true) : s'.flowUntrained = false := by
  obtain ⟨s1, s2, s3, h1, h2, h3, h4⟩ := run_ok hr
  have m1 : Moves e rnd s s1 := .single (.init a h1)
  obtain ⟨w1, w2⟩ := Along.runWarmup (e := e) (rnd := rnd) a s.t s1
  have m2 := (w1.to_end s2 h2).1
  obtain ⟨l1, l2⟩ := Along.smcLoop (e := e) (rnd := rnd) fuel a.saveEvery s.t n s2 (w2 s2 h2)
  have m3 := (l1.to_end s3 h3).1
  obtain ⟨-, hterm⟩ := l2 s3 h3
  have ht := Moves.trained ((m1.trans m2).trans m3) hs.trained
  have h43 : s'.flowUntrained = s3.flowUntrained := by
    rcases finalEvidence_ok h4 with ⟨-, -, h⟩ | ⟨-, lw, z, -, rfl⟩
    · obtain ⟨inv, ll', bl, hbl, -, -, rfl⟩ := computeEvidence_ok h
      rfl
    · rfl
  rw [h43]
  cases hf : s3.flowUntrained with
  | false => rfl
  | true =>
    obtain ⟨es, k1, k2⟩ := bind_ok hterm
    obtain ⟨c, k2, k3⟩ := bind_ok k2
    have hb0 := ht hp hf c (orErr_ok k2)
    simp only [pure, Except.pure, Except.ok.injEq, hb0] at k3
    norm_num at k3

/-! ### C98 -/

/-- C98, the part that is true, one iteration: without preconditioning, and whenever the flow is trained, the geometry used by the MCMC of the iteration is
the one fitted in this iteration to this iteration's weighted particles (`C97_training_set` says which they are), in the coordinates the MCMC uses. In the
remaining iterations the one used is the one used in the iteration before. Missing for the full claim: those remaining iterations, where the fit is made in
the other coordinates and not used. -/
theorem C98_geometry_partial {fuel : ℕ} {s s' : Sampler d B Φ} (h : smcStep e rnd fuel s = .ok s') :
    ∃ (c' : Cur d B) (us : List (Pt d)) (ws : List F) (g : Geo d), s'.cur = some c' ∧ (∀ p ∈ us, p ∈ s.particles.past.u.flatten) ∧
      (∃ (k : McmcEnv d (List B)) (ws : _) (r : _), mcmc k fuel (rnd.mcmc s'.t) ws = .ok r ∧ k.flowFwd = e.flowFwd s'.flow ∧
        k.flowInv = e.flowInv s'.flow ∧ k.tMean = g.tMean ∧ k.tNu = g.tNu ∧ kernelInv e k.kernel g = .ok k.invCov ∧
        kernelChol e k.kernel g = .ok k.cholCov) ∧
      (e.preconditioned = false → rnd.geoFit s'.t us ws = .ok g) ∧
      (e.preconditioned = true → TrainsAt e.trainFrequency s'.t c'.it.beta s.flowUntrained →
        rnd.geoFit s'.t (us.map fun u => (e.flowFwd s'.flow u).1) ws = .ok g) ∧
      (e.preconditioned = true → ¬ TrainsAt e.trainFrequency s'.t c'.it.beta s.flowUntrained → usedGeometry e s = some g) := by
  obtain ⟨c', u, w, beta, logz, es, W, nEff, tr, h1, rfl, h3, h4, h5, h6, h7, h8, ⟨k, ws, r, k1, k2, k3, g, k4, k5⟩, h10⟩ := smcStep_train h
  refine ⟨c', u, w, g, h1, (gather_ok h8).2, ⟨k, ws, r, k1, k2, k3, k5⟩, fun hp => ?_, fun hp ht => ?_, fun hp ht => ?_⟩
  · rcases h10 with ⟨q, -⟩ | ⟨-, -, -, -, g', q1, q2⟩
    · rw [hp] at q; cases q
    · simp only [usedGeometry, hp, Bool.false_eq_true, if_false, q2, Option.some.injEq] at k4
      rw [← k4]; exact q1
  · rcases h10 with ⟨-, -, -, -, -, g', q1, q2⟩ | ⟨q, -⟩
    · simp only [usedGeometry, hp, if_true, q2, Option.some.injEq] at k4
      rw [← k4]; exact q1
    · exact absurd ⟨hp, ht⟩ q
  · rcases h10 with ⟨-, q, -⟩ | ⟨-, -, -, q, -⟩
    · exact absurd q ht
    · simp only [usedGeometry, hp, if_true, q] at k4 ⊢
      exact k4

/-- The latent geometry was fitted in the latent space of the present flow. -/
def GeoMatches (e : SamplerEnv d B Φ) (rnd : Rnd d Φ) (s : Sampler d B Φ) : Prop :=
  ∀ g, s.thetaGeometry = some g → ∃ (t : ℕ) (us : List (Pt d)) (ws : List F), t ≤ s.t ∧
    rnd.geoFit t (us.map fun u => (e.flowFwd s.flow u).1) ws = .ok g

theorem Move.geoMatches {s s' : Sampler d B Φ} (h : Move e rnd s s') (hg : GeoMatches e rnd s) : GeoMatches e rnd s' := by
  cases h with
  | init a h => rcases runInit_ok h with ⟨-, rfl⟩ | ⟨-, sc, -, rfl⟩ <;> exact hg
  | warm i hw hi h =>
    obtain ⟨b0, hb, b, -, -, rfl⟩ := warmupStep_shape h
    intro g hg'
    obtain ⟨t, us, ws, h1, h2⟩ := hg g hg'
    exact ⟨t, us, ws, Nat.le_succ_of_le h1, h2⟩
  | endWarm hw => exact hg
  | smc fuel hw h =>
    obtain ⟨c', u, w, beta, logz, es, W, nEff, tr, h1, rfl, h3, h4, h5, h6, h7, h8, -, h10⟩ := smcStep_train h
    intro g hg'
    rcases h10 with ⟨-, -, -, -, -, g', q1, q2⟩ | ⟨-, q1, -, q2, -⟩
    · rw [q2] at hg'
      simp only [Option.some.injEq] at hg'
      exact ⟨s'.t, u, w, le_rfl, hg' ▸ q1⟩
    · rw [q2] at hg'
      obtain ⟨t, us, ws, h1, h2⟩ := hg g hg'
      exact ⟨t, us, ws, by omega, q1 ▸ h2⟩
  | evidence hw h =>
    rcases finalEvidence_ok h with ⟨-, -, h⟩ | ⟨-, lw, z, -, rfl⟩
    · obtain ⟨inv, ll', bl, hbl, -, -, rfl⟩ := computeEvidence_ok h
      exact hg
    · exact hg

theorem Moves.geoMatches {s s' : Sampler d B Φ} (h : Moves e rnd s s') (hg : GeoMatches e rnd s) : GeoMatches e rnd s' := by
  induction h with
  | refl => exact hg
  | tail _ hm ih => exact hm.geoMatches ih

/-- C98: in every state a sampler reaches (any number of runs) the latent geometry, if there is one, was fitted in the latent space of the flow the
sampler has now, in this iteration or an earlier one; the two never get out of step. -/
theorem C98_flow_and_geometry {s0 s : Sampler d B Φ} {hb : Bool} (h : Fresh e hb s0) (hm : Moves e rnd s0 s) :
    ∀ g, s.thetaGeometry = some g → ∃ (t : ℕ) (us : List (Pt d)) (ws : List F), t ≤ s.t ∧
      rnd.geoFit t (us.map fun u => (e.flowFwd s.flow u).1) ws = .ok g :=
  Moves.geoMatches hm fun g hg => by rw [h.noGeoT] at hg; cases hg

/-! ### C98 refuted -/

theorem Inv.flat_stay {s : Sampler d B Φ} {its : List (Iter d (List B))} (hf : FlatEnv e ll) (hu : UserFns e ll lp bb hb) (hc : Configured e)
    (hd : Draws s.scaler.low s.scaler.high rnd)
    (hrel : Reliable e rnd) (h : Inv e ll lp bb hb s its) (hw : s.warmup = false) (hne : its ≠ []) (hz : ∀ it ∈ its, it.logz = fin 0)
    (hb0 : ∀ it, its.getLast? = some it → it.beta = fin 0)
    (hN : its.length * e.nActive ≤ s.nEffective) (fuel : ℕ) :
    ∃ s' it, smcStep e rnd fuel s = .ok s' ∧ Inv e ll lp bb hb s' (its ++ [it]) ∧ it.logz = fin 0 ∧ it.beta = fin 0 ∧
      s'.nEffective = s.nEffective ∧ s'.scaler = s.scaler := by
  obtain ⟨H, b, c, hH, hR, hfl, hlen, hb1, hl, hcur, hlast, hcb⟩ := h.flat hf hc hne hz
  obtain ⟨st, hs, hs2⟩ := Option.map_eq_some_iff.mp hl
  simp only [Prod.mk.injEq] at hs2
  have hbz : b = 0 := by
    have := hb0 _ hlast
    rw [hcb] at this
    simpa using this
  subst hbz
  have l1 : getAt s.particles.past.beta (-1) = .ok (fin 0) := by
    apply getAt_neg_one
    rw [hH.2.1, List.getLast?_map, hs]; simp [hs2.1]
  have l2 : getAt s.particles.past.logz (-1) = .ok (fin 0) := by
    apply getAt_neg_one
    rw [hH.2.2, List.getLast?_map, hs]; simp [hs2.2]
  have hsz := fun β => flat_size hR hfl β
  rw [hlen] at hsz
  have hcast : ((its.length * e.nActive : ℕ) : ℝ) ≤ ((s.nEffective : ℕ) : ℝ) := by exact_mod_cast hN
  have hbeta : chooseBeta s.particles.past e.metric (F.ofNat s.nEffective) fuel =
      .ok (fin 0, fin 0, fin ((its.length * e.nActive : ℕ) : ℝ)) := by
    rw [hf.metric]
    simp only [chooseBeta, l1, l2, essAt_fin _ H _ hR hH, bind, Except.bind, pure,
      Except.pure, F.fin_le, F.ofNat, hsz]
    rw [if_pos hcast]
  obtain ⟨s', k1, k2, k3⟩ := h.smcStep_of_beta hu hc hrel hH hR hlen hne hbeta
  obtain ⟨it, v1, v2⟩ := h.smc hu hc hd hw k1
  have hb' : it.beta = fin 0 := by
    rw [v1.past, h.past] at k2
    change (its ++ [it]).map (·.beta) = its.map (·.beta) ++ [fin 0] at k2
    simpa using k2
  have hz' : it.logz = fin 0 := by
    rw [v1.past, h.past] at k3
    change (its ++ [it]).map (·.logz) = its.map (·.logz) ++ [fin 0] at k3
    simpa using k3
  refine ⟨s', it, k1, v1, hz', hb', ?_, v2⟩
  obtain ⟨c', s1, c1, s2, c2, s3, c3, h0, h1, h2, h3, h4, rfl⟩ := smcStep_ok k1
  obtain ⟨nEff, beta, logz, ess, w, tr, -, g2, -, -, rfl⟩ := reweight_ok h1
  have hn : nEff = s.nEffective := by
    unfold reweightWeights at g2
    obtain ⟨w0, -, g2⟩ := bind_ok g2
    rw [hf.dynamic] at g2
    simp only [Bool.false_eq_true, if_false, pure, Except.pure, Except.ok.injEq, Prod.mk.injEq] at g2
    exact g2.2.symm
  obtain ⟨ws, k, r, -, -, -, h5⟩ := mutate_ok h4
  simp only [writeBack, Prod.mk.injEq] at h5
  obtain ⟨rfl, rfl⟩ := h5
  rcases train_ok h2 with ⟨-, flow, g, rfl⟩ | ⟨-, g, rfl⟩ <;> exact hn

end

end Poco

namespace Poco.Demo
open F Spec

/-- The example with preconditioning, training every other iteration. -/
def env98 : SamplerEnv 2 Unit Unit := { env true with trainFrequency := 2 }

/-- Every fit returns another geometry: its centre is the number of the iteration. -/
noncomputable def rnd98 : Rnd 2 Unit := { rnd with geoFit := fun t _ _ => .ok { geo with tMean := fun _ => fin t } }

/-- A new sampler with a large `n_effective`: the temperature stays at 0 for a while. -/
def start98 : Sampler 2 Unit Unit := { start with nEffective := 100 }

theorem fresh98 : Fresh env98 true start98 := by
  constructor <;> try rfl
  · exact (fresh true).bounds
  · exact (fresh true).blobs

theorem reliable98 : Reliable env98 rnd98 where
  geo := fun _ _ _ => ⟨_, rfl⟩
  flow := fun _ _ _ _ => ⟨_, rfl⟩
  inv := fun m => ⟨m, rfl⟩
  chol := fun m => ⟨m, rfl⟩
  dim := by simp [env, env98]
  freq := by simp [env98]
  ratio := ⟨_, rfl⟩
  mult := fun _ _ => ⟨le_rfl, one_pos⟩
  syst := fun _ => ⟨le_rfl, one_pos⟩

theorem user98 : UserFns env98 (fun _ => fin 0) (fun _ => fin 0) (fun _ => [()]) true :=
  ⟨(user true).prior, (user true).like, (user true).nothing⟩

/-- Two iterations after each other, at temperature 0, both with a trained flow. -/
theorem steps98 : ∃ s3 s4 s5 : Sampler 2 Unit Unit, Moves env98 rnd98 start98 s3 ∧ s3.warmup = false ∧ s4.warmup = false ∧
    s3.flowUntrained = false ∧ s4.flowUntrained = false ∧
    smcStep env98 rnd98 0 s3 = .ok s4 ∧ smcStep env98 rnd98 0 s4 = .ok s5 ∧ s4.cur.map (·.it.beta) = some (fin 0) ∧ s5.cur.map (·.it.beta) = some (fin 0) := by
  have hu : UserFns env98 (fun _ => fin 0) (fun _ => fin 0) (fun _ => [()]) true := user98
  have hc : Configured env98 := configured true
  have hd : Draws start98.scaler.low start98.scaler.high rnd98 := ⟨fun n => draws.prior n, fun t i k => draws.mcmc t i k⟩
  have hf : FlatEnv env98 (fun _ => fin 0) := ⟨fun _ => .inl rfl, rfl, rfl⟩
  have hi : Inv env98 (fun _ => fin 0) (fun _ => fin 0) (fun _ => [()]) true start98 [] := .fresh fresh98
  obtain ⟨s1, s2, its, h1, h2, h3, h4, h5, h6, h7, h8, h9⟩ := hi.start_total hu hc hd ⟨6, 0, none⟩ (by simp) (fun _ i hi' => by
    have hi2 : i < 2 := hi'
    refine ⟨pt fun _ => ((2 * i : ℕ) : ℝ), ?_, rfl⟩
    have : i = 0 ∨ i = 1 := by omega
    rcases this with rfl | rfl <;> simp [start98, start, rnd98, rnd, env98, env, List.range_succ]) (fun hw => by cases hw)
  have hlen : its.length = 2 := by simpa [env98, env] using h9 rfl
  have hs1 : s1.particles = start98.particles ∧ s1.nEffective = 100 := by
    rcases runInit_ok h1 with ⟨-, rfl⟩ | ⟨-, sc, -, rfl⟩ <;> exact ⟨rfl, rfl⟩
  obtain ⟨z1, z2, z3, z4⟩ := warmup_logz (s := s1) (by rw [hs1.1]; simp [start98, start, Particles.init])
    (by rw [hs1.1]; simp [start98, start, Particles.init]) h2
  rw [h3.past] at z1 z2
  have hz : ∀ it ∈ its, it.logz = fin 0 := fun it hit => z1 _ (List.mem_map_of_mem hit)
  have hb0 : ∀ it, its.getLast? = some it → it.beta = fin 0 := fun it hit =>
    z2 _ (List.mem_map_of_mem (List.mem_of_getLast? hit))
  rw [hs1.2] at z3
  have hd2 : Draws s2.scaler.low s2.scaler.high rnd98 := by rw [h7, h8]; exact hd
  obtain ⟨s3, it3, a1, a2, a3, a4, a5, a6⟩ := h3.flat_stay hf hu hc hd2 reliable98 h6 h4 hz hb0 (by rw [z3, hlen]; simp [env98, env]) 0
  have hz3 : ∀ it ∈ its ++ [it3], it.logz = fin 0 := by
    intro it hit
    rcases List.mem_append.mp hit with hit | hit
    · exact hz it hit
    · simp at hit; rw [hit]; exact a3
  have hw3 := (smcStep_keep a1).1.trans h6
  obtain ⟨s4, it4, b1, b2, b3, b4, b5, b6⟩ := a2.flat_stay hf hu hc (by rw [a6]; exact hd2) reliable98 hw3 (by simp) hz3 (by
    intro it hit; simp at hit; rw [← hit]; exact a4) (by rw [a5, z3]; simp [env98, env, hlen]) 0
  have hz4 : ∀ it ∈ its ++ [it3] ++ [it4], it.logz = fin 0 := by
    intro it hit
    rcases List.mem_append.mp hit with hit | hit
    · exact hz3 it hit
    · simp at hit; rw [hit]; exact b3
  have hw4 := (smcStep_keep b1).1.trans hw3
  obtain ⟨s5, it5, c1, c2, c3, c4, c5, c6⟩ := b2.flat_stay hf hu hc (by rw [b6, a6]; exact hd2) reliable98 hw4 (by simp) hz4 (by
    intro it hit; simp at hit; rw [← hit]; exact b4) (by rw [b5, a5, z3]; simp [env98, env, hlen]) 0
  have m2 : Moves env98 rnd98 start98 s2 := Relation.ReflTransGen.trans (.single (.init _ h1)) ((Along.runWarmup _ _ s1).1.to_end s2 h2).1
  have m3 : Moves env98 rnd98 start98 s3 := m2.tail (.smc 0 h6 a1)
  have untr : ∀ (s s' : Sampler 2 Unit Unit), smcStep env98 rnd98 0 s = .ok s' → s'.flowUntrained = false := by
    intro s s' h
    obtain ⟨c', -, -, k1, k2⟩ := C97_schedule h
    by_cases ht : TrainsAt env98.trainFrequency s'.t c'.it.beta s.flowUntrained
    · exact (k1 ⟨rfl, ht⟩).1
    · rw [(k2 fun hh => ht hh.2).2]
      cases hu : s.flowUntrained
      · rfl
      · exact absurd (.inr (.inr hu)) ht
  have cb : ∀ {s : Sampler 2 Unit Unit} {l : List (Iter 2 (List Unit))} {it : Iter 2 (List Unit)}, s.cur.map (·.it) = (l ++ [it]).getLast? →
      it.beta = fin 0 → s.cur.map (·.it.beta) = some (fin 0) := by
    intro s l it h hb
    cases hc : s.cur with
    | none => rw [hc] at h; simp at h
    | some c => rw [hc] at h; simp at h; simp [h, hb]
  exact ⟨s3, s4, s5, m3, hw3, hw4, untr _ _ a1, untr _ _ b1, b1, c1, cb b2.cur b4, cb c2.cur c4⟩

/-- **C98 is false as stated.** With `train_frequency = 2` there is an iteration whose MCMC uses a geometry that is not the result of any fit of that
iteration. -/
theorem C98_not_always : ∃ s s' : Sampler 2 Unit Unit, Fresh env98 true start98 ∧ Draws start98.scaler.low start98.scaler.high rnd98 ∧
    Moves env98 rnd98 start98 s ∧ s.warmup = false ∧ smcStep env98 rnd98 0 s = .ok s' ∧
    ∃ g, usedGeometry env98 s' = some g ∧ ∀ us ws, rnd98.geoFit s'.t us ws ≠ .ok g := by
  obtain ⟨s3, s4, s5, h1, h2, h3, h4, h5, h6, h7, h8, h9⟩ := steps98
  have key : ∀ s s' : Sampler 2 Unit Unit, Moves env98 rnd98 start98 s → s.flowUntrained = false → smcStep env98 rnd98 0 s = .ok s' →
      s'.cur.map (·.it.beta) = some (fin 0) → ¬ 2 ∣ s'.t → ∃ g, usedGeometry env98 s' = some g ∧ ∀ us ws, rnd98.geoFit s'.t us ws ≠ .ok g := by
    intro s s' hm hf hs hb ht
    obtain ⟨c', u, w, beta, logz, es, W, nEff, tr, k1, rfl, k3, k4, k5, k6, k7, k8, ⟨k, ws, r, -, -, -, g, q1, -⟩, k10⟩ := smcStep_train hs
    rw [k1] at hb
    simp only [Option.map_some, Option.some.injEq] at hb
    refine ⟨g, q1, fun us ws hfit => ?_⟩
    rcases k10 with ⟨-, t, -⟩ | ⟨-, -, -, t, -⟩
    · rcases t with t | t | t
      · exact ht t
      · rw [hb] at t; simp at t
      · rw [hf] at t; cases t
    · have q2 : s.thetaGeometry = some g := by rw [← t]; exact q1
      obtain ⟨t0, us', ws', l1, l2⟩ := C98_flow_and_geometry fresh98 hm g q2
      rw [k3] at hfit
      simp only [rnd98, Except.ok.injEq] at hfit l2
      rw [← l2] at hfit
      have := congrArg (fun g => Geo.tMean g 0) hfit
      simp only [fin_inj, Nat.cast_inj] at this
      omega
  have hd : Draws start98.scaler.low start98.scaler.high rnd98 := ⟨fun n => draws.prior n, fun t i k => draws.mcmc t i k⟩
  by_cases ht : 2 ∣ s4.t
  · refine ⟨s4, s5, fresh98, hd, h1.tail (.smc 0 h2 h6), h3, h7, key s4 s5 (h1.tail (.smc 0 h2 h6)) h5 h7 h9 ?_⟩
    have := (smcStep_keep h7).2
    omega
  · exact ⟨s3, s4, fresh98, hd, h1, h2, h6, key s3 s4 h1 h4 h6 h8 ht⟩

/-- The hypotheses of `C97_training_set` hold in the example, in an iteration that trains. -/
example : ∃ s s' : Sampler 2 Unit Unit, UserFns env98 (fun _ => fin 0) (fun _ => fin 0) (fun _ => [()]) true ∧ Configured env98 ∧
    Session env98 true start98 ∧ Draws start98.scaler.low start98.scaler.high rnd98 ∧ Moves env98 rnd98 start98 s ∧ s.warmup = false ∧
    smcStep env98 rnd98 0 s = .ok s' ∧ TrainsAt env98.trainFrequency s'.t (fin 0) s.flowUntrained := by
  obtain ⟨s3, s4, s5, h1, h2, h3, h4, h5, h6, h7, h8, h9⟩ := steps98
  have hd : Draws start98.scaler.low start98.scaler.high rnd98 := ⟨fun n => draws.prior n, fun t i k => draws.mcmc t i k⟩
  by_cases ht : 2 ∣ s4.t
  · exact ⟨s3, s4, user98, configured true, .fresh fresh98, hd, h1, h2, h6, .inl ht⟩
  · refine ⟨s4, s5, user98, configured true, .fresh fresh98, hd, h1.tail (.smc 0 h2 h6), h3, h7, .inl ?_⟩
    have := (smcStep_keep h7).2
    change 2 ∣ s5.t
    omega

/-- And those of `C97_trained_at_end`. -/
example : ∃ s' : Sampler 2 Unit Unit, Session (env true) true start ∧ (run (env true) rnd 0 1 (args 2) start).2 = .ok s' ∧ (env true).preconditioned = true := by
  obtain ⟨s', h, -⟩ := session true 2
  exact ⟨s', .fresh (fresh true), h, rfl⟩

end Poco.Demo
