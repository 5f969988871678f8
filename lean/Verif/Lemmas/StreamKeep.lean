import Verif.Lemmas.Stream

/-! What every draw keeps of the state of the generators, a run keeps. -/

namespace Poco
open F Spec

variable {d : ℕ} {B Φ W : Type}

/-- No draw leaves `P`. -/
structure KeepsG (gen : Gen d Φ W) (P : W → Prop) : Prop where
  prior : ∀ n w, P w → P (gen.prior n w).2
  ints : ∀ n m w, P w → P (gen.ints n m w).2
  uniform : ∀ n w, P w → P (gen.uniform n w).2
  gamma : ∀ a b w, P w → P (gen.gamma a b w).2
  randn : ∀ w, P w → P (gen.randn w).2
  flowFit : ∀ φ us ws w v, P w → gen.flowFit φ us ws w = .ok v → P v.2
  geoFit : ∀ us ws w v, P w → gen.geoFit us ws w = .ok v → P v.2
  flowSample : ∀ φ n w, P w → P (gen.flowSample φ n w).2

variable {gen : Gen d Φ W} {P : W → Prop} (hk : KeepsG gen P)
include hk

theorem gammasG_keep (e : McmcEnv d B) (mu : Pt d) (l : List (Walker d B)) : ∀ w, P w → P (gammasG gen e mu l w).2 := by
  induction l with
  | nil => intro w h; exact h
  | cons q l ih => intro w h; exact ih _ (hk.gamma _ _ _ h)

theorem normalsG_keep (n : ℕ) : ∀ w, P w → P (normalsG gen n w).2 := by
  induction n with
  | zero => intro w h; exact h
  | succ n ih => intro w h; exact ih _ (hk.randn _ h)

theorem scalesG_keep (e : McmcEnv d B) (st : McmcState d B) (w : W) (h : P w) : P (scalesG gen e st w).2 := by
  unfold scalesG
  by_cases hp : e.kernel.isPcn = true
  · rw [if_pos hp]; exact gammasG_keep hk _ _ _ _ h
  · rw [if_neg hp]; exact h

theorem mcmcStepG_keep {e : McmcEnv d B} {fuel i : ℕ} {st st' : McmcState d B} {w w' : W} (h : P w)
    (hs : mcmcStepG gen e fuel i st w = .ok (st', w')) : P w' := by
  unfold mcmcStepG at hs
  obtain ⟨v, -, hv⟩ := map_ok hs
  simp only [Prod.mk.injEq] at hv
  rw [← hv.2]
  exact hk.uniform _ _ (normalsG_keep hk _ _ (scalesG_keep hk _ _ _ h))

theorem mcmcLoopG_keep {e : McmcEnv d B} {fuel : ℕ} (m : ℕ) : ∀ {i : ℕ} {st st' : McmcState d B} {w w' : W} {j : ℕ}, e.nMax - i ≤ m → P w →
    mcmcLoopG gen e fuel i st w = .ok (st', j, w') → P w' := by
  induction m with
  | zero =>
    intro i st st' w w' j hm h hs
    unfold mcmcLoopG at hs
    cases h1 : mcmcStepG gen e fuel (i + 1) st w with
    | error x => rw [h1] at hs; cases hs
    | ok v =>
      obtain ⟨st1, w1⟩ := v
      have hw := mcmcStepG_keep hk h h1
      rw [h1] at hs
      dsimp only at hs
      split_ifs at hs with c1 c2
      · simp only [Except.ok.injEq, Prod.mk.injEq] at hs; rw [← hs.2.2]; exact hw
      · simp only [Except.ok.injEq, Prod.mk.injEq] at hs; rw [← hs.2.2]; exact hw
      · omega
  | succ m ih =>
    intro i st st' w w' j hm h hs
    unfold mcmcLoopG at hs
    cases h1 : mcmcStepG gen e fuel (i + 1) st w with
    | error x => rw [h1] at hs; cases hs
    | ok v =>
      obtain ⟨st1, w1⟩ := v
      have hw := mcmcStepG_keep hk h h1
      rw [h1] at hs
      dsimp only at hs
      split_ifs at hs with c1 c2
      · simp only [Except.ok.injEq, Prod.mk.injEq] at hs; rw [← hs.2.2]; exact hw
      · simp only [Except.ok.injEq, Prod.mk.injEq] at hs; rw [← hs.2.2]; exact hw
      · exact ih (by omega) hw hs

theorem mcmcG_keep {e : McmcEnv d B} {fuel : ℕ} {ws : List (Walker d B)} {w : W} {r : McmcResult d B × W} (h : P w)
    (hs : mcmcG gen e fuel ws w = .ok r) : P r.2 := by
  unfold mcmcG at hs
  cases h1 : mcmcLoopG gen e fuel 0 (mcmcInit e ws) w with
  | error x => rw [h1] at hs; cases hs
  | ok v =>
    obtain ⟨st, i, w1⟩ := v
    have := mcmcLoopG_keep hk _ le_rfl h h1
    rw [h1] at hs
    simp only [Except.ok.injEq] at hs
    rw [← hs]
    exact this

theorem trainG_keep {e : SamplerEnv d B Φ} {s : Sampler d B Φ} {c : Cur d B} {w : W} {r : Sampler d B Φ × W} (h : P w)
    (hs : trainG gen e s c w = .ok r) : P r.2 := by
  unfold trainG at hs
  obtain ⟨wts, -, hs⟩ := bind_ok hs
  obtain ⟨now, -, hs⟩ := bind_ok hs
  cases now with
  | true =>
    obtain ⟨f, h1, hs⟩ := bind_ok hs
    obtain ⟨g, h2, hs⟩ := bind_ok hs
    simp only [pure, Except.pure, Except.ok.injEq] at hs
    rw [← hs]
    exact hk.geoFit _ _ _ _ (hk.flowFit _ _ _ _ _ h h1) h2
  | false =>
    obtain ⟨g, h2, hs⟩ := bind_ok hs
    simp only [pure, Except.pure, Except.ok.injEq] at hs
    rw [← hs]
    exact hk.geoFit _ _ _ _ h h2

theorem resampleIdxG_keep {e : SamplerEnv d B Φ} {wts : List F} {w : W} {r : List ℕ × W} (h : P w) (hs : resampleIdxG gen e wts w = .ok r) : P r.2 := by
  unfold resampleIdxG at hs
  cases he : e.resample <;> rw [he] at hs <;> obtain ⟨v, -, hv⟩ := map_ok hs <;> rw [← hv] <;> exact hk.uniform _ _ h

theorem resampleStepG_keep {e : SamplerEnv d B Φ} {s : Sampler d B Φ} {c : Cur d B} {w : W} {r : Cur d B × W} (h : P w)
    (hs : resampleStepG gen e s c w = .ok r) : P r.2 := by
  unfold resampleStepG at hs
  obtain ⟨wts, -, hs⟩ := bind_ok hs
  obtain ⟨v, h1, hs⟩ := bind_ok hs
  obtain ⟨_, -, hs⟩ := bind_ok hs
  obtain ⟨_, -, hs⟩ := bind_ok hs
  obtain ⟨_, -, hs⟩ := bind_ok hs
  obtain ⟨_, -, hs⟩ := bind_ok hs
  obtain ⟨_, -, hs⟩ := bind_ok hs
  obtain ⟨_, -, hs⟩ := bind_ok hs
  simp only [pure, Except.pure, Except.ok.injEq] at hs
  rw [← hs]
  exact resampleIdxG_keep hk h h1

theorem smcStepG_keep {e : SamplerEnv d B Φ} {fuel : ℕ} {s : Sampler d B Φ} {w : W} {r : Sampler d B Φ × W} (h : P w)
    (hs : smcStepG gen e fuel s w = .ok r) : P r.2 := by
  unfold smcStepG at hs
  obtain ⟨c, -, hs⟩ := bind_ok hs
  obtain ⟨a, -, hs⟩ := bind_ok hs
  obtain ⟨b, h1, hs⟩ := bind_ok hs
  obtain ⟨q, h2, hs⟩ := bind_ok hs
  obtain ⟨m, h3, hs⟩ := bind_ok hs
  simp only [pure, Except.pure, Except.ok.injEq] at hs
  rw [← hs]
  have hq := resampleStepG_keep hk (trainG_keep hk h h1) h2
  unfold mutateG at h3
  obtain ⟨ws, -, h3⟩ := bind_ok h3
  obtain ⟨k, -, h3⟩ := bind_ok h3
  obtain ⟨v, h4, h3⟩ := bind_ok h3
  simp only [pure, Except.pure, Except.ok.injEq] at h3
  rw [← h3]
  exact mcmcG_keep hk hq h4

theorem warmupStepG_keep {e : SamplerEnv d B Φ} {s : Sampler d B Φ} {i : ℕ} {w : W} {r : Sampler d B Φ × W} (h : P w)
    (hs : warmupStepG gen e s i w = .ok r) : P r.2 := by
  unfold warmupStepG at hs
  obtain ⟨b0, -, hs⟩ := bind_ok hs
  obtain ⟨b, -, hs⟩ := bind_ok hs
  simp only [pure, Except.pure, Except.ok.injEq] at hs
  rw [← hs]
  show P (warmDrawsG gen b0.1.logl w).2
  unfold warmDrawsG
  dsimp only
  split_ifs
  · exact h
  · exact hk.ints _ _ _ h

theorem bootG_keep (n reps : ℕ) : ∀ w, P w → P (bootG gen n reps w).2 := by
  induction reps with
  | zero => intro w h; exact h
  | succ r ih => intro w h; exact ih _ (hk.ints _ _ _ h)

theorem finalEvidenceG_keep {e : SamplerEnv d B Φ} {s : Sampler d B Φ} {w : W} {r : Sampler d B Φ × W} (h : P w)
    (hs : finalEvidenceG gen e s w = .ok r) : P r.2 := by
  unfold finalEvidenceG at hs
  split_ifs at hs with hc
  · unfold computeEvidenceG at hs
    obtain ⟨inv, -, hs⟩ := bind_ok hs
    obtain ⟨l, -, hs⟩ := bind_ok hs
    simp only [pure, Except.pure, Except.ok.injEq] at hs
    rw [← hs]
    exact bootG_keep hk _ _ _ (hk.flowSample _ _ _ h)
  · obtain ⟨z, -, hs⟩ := bind_ok hs
    simp only [pure, Except.pure, Except.ok.injEq] at hs
    rw [← hs]
    exact h

omit hk in
theorem andThenG_ok {t : TraceG d B Φ W} {f : Sampler d B Φ → W → TraceG d B Φ W} {r : Sampler d B Φ × W} (h : (t.andThen f).2 = .ok r) :
    ∃ s w, t.2 = .ok (s, w) ∧ (f s w).2 = .ok r := by
  obtain ⟨l, v⟩ := t
  cases v with
  | error x => cases h
  | ok v => exact ⟨v.1, v.2, rfl, h⟩

theorem warmupLoopG_keep {e : SamplerEnv d B Φ} {k : Option ℕ} {t0 : ℕ} (n : ℕ) : ∀ {i : ℕ} {s : Sampler d B Φ} {w : W} {r : Sampler d B Φ × W}, P w →
    (warmupLoopG gen e k t0 n i s w).2 = .ok r → P r.2 := by
  induction n with
  | zero =>
    intro i s w r h hs
    simp only [warmupLoopG, Except.ok.injEq] at hs
    rw [← hs]; exact h
  | succ n ih =>
    intro i s w r h hs
    unfold warmupLoopG at hs
    obtain ⟨s1, w1, h1, hs⟩ := andThenG_ok hs
    obtain ⟨e1, e2⟩ := saveG_ok h1
    obtain ⟨s2, w2, h2, hs⟩ := andThenG_ok hs
    rw [e1, e2] at h2
    exact ih (warmupStepG_keep hk h h2) hs

theorem smcLoopG_keep {e : SamplerEnv d B Φ} {fuel : ℕ} {k : Option ℕ} {t0 : ℕ} (n : ℕ) : ∀ {s : Sampler d B Φ} {w : W} {r : Sampler d B Φ × W}, P w →
    (smcLoopG gen e fuel k t0 n s w).2 = .ok r → P r.2 := by
  induction n with
  | zero =>
    intro s w r h hs
    unfold smcLoopG at hs
    cases h1 : notTermination e s with
    | error x => rw [h1] at hs; cases hs
    | ok v =>
      rw [h1] at hs
      cases v with
      | true => cases hs
      | false =>
        simp only [Except.ok.injEq] at hs
        rw [← hs]; exact h
  | succ n ih =>
    intro s w r h hs
    unfold smcLoopG at hs
    cases h1 : notTermination e s with
    | error x => rw [h1] at hs; cases hs
    | ok v =>
      rw [h1] at hs
      cases v with
      | true =>
        obtain ⟨s1, w1, h1, hs⟩ := andThenG_ok hs
        obtain ⟨e1, e2⟩ := saveG_ok h1
        obtain ⟨s2, w2, h2, hs⟩ := andThenG_ok hs
        rw [e1, e2] at h2
        exact ih (smcStepG_keep hk h h2) hs
      | false =>
        simp only [Except.ok.injEq] at hs
        rw [← hs]; exact h

/-- A run on a sampler without prior samples draws them first. -/
theorem runG_keep {e : SamplerEnv d B Φ} {fuel n : ℕ} {a : RunArgs} {s : Sampler d B Φ} {w : W} {r : Sampler d B Φ × W} (hp : s.priorSamples = none)
    (h : P (gen.prior e.nPrior w).2) (hs : (runG gen e fuel n a s w).2 = .ok r) : P r.2 := by
  unfold runG at hs
  obtain ⟨s1, w1, h1, hs⟩ := andThenG_ok hs
  obtain ⟨s2, w2, h2, hs⟩ := andThenG_ok hs
  obtain ⟨s3, w3, h3, hs⟩ := andThenG_ok hs
  obtain ⟨s4, w4, h4, hs⟩ := andThenG_ok hs
  have k1 : P w1 := by
    change runInitG gen e a s w = .ok (s1, w1) at h1
    unfold runInitG at h1
    dsimp only at h1
    rw [hp] at h1
    obtain ⟨sc, -, h1⟩ := bind_ok h1
    simp only [pure, Except.pure, Except.ok.injEq, Prod.mk.injEq] at h1
    rw [← h1.2]
    exact h
  have k2 : P w2 := by
    unfold runWarmupG at h2
    split_ifs at h2
    · obtain ⟨s5, w5, h5, h2⟩ := andThenG_ok h2
      have := warmupLoopG_keep hk _ k1 h5
      simp only [Except.ok.injEq, Prod.mk.injEq] at h2
      rw [← h2.2]; exact this
    · simp only [Except.ok.injEq, Prod.mk.injEq] at h2
      rw [← h2.2]; exact k1
  have k3 := smcLoopG_keep hk _ k2 h3
  have k4 := finalEvidenceG_keep hk k3 h4
  simp only [Except.ok.injEq] at hs
  rw [← hs]
  exact k4

end Poco
