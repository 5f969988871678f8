import Verif.Lemmas.Inv

/-! A likelihood that sometimes raises, and otherwise returns what it should: whatever a run achieves with it, it would have achieved with the likelihood that
never raises. -/

namespace Poco.Spec

variable {d : ℕ} {B Φ : Type}

/-- `e'` is `e` with a likelihood that may raise where that of `e` does not, but gives the same answers when it does not. -/
def Flaky (e e' : SamplerEnv d B Φ) : Prop :=
  e' = { e with like := e'.like } ∧ ∀ xs r, logLike e'.like xs = .ok r → logLike e.like xs = .ok r

end Poco.Spec

namespace Poco
open F Spec

variable {d : ℕ} {B Φ : Type}

theorem Spec.Flaky.refl (e : SamplerEnv d B Φ) : Flaky e e := ⟨rfl, fun _ _ h => h⟩

theorem bind_mono {α β : Type} {a a' : Except PyErr α} {f f' : α → Except PyErr β} {b : β} (ha : ∀ v, a' = .ok v → a = .ok v)
    (hf : ∀ v, f' v = .ok b → f v = .ok b) (h : (a' >>= f') = .ok b) : (a >>= f) = .ok b := by
  obtain ⟨v, h1, h2⟩ := bind_ok h
  rw [ha v h1]
  exact hf v h2

theorem evaluate_mono {k : McmcEnv d B} {f : List (Pt d) → Except PyErr (List F × Option (List B))}
    (hf : ∀ xs r, f xs = .ok r → k.logLike xs = .ok r) {cands : List (Walker d B)} {r : List (Walker d B) × List (Pt d) × ℕ}
    (h : evaluate { k with logLike := f } cands = .ok r) : evaluate k cands = .ok r := by
  unfold evaluate at h ⊢
  refine bind_mono (fun _ h => h) (fun _ h => ?_) h
  exact bind_mono (fun v h => hf _ v h) (fun _ h => h) h

theorem mcmcStep_mono {k : McmcEnv d B} {f : List (Pt d) → Except PyErr (List F × Option (List B))}
    (hf : ∀ xs r, f xs = .ok r → k.logLike xs = .ok r) {fuel : ℕ} {rnd : ℕ → Draw d} {i : ℕ} {st st' : McmcState d B}
    (h : mcmcStep { k with logLike := f } fuel rnd i st = .ok st') : mcmcStep k fuel rnd i st = .ok st' := by
  unfold mcmcStep at h ⊢
  refine bind_mono (fun _ h => h) (fun _ h => ?_) h
  exact bind_mono (fun v h => evaluate_mono hf h) (fun _ h => h) h

theorem mcmcLoop_mono {k : McmcEnv d B} {f : List (Pt d) → Except PyErr (List F × Option (List B))}
    (hf : ∀ xs r, f xs = .ok r → k.logLike xs = .ok r) {fuel : ℕ} {rnd : ℕ → ℕ → Draw d} (m : ℕ) : ∀ {i : ℕ} {st : McmcState d B} {r : McmcState d B × ℕ},
    k.nMax - i = m → mcmcLoop { k with logLike := f } fuel rnd i st = .ok r → mcmcLoop k fuel rnd i st = .ok r := by
  induction m using Nat.strong_induction_on with
  | _ m ih =>
    intro i st r hm h
    rw [mcmcLoop] at h ⊢
    cases hs : mcmcStep { k with logLike := f } fuel (rnd (i + 1)) (i + 1) st with
    | error x => rw [hs] at h; cases h
    | ok st' =>
      rw [hs] at h
      rw [mcmcStep_mono hf hs]
      simp only at h ⊢
      split_ifs at h ⊢ with h1 h2
      · exact h
      · exact h
      · exact ih (k.nMax - (i + 1)) (by omega) rfl h

theorem mcmc_mono {k : McmcEnv d B} {f : List (Pt d) → Except PyErr (List F × Option (List B))}
    (hf : ∀ xs r, f xs = .ok r → k.logLike xs = .ok r) {fuel : ℕ} {rnd : ℕ → ℕ → Draw d} {ws : List (Walker d B)} {r : McmcResult d B}
    (h : mcmc { k with logLike := f } fuel rnd ws = .ok r) : mcmc k fuel rnd ws = .ok r := by
  unfold mcmc at h ⊢
  change (match mcmcLoop { k with logLike := f } fuel rnd 0 (mcmcInit k ws) with | .error x => _ | .ok (st, i) => _) = _ at h
  cases hl : mcmcLoop { k with logLike := f } fuel rnd 0 (mcmcInit k ws) with
  | error x => rw [hl] at h; cases h
  | ok q =>
    rw [hl] at h
    rw [mcmcLoop_mono hf _ rfl hl]
    exact h

variable {e e' : SamplerEnv d B Φ} {rnd : Rnd d Φ} {fuel : ℕ} {s s' : Sampler d B Φ}

theorem kernelEnv_mono (he : Flaky e e') {beta : F} {k : McmcEnv d (List B)} (h : kernelEnv e' s beta = .ok k) :
    ∃ k₀, kernelEnv e s beta = .ok k₀ ∧ k = { k₀ with logLike := k.logLike } ∧ ∀ xs r, k.logLike xs = .ok r → k₀.logLike xs = .ok r := by
  obtain ⟨he1, he2⟩ := he
  rw [he1] at h
  unfold kernelEnv at h ⊢
  obtain ⟨g, h1, h⟩ := bind_ok h
  obtain ⟨inv, h2, h⟩ := bind_ok h
  obtain ⟨ch, h3, h⟩ := bind_ok h
  simp only [pure, Except.pure, Except.ok.injEq] at h
  subst h
  refine ⟨{ kernel := kernelOf e.preconditioned e.sample, logLike := fun xs => (logLike e.like xs).map fun r => (r.1, r.2.1), logPrior := e.logPrior,
            scaler := s.scaler, flowFwd := e.flowFwd s.flow, flowInv := e.flowInv s.flow, tMean := g.tMean, tNu := g.tNu, invCov := inv, cholCov := ch,
            beta := beta, nMax := e.nMaxSteps, nSteps := e.nSteps, proposalScale := s.proposalScale, haveBlobs := s.haveBlobs }, ?_, rfl, ?_⟩
  rotate_left
  · intro xs r hr
    simp only at hr
    obtain ⟨v, hv, rfl⟩ := map_ok hr
    change (logLike e.like xs).map _ = _
    rw [he2 _ _ hv]
    rfl
  · rw [h1]
    change (kernelInv e (kernelOf e.preconditioned e.sample) g >>= _) = _
    change kernelInv e (kernelOf e.preconditioned e.sample) g = _ at h2
    change kernelChol e (kernelOf e.preconditioned e.sample) g = _ at h3
    rw [h2]
    change (kernelChol e (kernelOf e.preconditioned e.sample) g >>= _) = _
    rw [h3]
    rfl

theorem mutate_mono (he : Flaky e e') {c : Cur d B} {r : Sampler d B Φ × Cur d B} (h : mutate e' rnd fuel s c = .ok r) : mutate e rnd fuel s c = .ok r := by
  unfold mutate at h ⊢
  obtain ⟨ws, h1, h⟩ := bind_ok h
  obtain ⟨k, h2, h⟩ := bind_ok h
  obtain ⟨k₀, g1, g2, g3⟩ := kernelEnv_mono he h2
  rw [h1]
  change (kernelEnv e s c.it.beta >>= _) = _
  rw [g1]
  change (mcmc k₀ fuel (rnd.mcmc s.t) ws >>= _) = _
  refine bind_mono (fun v hv => ?_) (fun _ h => h) h
  rw [g2] at hv
  exact mcmc_mono g3 hv

theorem smcStep_mono (he : Flaky e e') (h : smcStep e' rnd fuel s = .ok s') : smcStep e rnd fuel s = .ok s' := by
  have h1 : ∀ s c, reweight e' fuel s c = reweight e fuel s c := by rw [he.1]; intro s c; rfl
  have h2 : ∀ s c, train e' rnd s c = train e rnd s c := by rw [he.1]; intro s c; rfl
  have h3 : ∀ s c, resampleStep e' rnd s c = resampleStep e rnd s c := by rw [he.1]; intro s c; rfl
  unfold smcStep at h ⊢
  simp only [h1, h2, h3] at h
  refine bind_mono (fun _ h => h) (fun _ h => ?_) h
  refine bind_mono (fun _ h => h) (fun _ h => ?_) h
  refine bind_mono (fun _ h => h) (fun _ h => ?_) h
  refine bind_mono (fun _ h => h) (fun _ h => ?_) h
  exact bind_mono (fun v h => mutate_mono he h) (fun _ h => h) h

theorem warmupBatch_mono (he : Flaky e e') {i : ℕ} {b : Batch d B × Bool} (h : warmupBatch e' s i = .ok b) : warmupBatch e s i = .ok b := by
  obtain ⟨he1, he2⟩ := he
  rw [he1] at h
  unfold warmupBatch at h ⊢
  refine bind_mono (fun _ h => h) (fun _ h => ?_) h
  refine bind_mono (fun _ h => h) (fun _ h => ?_) h
  refine bind_mono (fun _ h => h) (fun _ h => ?_) h
  exact bind_mono (fun v h => he2 _ v h) (fun _ h => h) h

theorem warmupStep_mono (he : Flaky e e') {i : ℕ} (h : warmupStep e' rnd s i = .ok s') : warmupStep e rnd s i = .ok s' := by
  have hn : e'.nActive = e.nActive := by rw [he.1]
  unfold warmupStep at h ⊢
  rw [hn] at h
  exact bind_mono (fun _ h => warmupBatch_mono he h) (fun _ h => h) h

theorem finalEvidence_mono (he : Flaky e e') (h : finalEvidence e' rnd s = .ok s') : finalEvidence e rnd s = .ok s' := by
  obtain ⟨he1, he2⟩ := he
  rw [he1] at h
  unfold finalEvidence at h ⊢
  simp only at h
  split_ifs at h ⊢ with hif
  · unfold computeEvidence at h ⊢
    refine bind_mono (fun _ h => h) (fun _ h => ?_) h
    exact bind_mono (fun v h => he2 _ v h) (fun _ h => h) h
  · exact h

theorem runInit_flaky (he : Flaky e e') (a : RunArgs) : runInit e' rnd a s = runInit e rnd a s := by
  rw [he.1]; rfl

theorem Move.mono (he : Flaky e e') (h : Move e' rnd s s') : Move e rnd s s' := by
  cases h with
  | init a h => exact .init a (by rw [← runInit_flaky he]; exact h)
  | warm i hw hi h =>
    refine .warm i hw ?_ (warmupStep_mono he h)
    rw [he.1] at hi
    exact hi
  | endWarm hw => exact .endWarm hw
  | smc fuel hw h => exact .smc fuel hw (smcStep_mono he h)
  | evidence hw h => exact .evidence hw (finalEvidence_mono he h)

theorem Moves.mono (he : Flaky e e') (h : Moves e' rnd s s') : Moves e rnd s s' := by
  induction h with
  | refl => exact .refl
  | tail _ h ih => exact ih.tail (h.mono he)

end Poco
