import Verif.Spec.Kernel
import Verif.Lemmas.Run
import Verif.Props.Mcmc
import Verif.Props.Demo
import Verif.Props.Total

/-! # C90: the options choose the kernel.  C91: the adapted centre of the proposals. -/

namespace Poco
open F Spec

variable {d : ℕ} {B Φ : Type}

/-! ### without preconditioning the flow plays no part -/

theorem candidate_noFlow (e : McmcEnv d B) (hk : e.kernel.hasFlow = false) (f g : Pt d → Pt d × F) :
    candidate { e with flowFwd := f, flowInv := g } = candidate e := by
  funext fuel p
  unfold candidate
  dsimp only
  rw [hk]
  rfl

theorem mcmcInit_noFlow (e : McmcEnv d B) (hk : e.kernel.hasFlow = false) (f g : Pt d → Pt d × F) (ws : List (Walker d B)) :
    mcmcInit { e with flowFwd := f, flowInv := g } ws = mcmcInit e ws := by
  unfold mcmcInit
  dsimp only
  rw [hk]
  rfl

theorem mcmcStep_noFlow (e : McmcEnv d B) (hk : e.kernel.hasFlow = false) (f g : Pt d → Pt d × F) :
    mcmcStep { e with flowFwd := f, flowInv := g } = mcmcStep e := by
  funext fuel rnd i st
  unfold mcmcStep
  rw [candidate_noFlow e hk]
  rfl

theorem mcmcLoop_noFlow (e : McmcEnv d B) (hk : e.kernel.hasFlow = false) (f g : Pt d → Pt d × F) (fuel : ℕ)
    (rnd : ℕ → ℕ → Draw d) (i : ℕ) (st : McmcState d B) :
    mcmcLoop { e with flowFwd := f, flowInv := g } fuel rnd i st = mcmcLoop e fuel rnd i st := by
  fun_induction mcmcLoop e fuel rnd i st with
  | case1 i st x hs => rw [mcmcLoop, mcmcStep_noFlow e hk, hs]
  | case2 i st st1 hs hstop => rw [mcmcLoop, mcmcStep_noFlow e hk, hs]; simp [hstop]
  | case3 i st st1 hs hstop hn => rw [mcmcLoop, mcmcStep_noFlow e hk, hs]; simp [hstop, hn]
  | case4 i st st1 hs hstop hn ih => rw [mcmcLoop, mcmcStep_noFlow e hk, hs]; simpa [hstop, hn] using ih

theorem mcmc_noFlow (e : McmcEnv d B) (hk : e.kernel.hasFlow = false) (f g : Pt d → Pt d × F) (fuel : ℕ)
    (rnd : ℕ → ℕ → Draw d) (ws : List (Walker d B)) :
    mcmc { e with flowFwd := f, flowInv := g } fuel rnd ws = mcmc e fuel rnd ws := by
  unfold mcmc
  rw [mcmcInit_noFlow e hk, mcmcLoop_noFlow e hk]

theorem mutate_noFlow (e : SamplerEnv d B Φ) (hp : e.preconditioned = false) (f g : Φ → Pt d → Pt d × F) (rnd : Rnd d Φ)
    (ff : ℕ → Φ → List (Pt d) → List F → Except PyErr Φ) (fs : ℕ → Φ → ℕ → List (Pt d × F)) (fuel : ℕ)
    (s : Sampler d B Φ) (c : Cur d B) :
    mutate { e with flowFwd := f, flowInv := g } { rnd with flowFit := ff, flowSample := fs } fuel s c =
      mutate e rnd fuel s c := by
  unfold mutate
  cases toWalkers c.it s.haveBlobs with
  | error x => rfl
  | ok ws =>
    have hk : kernelEnv { e with flowFwd := f, flowInv := g } s c.it.beta =
        (kernelEnv e s c.it.beta).map fun k => { k with flowFwd := f s.flow, flowInv := g s.flow } := by
      unfold kernelEnv
      dsimp only
      cases orErr PyErr.typeError (if e.preconditioned = true then s.thetaGeometry else s.uGeometry) with
      | error x => rfl
      | ok g =>
        change (kernelInv e _ g >>= _) = (kernelInv e _ g >>= _).map _
        cases kernelInv e (kernelOf e.preconditioned e.sample) g with
        | error x => rfl
        | ok a =>
          change (kernelChol e _ g >>= _) = (kernelChol e _ g >>= _).map _
          cases kernelChol e (kernelOf e.preconditioned e.sample) g <;> rfl
    change (kernelEnv _ s c.it.beta >>= _) = (kernelEnv e s c.it.beta >>= _)
    rw [hk]
    cases hke : kernelEnv e s c.it.beta with
    | error x => rfl
    | ok k =>
      have hf : k.kernel.hasFlow = false := by
        obtain ⟨-, -, -, -, -, h, -⟩ := kernelEnv_ok hke
        rw [h, hp]
        cases e.sample <;> rfl
      change (mcmc _ fuel (rnd.mcmc s.t) ws >>= _) = (mcmc k fuel (rnd.mcmc s.t) ws >>= _)
      rw [mcmc_noFlow k hf]

theorem train_noFlow (e : SamplerEnv d B Φ) (hp : e.preconditioned = false) (f g : Φ → Pt d → Pt d × F) (rnd : Rnd d Φ)
    (ff : ℕ → Φ → List (Pt d) → List F → Except PyErr Φ) (fs : ℕ → Φ → ℕ → List (Pt d × F))
    (s : Sampler d B Φ) (c : Cur d B) :
    train { e with flowFwd := f, flowInv := g } { rnd with flowFit := ff, flowSample := fs } s c = train e rnd s c := by
  unfold train
  cases orErr PyErr.typeError c.weights with
  | error x => rfl
  | ok w =>
    have h1 : trainNow { e with flowFwd := f, flowInv := g } s c.it.beta = .ok false := by simp [trainNow, hp]
    have h2 : trainNow e s c.it.beta = .ok false := by simp [trainNow, hp]
    change (trainNow _ s c.it.beta >>= _) = (trainNow e s c.it.beta >>= _)
    rw [h1, h2]
    rfl

theorem smcStep_noFlow (e : SamplerEnv d B Φ) (hp : e.preconditioned = false) (f g : Φ → Pt d → Pt d × F) (rnd : Rnd d Φ)
    (ff : ℕ → Φ → List (Pt d) → List F → Except PyErr Φ) (fs : ℕ → Φ → ℕ → List (Pt d × F)) (fuel : ℕ)
    (s : Sampler d B Φ) :
    smcStep { e with flowFwd := f, flowInv := g } { rnd with flowFit := ff, flowSample := fs } fuel s =
      smcStep e rnd fuel s := by
  unfold smcStep
  simp only [mutate_noFlow e hp f g rnd ff fs, train_noFlow e hp f g rnd ff fs]
  rfl

theorem smcLoop_noFlow (e : SamplerEnv d B Φ) (hp : e.preconditioned = false) (f g : Φ → Pt d → Pt d × F) (rnd : Rnd d Φ)
    (ff : ℕ → Φ → List (Pt d) → List F → Except PyErr Φ) (fs : ℕ → Φ → ℕ → List (Pt d × F)) (fuel : ℕ) (k : Option ℕ)
    (t0 n : ℕ) (s : Sampler d B Φ) :
    smcLoop { e with flowFwd := f, flowInv := g } { rnd with flowFit := ff, flowSample := fs } fuel k t0 n s =
      smcLoop e rnd fuel k t0 n s := by
  induction n generalizing s with
  | zero => unfold smcLoop; rfl
  | succ n ih =>
    unfold smcLoop
    simp only [smcStep_noFlow e hp f g rnd ff fs, ih]
    rfl

theorem warmupLoop_noFlow (e : SamplerEnv d B Φ) (f g : Φ → Pt d → Pt d × F) (rnd : Rnd d Φ)
    (ff : ℕ → Φ → List (Pt d) → List F → Except PyErr Φ) (fs : ℕ → Φ → ℕ → List (Pt d × F)) (k : Option ℕ)
    (t0 n i : ℕ) (s : Sampler d B Φ) :
    warmupLoop { e with flowFwd := f, flowInv := g } { rnd with flowFit := ff, flowSample := fs } k t0 n i s =
      warmupLoop e rnd k t0 n i s := by
  induction n generalizing s i with
  | zero => rfl
  | succ n ih =>
    unfold warmupLoop
    simp only [ih]
    rfl

/-- **C90.**  With `precondition=False` a run does not depend on the flow at all: neither on its maps, nor on what training or
sampling from it would have returned.  The files written and the final state (or the exception) are the same. -/
theorem C90_unpreconditioned (e : SamplerEnv d B Φ) (hp : e.preconditioned = false) (rnd : Rnd d Φ) (fuel n : ℕ) (a : RunArgs)
    (s : Sampler d B Φ) (fwd inv : Φ → Pt d → Pt d × F) (fit : ℕ → Φ → List (Pt d) → List F → Except PyErr Φ)
    (sample : ℕ → Φ → ℕ → List (Pt d × F)) :
    run { e with flowFwd := fwd, flowInv := inv } { rnd with flowFit := fit, flowSample := sample } fuel n a s =
      run e rnd fuel n a s := by
  have hw (t0 : ℕ) (s : Sampler d B Φ) : runWarmup { e with flowFwd := fwd, flowInv := inv }
      { rnd with flowFit := fit, flowSample := sample } a t0 s = runWarmup e rnd a t0 s := by
    unfold runWarmup
    simp only [warmupLoop_noFlow e fwd inv rnd fit sample]
  have hf (s : Sampler d B Φ) : finalEvidence { e with flowFwd := fwd, flowInv := inv }
      { rnd with flowFit := fit, flowSample := sample } s = finalEvidence e rnd s := by
    unfold finalEvidence
    simp [hp]
  unfold run
  simp only [hw, hf, smcLoop_noFlow e hp fwd inv rnd fit sample]
  rfl

/-! ### with preconditioning every proposal comes through the flow -/

theorem candidate_image {e : McmcEnv d B} (hk : e.kernel.hasFlow = true) {fuel : ℕ} {p : Pt d} {c : Walker d B}
    (h : candidate e fuel p = .ok c) : LatentImage e.scaler e.flowInv fuel p c.x := by
  unfold candidate at h
  rw [hk] at h
  simp only [if_true] at h
  obtain ⟨⟨x₀, ld₀⟩, h0, h⟩ := bind_ok h
  by_cases hbc : e.scaler.periodic.isSome || e.scaler.reflective.isSome
  · rw [if_pos hbc] at h
    cases hb : e.scaler.boundaryRow fuel x₀ with
    | none => rw [hb] at h; cases h
    | some x₁ =>
      rw [hb] at h
      obtain ⟨u, h1, h'⟩ := bind_ok h
      obtain ⟨⟨x, ld⟩, h2, h''⟩ := bind_ok h'
      simp only [pure, Except.pure, Except.ok.injEq] at h''
      refine ⟨x₀, ld₀, h0, Or.inr ⟨?_, x₁, u, ld, hb, h1, by rw [← h'']; exact h2⟩⟩
      cases hp : e.scaler.periodic <;> cases hr : e.scaler.reflective <;> simp_all
  · rw [if_neg hbc] at h
    simp only [pure, Except.pure, Except.ok.injEq] at h
    refine ⟨x₀, ld₀, h0, Or.inl ⟨?_, ?_, by rw [← h]⟩⟩
    · cases hp : e.scaler.periodic <;> simp_all
    · cases hp : e.scaler.reflective <;> simp_all

theorem mem_of_maskSelect {α : Type} {m : List Bool} {l : List α} {a : α} (h : a ∈ maskSelect m l) : a ∈ l := by
  unfold maskSelect at h
  obtain ⟨q, hq, rfl⟩ := List.mem_map.mp h
  exact (List.of_mem_zip (a := q.1) (b := q.2) (List.mem_of_mem_filter hq)).2

theorem evaluate_points {e : McmcEnv d B} {cands full : List (Walker d B)} {ev : List (Pt d)} {n : ℕ}
    (h : evaluate e cands = .ok (full, ev, n)) {x : Pt d} (hx : x ∈ ev) : ∃ c ∈ cands, c.x = x := by
  unfold evaluate at h
  obtain ⟨logp, h1, h⟩ := bind_ok h
  obtain ⟨⟨ll, bl⟩, h2, h⟩ := bind_ok h
  obtain ⟨logl, h3, h⟩ := bind_ok h
  obtain ⟨blobs, h4, h⟩ := bind_ok h
  simp only [pure, Except.pure, Except.ok.injEq, Prod.mk.injEq] at h
  obtain ⟨-, rfl, -⟩ := h
  have := mem_of_maskSelect hx
  simpa using this

/-- **C90.**  With `precondition=True` every point at which the mutation step evaluates the likelihood is the image of a point
of the flow's latent space. -/
theorem C90_preconditioned {e : SamplerEnv d B Φ} (hp : e.preconditioned = true) {rnd : Rnd d Φ} {fuel : ℕ}
    {s s' : Sampler d B Φ} {c c' : Cur d B} (h : mutate e rnd fuel s c = .ok (s', c')) :
    ∃ points, s'.evals = s.evals ++ points ∧
      ∀ x ∈ points, ∃ z, LatentImage s.scaler (e.flowInv s.flow) fuel z x := by
  obtain ⟨ws, k, r, h1, h2, h3, h4⟩ := mutate_ok h
  obtain ⟨-, hsc, -, -, -, hk, -, -, -, -, hfi, -⟩ := kernelEnv_ok h2
  have hf : k.kernel.hasFlow = true := by rw [hk, hp]; cases e.sample <;> rfl
  obtain ⟨st, hl, -, -, -, -, -, hev⟩ := mcmc_ok h3
  refine ⟨r.evaluated, by simp only [writeBack, Prod.mk.injEq] at h4; rw [h4.1], ?_⟩
  rw [hev, ← hsc, ← hfi]
  refine mcmcLoop_ind (P := fun st => ∀ x ∈ st.evaluated, ∃ z, LatentImage k.scaler k.flowInv fuel z x) ?_ ?_ hl
  · intro i st st' hP hs x hx
    obtain ⟨cands, props, ev, n, g1, g2, -, -, -, -, -, g8⟩ := mcmcStep_ok hs
    rw [g8, List.mem_append] at hx
    rcases hx with hx | hx
    · exact hP x hx
    · obtain ⟨c, hc, rfl⟩ := evaluate_points g2 hx
      obtain ⟨l1, k1⟩ := mapM_eq_ok g1
      obtain ⟨j, hj⟩ := List.mem_iff_getElem?.mp hc
      have hlt : j < (st.walkers.mapIdx fun k' w => propose k st.sigma st.mu w (rnd.mcmc s.t (i + 1) k')).length := by
        rw [← l1]; exact (List.getElem?_eq_some_iff.mp hj).1
      obtain ⟨b, hb, hcand⟩ := k1 j _ (List.getElem?_eq_getElem hlt)
      rw [hj] at hb
      cases hb
      exact ⟨_, candidate_image hf hcand⟩
  · intro x hx
    simp [mcmcInit] at hx

/-! ### `sample='rwm'` uses only the covariance, `sample='tpcn'` only the t distribution -/

theorem alpha_rwm (e : McmcEnv d B) (hk : e.kernel.isPcn = false) (m : Pt d) (nu : F) (iv : Fin d → Fin d → F) (mu mu' : Pt d)
    (w p : Walker d B) : alpha { e with tMean := m, tNu := nu, invCov := iv } mu' w p = alpha e mu w p := by
  unfold alpha metropolisExponent
  dsimp only
  cases hke : e.kernel <;> rw [hke] at hk <;> first | rfl | cases hk

theorem mcmcStep_rwm (e : McmcEnv d B) (hk : e.kernel.isPcn = false) (m : Pt d) (nu : F) (iv : Fin d → Fin d → F) (fuel : ℕ)
    (rnd : ℕ → Draw d) (i : ℕ) (st : McmcState d B) (mu : Pt d) :
    mcmcStep { e with tMean := m, tNu := nu, invCov := iv } fuel rnd i { st with mu := mu } =
      (mcmcStep e fuel rnd i st).map fun st => { st with mu := mu } := by
  have hprop : (fun (k : ℕ) (w : Walker d B) => propose { e with tMean := m, tNu := nu, invCov := iv } st.sigma mu w (rnd k)) =
      fun k w => propose e st.sigma st.mu w (rnd k) := by
    funext k w
    unfold propose
    dsimp only
    rw [hk]
    rfl
  have hmu (ws : List (Walker d B)) (x : Pt d) : muNext e.kernel i x ws = x := by
    cases hke : e.kernel <;> rw [hke] at hk <;> first | rfl | cases hk
  unfold mcmcStep
  dsimp only
  rw [hprop]
  change (List.mapM (candidate e fuel) _ >>= _) = (List.mapM (candidate e fuel) _ >>= _).map _
  cases List.mapM (candidate e fuel) (st.walkers.mapIdx fun k w => propose e st.sigma st.mu w (rnd k)) with
  | error x => rfl
  | ok cands =>
    change (evaluate e cands >>= _) = (evaluate e cands >>= _).map _
    cases evaluate e cands with
    | error x => rfl
    | ok q =>
      obtain ⟨props, ev, n⟩ := q
      simp only [alpha_rwm e hk m nu iv st.mu mu, hmu, Bind.bind, Except.bind, pure, Except.pure]
      split <;> rfl

theorem mcmcLoop_rwm (e : McmcEnv d B) (hk : e.kernel.isPcn = false) (m : Pt d) (nu : F) (iv : Fin d → Fin d → F) (fuel : ℕ)
    (rnd : ℕ → ℕ → Draw d) (i : ℕ) (st : McmcState d B) (mu : Pt d) :
    mcmcLoop { e with tMean := m, tNu := nu, invCov := iv } fuel rnd i { st with mu := mu } =
      (mcmcLoop e fuel rnd i st).map fun q => ({ q.1 with mu := mu }, q.2) := by
  fun_induction mcmcLoop e fuel rnd i st with
  | case1 i st x hs => rw [mcmcLoop, mcmcStep_rwm e hk, hs]; rfl
  | case2 i st st1 hs hstop => rw [mcmcLoop, mcmcStep_rwm e hk, hs]; simp [Except.map, hstop]
  | case3 i st st1 hs hstop hn => rw [mcmcLoop, mcmcStep_rwm e hk, hs]; simp [Except.map, hstop, hn]
  | case4 i st st1 hs hstop hn ih => rw [mcmcLoop, mcmcStep_rwm e hk, hs]; simpa [Except.map, hstop, hn] using ih

theorem mcmc_rwm (e : McmcEnv d B) (hk : e.kernel.isPcn = false) (m : Pt d) (nu : F) (iv : Fin d → Fin d → F) (fuel : ℕ)
    (rnd : ℕ → ℕ → Draw d) (ws : List (Walker d B)) :
    mcmc { e with tMean := m, tNu := nu, invCov := iv } fuel rnd ws = mcmc e fuel rnd ws := by
  unfold mcmc
  have h0 : mcmcInit { e with tMean := m, tNu := nu, invCov := iv } ws = { mcmcInit e ws with mu := m } := rfl
  rw [h0, mcmcLoop_rwm e hk]
  cases mcmcLoop e fuel rnd 0 (mcmcInit e ws) with
  | error x => rfl
  | ok q => rfl

theorem mcmc_rwm' {k k' : McmcEnv d B} (hk : k.kernel.isPcn = false)
    (h : k' = { k with tMean := k'.tMean, tNu := k'.tNu, invCov := k'.invCov }) (fuel : ℕ) (rnd : ℕ → ℕ → Draw d)
    (ws : List (Walker d B)) : mcmc k' fuel rnd ws = mcmc k fuel rnd ws := by
  rw [h, mcmc_rwm k hk]

/-- Replacing the geometry the kernel uses. -/
theorem mutate_congr {e : SamplerEnv d B Φ} {rnd : Rnd d Φ} {fuel : ℕ} {s s' : Sampler d B Φ} {c : Cur d B} 
    (hs : s' = { s with uGeometry := s'.uGeometry, thetaGeometry := s'.thetaGeometry })
    (hk : (∃ x, kernelEnv e s c.it.beta = .error x ∧ kernelEnv e s' c.it.beta = .error x) ∨
      ∃ k k', kernelEnv e s c.it.beta = .ok k ∧ kernelEnv e s' c.it.beta = .ok k' ∧
        ∀ ws, mcmc k' fuel (rnd.mcmc s.t) ws = mcmc k fuel (rnd.mcmc s.t) ws) :
    mutate e rnd fuel s' c = (mutate e rnd fuel s c).map fun q =>
      ({ q.1 with uGeometry := s'.uGeometry, thetaGeometry := s'.thetaGeometry }, q.2) := by
  have h1 : s'.haveBlobs = s.haveBlobs := by rw [hs]
  have h2 : s'.t = s.t := by rw [hs]
  have h3 (r : McmcResult d (List B)) : writeBack s' c r = (({ (writeBack s c r).1 with uGeometry := s'.uGeometry, thetaGeometry := s'.thetaGeometry }), (writeBack s c r).2) := by
    rw [hs]; rfl
  unfold mutate
  rw [h1, h2]
  cases toWalkers c.it s.haveBlobs with
  | error x => rfl
  | ok ws =>
    rcases hk with ⟨x, k1, k2⟩ | ⟨k, k', k1, k2, k3⟩
    · simp only [Bind.bind, Except.bind, k1, k2]; rfl
    · simp only [Bind.bind, Except.bind, k1, k2, k3]
      cases mcmc k fuel (rnd.mcmc s.t) ws with
      | error x => rfl
      | ok r => simp only [pure, Except.pure, Except.map, h3]

/-- **C90.**  With `sample='rwm'` the mutation step depends on a fitted geometry through its covariance only: any other
geometry with the same covariance gives the same particles, calls, scale, or the same exception. -/
theorem C90_rwm {e : SamplerEnv d B Φ} (hk : e.sample = .rwm) (rnd : Rnd d Φ) (fuel : ℕ) (s : Sampler d B Φ) (c : Cur d B)
    (gu gt : Option (Geo d)) (hu : OptRel (fun g g' => g.normalCov = g'.normalCov) s.uGeometry gu)
    (ht : OptRel (fun g g' => g.normalCov = g'.normalCov) s.thetaGeometry gt) :
    mutate e rnd fuel { s with uGeometry := gu, thetaGeometry := gt } c =
      (mutate e rnd fuel s c).map fun q => ({ q.1 with uGeometry := gu, thetaGeometry := gt }, q.2) := by
  refine mutate_congr (s' := { s with uGeometry := gu, thetaGeometry := gt }) rfl ?_
  have hrel : OptRel (fun g g' => g.normalCov = g'.normalCov) (if e.preconditioned then s.thetaGeometry else s.uGeometry)
      (if e.preconditioned then gt else gu) := by split <;> assumption
  have hp : (kernelOf e.preconditioned e.sample).isPcn = false := by rw [hk]; cases e.preconditioned <;> rfl
  unfold kernelEnv
  dsimp only
  generalize (if e.preconditioned then s.thetaGeometry else s.uGeometry) = g at hrel
  generalize (if e.preconditioned then gt else gu) = g' at hrel
  cases g with
  | none =>
    cases g' with
    | none => exact Or.inl ⟨_, rfl, rfl⟩
    | some g' => exact hrel.elim
  | some g =>
    cases g' with
    | none => exact hrel.elim
    | some g' =>
      have hc : g.normalCov = g'.normalCov := hrel
      simp only [orErr, kernelInv, kernelChol, hp, Bind.bind, Except.bind, cholNormal, ← hc, Bool.false_eq_true, if_false]
      cases hch : (if d = 1 then Except.error PyErr.linAlgError else e.chol g.normalCov : Except PyErr (Fin d → Fin d → F)) with
      | error x => exact Or.inl ⟨x, rfl, rfl⟩
      | ok ch =>
        refine Or.inr ⟨_, _, rfl, rfl, fun ws => ?_⟩
        exact mcmc_rwm' hp rfl fuel (rnd.mcmc s.t) ws

/-- **C90.**  With `sample='tpcn'` the mutation step depends on a fitted geometry through the t distribution only. -/
theorem C90_tpcn {e : SamplerEnv d B Φ} (hk : e.sample = .tpcn) (rnd : Rnd d Φ) (fuel : ℕ) (s : Sampler d B Φ) (c : Cur d B)
    (gu gt : Option (Geo d)) (hu : OptRel SameT s.uGeometry gu) (ht : OptRel SameT s.thetaGeometry gt) :
    mutate e rnd fuel { s with uGeometry := gu, thetaGeometry := gt } c =
      (mutate e rnd fuel s c).map fun q => ({ q.1 with uGeometry := gu, thetaGeometry := gt }, q.2) := by
  refine mutate_congr (s' := { s with uGeometry := gu, thetaGeometry := gt }) rfl ?_
  have hrel : OptRel SameT (if e.preconditioned then s.thetaGeometry else s.uGeometry)
      (if e.preconditioned then gt else gu) := by split <;> assumption
  have hp : (kernelOf e.preconditioned e.sample).isPcn = true := by rw [hk]; cases e.preconditioned <;> rfl
  unfold kernelEnv
  dsimp only
  generalize (if e.preconditioned then s.thetaGeometry else s.uGeometry) = g at hrel
  generalize (if e.preconditioned then gt else gu) = g' at hrel
  cases g with
  | none =>
    cases g' with
    | none => exact Or.inl ⟨_, rfl, rfl⟩
    | some g' => exact hrel.elim
  | some g =>
    cases g' with
    | none => exact hrel.elim
    | some g' =>
      obtain ⟨h1, h2, h3⟩ : SameT g g' := hrel
      simp only [orErr, kernelInv, kernelChol, hp, Bind.bind, Except.bind, ← h1, ← h2, ← h3, if_true]
      cases e.inv g.tCov with
      | error x => exact Or.inl ⟨x, rfl, rfl⟩
      | ok iv =>
        cases e.chol g.tCov with
        | error x => exact Or.inl ⟨x, rfl, rfl⟩
        | ok ch => exact Or.inr ⟨_, _, rfl, rfl, fun ws => rfl⟩

/-- The mutation step of the concrete sampler of `Demo` returns, with and without preconditioning: the four statements above
are about something. -/
example (p : Bool) : ∃ fuel s c s' c', (if p then s.thetaGeometry else s.uGeometry) ≠ none ∧
    mutate (Demo.env p) Demo.rnd fuel s c = .ok (s', c') := by
  obtain ⟨s', its, -, h1, -, h2, -⟩ := Demo.first_run p 0
  obtain ⟨f, hf⟩ := Inv.smcStep_total (Demo.user p) (Demo.configured p) (Demo.reliable p) (Demo.flat p).proper h1
    (by intro hc; rw [hc] at h2; simp at h2)
  obtain ⟨s2, hs2⟩ := hf f le_rfl
  obtain ⟨c, s1, c1, s3, c2, s4, c4, -, -, -, -, hm, -⟩ := smcStep_ok hs2
  obtain ⟨ws, k, r, -, hk, -⟩ := mutate_ok hm
  obtain ⟨-, -, -, -, -, -, -, -, -, -, -, g, hg, -⟩ := kernelEnv_ok hk
  exact ⟨f, s3, c2, s4, c4, by rw [show (if p then s3.thetaGeometry else s3.uGeometry) = some g from hg]; simp, hm⟩

/-- The conclusion of C90 for the concrete sampler: with another flow (here one that moves every point) the whole run is the
same. -/
example (fuel n : ℕ) : run { Demo.env false with flowInv := fun _ u => (fun i => u i + fin 1, fin 7) } Demo.rnd fuel n (Demo.args 0)
    Demo.start = run (Demo.env false) Demo.rnd fuel n (Demo.args 0) Demo.start :=
  C90_unpreconditioned (Demo.env false) rfl Demo.rnd fuel n (Demo.args 0) Demo.start (Demo.env false).flowFwd _
    Demo.rnd.flowFit Demo.rnd.flowSample

/-! ### C91: the centre -/

/-- **C91.**  Preconditioned t-pCN: after `i` steps the centre of the proposals is the average of the fitted location and the
`i` ensemble means in latent space.  `st 0, st 1, …` are the successive states of a kernel call and `T i` the latent
positions of the walkers in state `i`, real numbers. -/
theorem C91_centre {e : McmcEnv d B} (hk : e.kernel = .ppcn) {fuel : ℕ} {rnd : ℕ → ℕ → Draw d} {ws : List (Walker d B)}
    {st : ℕ → McmcState d B} {n : ℕ} (h0 : st 0 = mcmcInit e ws)
    (hstep : ∀ i < n, mcmcStep e fuel (rnd (i + 1)) (i + 1) (st i) = .ok (st (i + 1)))
    {m : Fin d → ℝ} (hm : e.tMean = fun j => fin (m j)) {T : ℕ → List (Fin d → ℝ)} (hne : ws ≠ [])
    (hT : ∀ i ≤ n, (st i).walkers.map (·.theta) = (T i).map fun p j => fin (p j)) :
    ∀ i ≤ n, (st i).mu = fun j => fin ((m j + ∑ k ∈ Finset.range i, centroid (T (k + 1)) j) / (i + 1)) := by
  have hlen : ∀ i ≤ n, (st i).walkers ≠ [] := by
    intro i
    induction i with
    | zero => intro _; rw [h0]; simpa [mcmcInit] using hne
    | succ i ih =>
      intro hi hc
      have := (step_walker (hstep i (by omega))).1
      rw [hc] at this
      exact ih (by omega) (List.length_eq_zero_iff.mp this.symm)
  intro i
  induction i with
  | zero => intro _; rw [h0]; simp [mcmcInit, hm]
  | succ i ih =>
    intro hi
    obtain ⟨_, _, _, _, _, _, _, _, _, hmu, _⟩ := mcmcStep_ok (hstep i (by omega))
    rw [hmu, hk, ih (by omega)]
    funext j
    have hTne : T (i + 1) ≠ [] := by
      intro hc
      have := hT (i + 1) hi
      rw [hc] at this
      exact hlen (i + 1) hi (by simpa using this)
    have hmean : mean ((st (i + 1)).walkers.map fun w => w.theta j) = fin (centroid (T (i + 1)) j) := by
      have h1 : ((st (i + 1)).walkers.map fun w => w.theta j) = ((T (i + 1)).map fun p => p j).map fin := by
        have := congrArg (List.map fun p : Pt d => p j) (hT (i + 1) hi)
        simpa [List.map_map, Function.comp_def] using this
      rw [h1, mean_fin _ (by simpa using hTne)]
      simp [centroid]
    simp only [muNext, hmean]
    simp only [fin_add, fin_sub, fin_mul, F.fin.injEq]
    rw [Finset.sum_range_succ]
    push_cast
    field_simp
    ring

theorem centroid_mem {l : List (Fin d → ℝ)} (hl : l ≠ []) {j : Fin d} {a b : ℝ} (h : ∀ p ∈ l, a ≤ p j ∧ p j ≤ b) :
    a ≤ centroid l j ∧ centroid l j ≤ b := by
  have hpos : (0 : ℝ) < l.length := by exact_mod_cast List.length_pos_iff.mpr hl
  unfold centroid
  rw [le_div_iff₀ hpos, div_le_iff₀ hpos]
  clear hl hpos
  induction l with
  | nil => simp
  | cons p l ih =>
    obtain ⟨i1, i2⟩ := ih fun q hq => h q (List.mem_cons_of_mem _ hq)
    obtain ⟨j1, j2⟩ := h p List.mem_cons_self
    simp only [List.map_cons, List.sum_cons, List.length_cons]
    push_cast
    constructor <;> nlinarith

/-- **C91.**  So the centre never leaves a box that contains the fitted location and the latent positions of the walkers. -/
theorem C91_box {e : McmcEnv d B} (hk : e.kernel = .ppcn) {fuel : ℕ} {rnd : ℕ → ℕ → Draw d} {ws : List (Walker d B)}
    {st : ℕ → McmcState d B} {n : ℕ} (h0 : st 0 = mcmcInit e ws)
    (hstep : ∀ i < n, mcmcStep e fuel (rnd (i + 1)) (i + 1) (st i) = .ok (st (i + 1)))
    {m : Fin d → ℝ} (hm : e.tMean = fun j => fin (m j)) {T : ℕ → List (Fin d → ℝ)} (hne : ws ≠ [])
    (hT : ∀ i ≤ n, (st i).walkers.map (·.theta) = (T i).map fun p j => fin (p j))
    {a b : Fin d → ℝ} (hma : ∀ j, a j ≤ m j ∧ m j ≤ b j) (hTa : ∀ i ≤ n, ∀ p ∈ T i, ∀ j, a j ≤ p j ∧ p j ≤ b j) :
    ∀ i ≤ n, ∀ j, ∃ c, (st i).mu j = fin c ∧ a j ≤ c ∧ c ≤ b j := by
  intro i hi j
  refine ⟨_, congrFun (C91_centre hk h0 hstep hm hne hT i hi) j, ?_⟩
  have hc : ∀ k ∈ Finset.range i, a j ≤ centroid (T (k + 1)) j ∧ centroid (T (k + 1)) j ≤ b j := by
    intro k hk'
    have hk2 : k + 1 ≤ n := by have := Finset.mem_range.mp hk'; omega
    refine centroid_mem ?_ fun p hp => hTa (k + 1) hk2 p hp j
    intro hTe
    have h1 := hT (k + 1) hk2
    rw [hTe] at h1
    have h2 := (step_walker (hstep k (by omega))).1
    have h3 : ∀ q ≤ k, (st q).walkers.length = ws.length := by
      intro q
      induction q with
      | zero => intro _; rw [h0]; simp [mcmcInit]
      | succ q ih => intro hq; rw [(step_walker (hstep q (by omega))).1, ih (by omega)]
    have h4 : (st (k + 1)).walkers = [] := by simpa using h1
    rw [h4, h3 k le_rfl] at h2
    exact hne (List.length_eq_zero_iff.mp h2.symm)
  have hlo := Finset.sum_le_sum fun k hk' => (hc k hk').1
  have hhi := Finset.sum_le_sum fun k hk' => (hc k hk').2
  simp only [Finset.sum_const, Finset.card_range, nsmul_eq_mul] at hlo hhi
  have hpos : (0 : ℝ) < i + 1 := by positivity
  rw [le_div_iff₀ hpos, div_le_iff₀ hpos]
  obtain ⟨m1, m2⟩ := hma j
  constructor <;> nlinarith

/-- **C91.**  The other kernels keep the fitted location. -/
theorem C91_fixed {e : McmcEnv d B} (hk : e.kernel ≠ .ppcn) {fuel : ℕ} {rnd : ℕ → ℕ → Draw d} {ws : List (Walker d B)}
    {st : ℕ → McmcState d B} {n : ℕ} (h0 : st 0 = mcmcInit e ws)
    (hstep : ∀ i < n, mcmcStep e fuel (rnd (i + 1)) (i + 1) (st i) = .ok (st (i + 1))) :
    ∀ i ≤ n, (st i).mu = e.tMean := by
  intro i
  induction i with
  | zero => intro _; rw [h0]; rfl
  | succ i ih =>
    intro hi
    obtain ⟨_, _, _, _, _, _, _, _, _, hmu, _⟩ := mcmcStep_ok (hstep i (by omega))
    rw [hmu, ih (by omega)]
    cases hke : e.kernel <;> first | rfl | exact absurd hke hk

/-! ### the hypotheses of C91 can be met, with any number of steps -/

theorem mcmcStep_exists (e : McmcEnv d B) (hb : ProperBounds e.scaler.low e.scaler.high)
    (hf : e.scaler.scale = true → e.scaler.affine ≠ none) (ll lp : Pt d → F) (bb : Pt d → B)
    (hrow : RowWise e ll lp bb) (fuel : ℕ) (rnd : ℕ → Draw d) (i : ℕ) (st : McmcState d B) :
    ∃ st', mcmcStep e fuel rnd i st = .ok st' := by
  unfold mcmcStep
  obtain ⟨cands, hc⟩ := mapM_exists (candidate_ok e hb hf fuel)
    (st.walkers.mapIdx fun k w => propose e st.sigma st.mu w (rnd k))
  rw [hc]
  simp only [bind, Except.bind, evaluate_rowwise e ll lp bb hrow]
  split <;> exact ⟨_, rfl⟩

/-- Where the likelihood vanishes everywhere no walker moves. -/
theorem step_reject {e : McmcEnv d B} {b : ℝ} (hβ : e.beta = fin b) (hb : 0 ≤ b) {lp : Pt d → F} {bb : Pt d → B}
    (hrow : RowWise e (fun _ => ninf) lp bb) {fuel : ℕ} {rnd : ℕ → Draw d} (hr : ∀ k, ∃ r : ℝ, (rnd k).rand = fin r ∧ 0 ≤ r)
    {i : ℕ} {st st' : McmcState d B} (h : mcmcStep e fuel rnd i st = .ok st') : st'.walkers = st.walkers := by
  obtain ⟨cands, props, ev, n, h1, h2, h3, -⟩ := mcmcStep_ok h
  have hlen := (step_walker h).1
  rw [evaluate_rowwise e _ lp bb hrow] at h2
  simp only [Except.ok.injEq, Prod.mk.injEq] at h2
  obtain ⟨rfl, -, -⟩ := h2
  refine List.ext_getElem hlen fun k hk1 hk2 => ?_
  simp only [h3, List.getElem_mapIdx, List.getElem_zip, List.getElem_map]
  rw [if_neg]
  rw [alpha_bad e b hβ hb]
  · obtain ⟨r, hr1, hr2⟩ := hr k
    rw [hr1, fin_lt]
    exact not_lt.mpr hr2
  · right
    simp

example (n : ℕ) (rnd : ℕ → ℕ → Draw 2) (hr : Uniform rnd) : ∃ st : ℕ → McmcState 2 Unit,
    st 0 = mcmcInit (exampleEnv .ppcn (fun _ => ninf) 0.5) [exampleWalker (fun _ => fin 0) 1, exampleWalker (fun _ => fin 0) 3] ∧
    (∀ i < n, mcmcStep (exampleEnv .ppcn (fun _ => ninf) 0.5) 0 (rnd (i + 1)) (i + 1) (st i) = .ok (st (i + 1))) ∧
    ∀ i ≤ n, (st i).mu = fun _ => fin (2 * i / (i + 1)) := by
  have hex : ∀ (i : ℕ) (s : McmcState 2 Unit), ∃ s',
      mcmcStep (exampleEnv .ppcn (fun _ => ninf) 0.5) 0 (rnd (i + 1)) (i + 1) s = .ok s' := fun i s =>
    mcmcStep_exists _ (exampleEnv_bounds _ _ _) (by simp [exampleEnv]) _ _ _ (exampleEnv_rowwise _ _ _) 0 (rnd (i + 1)) (i + 1) s
  choose next hnext using hex
  let st : ℕ → McmcState 2 Unit := fun i => Nat.rec (mcmcInit (exampleEnv .ppcn (fun _ => ninf) 0.5)
    [exampleWalker (fun _ => fin 0) 1, exampleWalker (fun _ => fin 0) 3]) (fun i s => next i s) i
  have hs : ∀ i, mcmcStep (exampleEnv .ppcn (fun _ => ninf) 0.5) 0 (rnd (i + 1)) (i + 1) (st i) = .ok (st (i + 1)) :=
    fun i => hnext i (st i)
  have hw : ∀ i, (st i).walkers.map (·.theta) = ([fun _ => 1, fun _ => 3] : List (Fin 2 → ℝ)).map fun p j => fin (p j) := by
    intro i
    induction i with
    | zero => simp [st, mcmcInit, exampleEnv, exampleWalker, Kern.hasFlow]
    | succ i ih =>
      rw [step_reject (b := 1) rfl zero_le_one (exampleEnv_rowwise _ _ _) (fun k => ?_) (hs i), ih]
      obtain ⟨r, h1, h2, -⟩ := hr (i + 1) k
      exact ⟨r, h1, h2⟩
  refine ⟨st, rfl, fun i _ => hs i, fun i hi => ?_⟩
  rw [C91_centre (n := n) (m := fun _ => 0) (T := fun _ => [fun _ => 1, fun _ => 3]) rfl rfl (fun i _ => hs i) rfl
    (by simp) (fun i _ => hw i) i hi]
  funext j
  norm_num [centroid]
  ring_nf

end Poco
