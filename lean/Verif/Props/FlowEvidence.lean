import Mathlib.MeasureTheory.Function.Jacobian
import Mathlib.MeasureTheory.Integral.Bochner.ContinuousLinearMap
import Verif.Props.ErrorBar
import Verif.Lemmas.Balance

/-! C103: the evidence estimated with draws of the flow is unbiased. -/

namespace Poco
open F Spec MeasureTheory

variable {d : ℕ} {B Φ : Type} {e : SamplerEnv d B Φ} {ll lp : Pt d → F} {bb : Pt d → List B} {hb : Bool} {s : Sampler d B Φ}

/-- The transform at the end of a run is usable and has the bounds it had at the start. -/
theorem run_ok_scaler (hu : UserFns e ll lp bb hb) (hc : Configured e) (hs : Session e hb s)
    {rnd : Rnd d Φ} (hd : Draws s.scaler.low s.scaler.high rnd) {fuel n : ℕ} {a : RunArgs} {s' : Sampler d B Φ}
    (hr : (run e rnd fuel n a s).2 = .ok s') : s'.scaler.Ok ∧ s'.scaler.low = s.scaler.low ∧ s'.scaler.high = s.scaler.high := by
  obtain ⟨s1, s2, s3, h1, h2, h3, h4⟩ := run_ok hr
  obtain ⟨its, hi⟩ := hs.inv hu hc (ll := ll) (lp := lp) (bb := bb)
  have m1 : Moves e rnd s s1 := .single (.init a h1)
  obtain ⟨w1, w2⟩ := Along.runWarmup (e := e) (rnd := rnd) a s.t s1
  have m2 := (w1.to_end s2 h2).1
  obtain ⟨l1, l2⟩ := Along.smcLoop (e := e) (rnd := rnd) fuel a.saveEvery s.t n s2 (w2 s2 h2)
  have m3 := (l1.to_end s3 h3).1
  obtain ⟨-, hterm⟩ := l2 s3 h3
  obtain ⟨more, hi3, e1, e2⟩ := hi.moves hu hc hd ((m1.trans m2).trans m3)
  obtain ⟨ess, k1, k2⟩ := bind_ok hterm
  obtain ⟨c, k2, k3⟩ := bind_ok k2
  have hlast : (its ++ more).getLast? = some c.it := by rw [← hi3.cur, orErr_ok k2]; rfl
  have hne : its ++ more ≠ [] := by rintro h; rw [h] at hlast; simp at hlast
  have hok : s3.scaler.Ok := by
    cases hps : s3.priorSamples with
    | none => exact absurd (hi3.noPrior hps) hne
    | some ps => exact (hi3.prior ps hps).1
  have hk := (finalEvidence_keep h4).2.2.2.2.2.2.2.1
  rw [hk]
  exact ⟨hok, e1, e2⟩

theorem unlog_logOf {r : ℝ} (h : 0 ≤ r) : unlog (logOf r) = r := by
  unfold logOf
  split_ifs with h0
  · simp [unlog, h0]
  · simp [unlog, Real.exp_log (lt_of_le_of_ne h (Ne.symm h0))]

/-- Integration over the box in the unbounded parameters: the reported log-determinant is the change of volume. -/
theorem integral_box (sc : Scaler d) (hok : sc.Ok) (X : (Fin d → ℝ) → Pt d) (D : (Fin d → ℝ) → ℝ)
    (hXD : ∀ θ, sc.inverseRow (pt θ) = .ok (X θ, fin (D θ))) (g : (Fin d → ℝ) → ℝ) (g' : Pt d → ℝ) (hg : ∀ x, g' (pt x) = g x) :
    (IntegrableOn g {x | StrictlyInside sc.low sc.high x} ↔ Integrable fun θ => Real.exp (D θ) * g' (X θ)) ∧
    ∫ x in {x | StrictlyInside sc.low sc.high x}, g x = ∫ θ, Real.exp (D θ) * g' (X θ) := by
  obtain ⟨G, Fw, J, h1, h2, h3, h4, h5, h6⟩ := hok.real
  have hX : ∀ θ, X θ = pt (G θ) ∧ D θ = Real.log |(J θ).det| := by
    intro θ
    have := (hXD θ).symm.trans (h1 θ)
    simp only [Except.ok.injEq, Prod.mk.injEq, fin_inj] at this
    exact this
  have himg : G '' Set.univ = {x | StrictlyInside sc.low sc.high x} := by
    ext x
    constructor
    · rintro ⟨θ, -, rfl⟩; exact h4 θ
    · intro hx; exact ⟨Fw x, trivial, (h5 x hx).2⟩
  have hinj : Set.InjOn G Set.univ := fun a _ b _ hab => by rw [← h6 a, ← h6 b, hab]
  have hder : ∀ θ ∈ Set.univ, HasFDerivWithinAt G (LinearMap.toContinuousLinearMap (Matrix.toLin' (J θ))) Set.univ θ := fun θ _ => (h2 θ).hasFDerivWithinAt
  have hfun : (fun θ => |(LinearMap.toContinuousLinearMap (Matrix.toLin' (J θ))).det| • g (G θ)) = fun θ => Real.exp (D θ) * g' (X θ) := by
    funext θ
    rw [(hX θ).1, (hX θ).2, hg, Real.exp_log (abs_pos.mpr (h3 θ)), smul_eq_mul]
    congr 2
    rw [ContinuousLinearMap.det]
    simp
  constructor
  · rw [← himg, integrableOn_image_iff_integrableOn_abs_det_fderiv_smul volume MeasurableSet.univ hder hinj, hfun, integrableOn_univ]
  · rw [← himg, integral_image_eq_integral_abs_det_fderiv_smul volume MeasurableSet.univ hder hinj, hfun, Measure.restrict_univ]

/-- The evidence of such a run is the mean of the importance weights of the draws, which have the evidence as their mean. -/
theorem flow_values {Ω : Type*} [MeasurableSpace Ω] (P : Measure Ω) [IsProbabilityMeasure P]
    (hu : UserFns e ll lp bb hb) (hp : ProperLike ll) (hp' : ProperLike lp) (hc : Configured e) (hs : Session e hb s)
    (rnd : Ω → Rnd d Φ) (hd : ∀ ω, Draws s.scaler.low s.scaler.high (rnd ω)) {fuel n : ℕ} {a : RunArgs} (s' : Ω → Sampler d B Φ)
    (hr : ∀ ω, (run e (rnd ω) fuel n a s).2 = .ok (s' ω)) (hpre : e.preconditioned = true) (hn : 0 < a.nEvidence)
    (X : (Fin d → ℝ) → Pt d) (D : (Fin d → ℝ) → ℝ) (hXD : ∀ ω θ, (s' ω).scaler.inverseRow (pt θ) = .ok (X θ, fin (D θ)))
    (q : (Fin d → ℝ) → ℝ) (hqm : Measurable q) (hq : ∀ θ, 0 < q θ) (Θ : Fin a.nEvidence → Ω → Fin d → ℝ)
    (hdraw : ∀ ω, (rnd ω).flowSample (s' ω).t (s' ω).flow a.nEvidence = List.ofFn fun i => (pt (Θ i ω), fin (Real.log (q (Θ i ω)))))
    (hsup : ∀ x, StrictlyInside s.scaler.low s.scaler.high x → lp (pt x) ≠ ninf)
    (hint : IntegrableOn (fun x => unlog (ll (pt x)) * unlog (lp (pt x))) {x | StrictlyInside s.scaler.low s.scaler.high x}) :
    (∀ ω, (evidence (s' ω)).1 = some (logOf ((∑ i, isWeight ll lp X D (Θ i ω, Real.log (q (Θ i ω)))) / a.nEvidence))) ∧
    Integrable (fun θ => isWeight ll lp X D (θ, Real.log (q θ))) (volume.withDensity fun θ => ENNReal.ofReal (q θ)) ∧
    ∫ θ, isWeight ll lp X D (θ, Real.log (q θ)) ∂(volume.withDensity fun θ => ENNReal.ofReal (q θ)) =
      ∫ x in {x | StrictlyInside s.scaler.low s.scaler.high x}, unlog (ll (pt x)) * unlog (lp (pt x)) := by
  obtain ⟨ω0⟩ : Nonempty Ω := P.nonempty_of_neZero
  obtain ⟨hok, hlo, hhi⟩ := run_ok_scaler hu hc hs (hd ω0) (hr ω0)
  have hXs : ∀ θ, lp (X θ) ≠ ninf := fun θ => by
    obtain ⟨x, ld, hx, hin⟩ := C36_inverse_inside _ hok θ
    rw [hlo, hhi] at hin
    have := (hXD ω0 θ).symm.trans hx
    simp only [Except.ok.injEq, Prod.mk.injEq] at this
    rw [this.1]
    exact hsup x hin
  have hsupp : ∀ p, inSupport lp X p = true := fun p => by
    unfold inSupport
    rcases hp' (X p.1) with h | ⟨r, h⟩
    · exact absurd h (hXs _)
    · rw [h]; rfl
  let W : (Fin d → ℝ) → ℝ := fun θ => isWeight ll lp X D (θ, Real.log (q θ))
  have hNr : (0 : ℝ) < a.nEvidence := by exact_mod_cast hn
  -- the value
  have hval : ∀ ω, (evidence (s' ω)).1 = some (logOf ((∑ i, W (Θ i ω)) / a.nEvidence)) := by
    intro ω
    obtain ⟨X', D', hXD', hz⟩ := C59_evidence hu hp hp' hc hs (hd ω) (hr ω) hpre hn (List.ofFn fun i => (Θ i ω, Real.log (q (Θ i ω)))) (by
      rw [hdraw, List.map_ofFn]; rfl)
    have hXX : ∀ θ, X θ = X' θ ∧ D θ = D' θ := fun θ => by
      have h0 := hXD' θ
      have := (hXD ω θ).symm.trans h0
      simpa using this
    obtain rfl : X = X' := funext fun θ => (hXX θ).1
    obtain rfl : D = D' := funext fun θ => (hXX θ).2
    have hk : (List.ofFn fun i => (Θ i ω, Real.log (q (Θ i ω)))).countP (inSupport lp X) = a.nEvidence := by
      rw [List.countP_eq_length.mpr fun p _ => hsupp p, List.length_ofFn]
    change (s' ω).logz = _
    rw [hz]
    simp only [hk]
    rw [if_neg hn.ne', List.map_ofFn, List.sum_ofFn]
    rfl
  obtain ⟨b1, b2⟩ := integral_box (s' ω0).scaler hok X D (hXD ω0) (fun x => unlog (ll (pt x)) * unlog (lp (pt x))) (fun x => unlog (ll x) * unlog (lp x)) (fun _ => rfl)
  rw [hlo, hhi] at b1 b2
  have hI := b1.mp hint
  have hWq : ∀ θ, q θ * W θ = Real.exp (D θ) * (unlog (ll (X θ)) * unlog (lp (X θ))) := by
    intro θ
    simp only [W, isWeight, Real.exp_log (hq θ)]
    have := (hq θ).ne'
    field_simp
  have hqd : Measurable fun θ => ENNReal.ofReal (q θ) := hqm.ennreal_ofReal
  have hlt : ∀ᵐ θ : Fin d → ℝ, ENNReal.ofReal (q θ) < ⊤ := .of_forall fun _ => ENNReal.ofReal_lt_top
  have e1 : ∀ θ, (ENNReal.ofReal (q θ)).toReal = q θ := fun θ => ENNReal.toReal_ofReal (hq θ).le
  have hWi : Integrable W (volume.withDensity fun θ => ENNReal.ofReal (q θ)) := by
    rw [integrable_withDensity_iff_integrable_smul' hqd hlt]
    simpa only [e1, smul_eq_mul, hWq] using hI
  have hWv : ∫ θ, W θ ∂(volume.withDensity fun θ => ENNReal.ofReal (q θ)) = ∫ θ, Real.exp (D θ) * (unlog (ll (X θ)) * unlog (lp (X θ))) := by
    rw [integral_withDensity_eq_integral_toReal_smul hqd hlt]
    simp only [e1, smul_eq_mul, hWq]
  exact ⟨hval, hWi, hWv.trans b2.symm⟩

/-- **C103.** Repeat a run with the same transform but with new draws of the flow, each draw having the density `q` that the flow
reports. If the prior is positive everywhere strictly inside the bounds, the evidence reported is on average the evidence: the
integral of likelihood times prior over the region inside the bounds. -/
theorem C103_flow_unbiased {Ω : Type*} [MeasurableSpace Ω] (P : Measure Ω) [IsProbabilityMeasure P]
    (hu : UserFns e ll lp bb hb) (hp : ProperLike ll) (hp' : ProperLike lp) (hc : Configured e) (hs : Session e hb s)
    (rnd : Ω → Rnd d Φ) (hd : ∀ ω, Draws s.scaler.low s.scaler.high (rnd ω)) {fuel n : ℕ} {a : RunArgs} (s' : Ω → Sampler d B Φ)
    (hr : ∀ ω, (run e (rnd ω) fuel n a s).2 = .ok (s' ω)) (hpre : e.preconditioned = true) (hn : 0 < a.nEvidence)
    (hsc : ∀ ω ω', (s' ω).scaler = (s' ω').scaler)
    (q : (Fin d → ℝ) → ℝ) (hqm : Measurable q) (hq : ∀ θ, 0 < q θ) (Θ : Fin a.nEvidence → Ω → Fin d → ℝ) (hΘ : ∀ i, Measurable (Θ i))
    (hlaw : ∀ i, P.map (Θ i) = volume.withDensity fun θ => ENNReal.ofReal (q θ))
    (hdraw : ∀ ω, (rnd ω).flowSample (s' ω).t (s' ω).flow a.nEvidence = List.ofFn fun i => (pt (Θ i ω), fin (Real.log (q (Θ i ω)))))
    (hsup : ∀ x, StrictlyInside s.scaler.low s.scaler.high x → lp (pt x) ≠ ninf)
    (hint : IntegrableOn (fun x => unlog (ll (pt x)) * unlog (lp (pt x))) {x | StrictlyInside s.scaler.low s.scaler.high x}) :
    ∃ Z : Ω → F, (∀ ω, (evidence (s' ω)).1 = some (Z ω)) ∧
      ∫ ω, unlog (Z ω) ∂P = ∫ x in {x | StrictlyInside s.scaler.low s.scaler.high x}, unlog (ll (pt x)) * unlog (lp (pt x)) := by
  obtain ⟨ω0⟩ : Nonempty Ω := P.nonempty_of_neZero
  obtain ⟨hok, -, -⟩ := run_ok_scaler hu hc hs (hd ω0) (hr ω0)
  have hX : ∀ θ, ∃ (x : Pt d) (ld : ℝ), (s' ω0).scaler.inverseRow (pt θ) = .ok (x, fin ld) := fun θ => by
    obtain ⟨x, ld, hx, -⟩ := C36_inverse_inside _ hok θ
    exact ⟨_, _, hx⟩
  choose X D hXD using hX
  obtain ⟨hval, hWi, hWv⟩ := flow_values P hu hp hp' hc hs rnd hd s' hr hpre hn X D (fun ω θ => by rw [hsc ω ω0]; exact hXD θ) q hqm hq Θ hdraw hsup hint
  have hNr : (0 : ℝ) < a.nEvidence := by exact_mod_cast hn
  refine ⟨_, hval, ?_⟩
  have hv2 : ∀ ω, unlog (logOf ((∑ i, isWeight ll lp X D (Θ i ω, Real.log (q (Θ i ω)))) / a.nEvidence)) =
      (∑ i, isWeight ll lp X D (Θ i ω, Real.log (q (Θ i ω)))) / a.nEvidence := fun ω =>
    unlog_logOf (div_nonneg (Finset.sum_nonneg fun i _ => isWeight_nonneg X D _) hNr.le)
  simp only [hv2]
  rw [← hWv]
  have hone : ∀ i, Integrable (fun ω => isWeight ll lp X D (Θ i ω, Real.log (q (Θ i ω)))) P ∧
      ∫ ω, isWeight ll lp X D (Θ i ω, Real.log (q (Θ i ω))) ∂P =
        ∫ θ, isWeight ll lp X D (θ, Real.log (q θ)) ∂(volume.withDensity fun θ => ENNReal.ofReal (q θ)) := by
    intro i
    have hWi' : Integrable (fun θ => isWeight ll lp X D (θ, Real.log (q θ))) (P.map (Θ i)) := by rw [hlaw]; exact hWi
    refine ⟨hWi'.comp_measurable (hΘ i), ?_⟩
    rw [← hlaw i, integral_map (hΘ i).aemeasurable hWi'.aestronglyMeasurable]
  rw [integral_div, integral_finset_sum _ fun i _ => (hone i).1]
  simp only [(hone _).2, Finset.sum_const, Finset.card_univ, Fintype.card_fin, nsmul_eq_mul]
  rw [mul_div_cancel_left₀ _ hNr.ne']

namespace Demo

/-- A standard normal density. -/
noncomputable def q103 (θ : Fin 2 → ℝ) : ℝ := (Real.sqrt (2 * Real.pi))⁻¹ ^ 2 * Real.exp (-(∑ i, θ i ^ 2) / 2)

/-- A normal prior. -/
noncomputable def lp103 (x : Pt 2) : F := fin (Real.log (q103 fun i => match x i with | .fin r => r | _ => 0))

theorem q103_pos (θ : Fin 2 → ℝ) : 0 < q103 θ := by
  unfold q103
  have := Real.pi_pos
  positivity

theorem q103_law : (Measure.pi fun _ : Fin 2 => ProbabilityTheory.gaussianReal 0 1) = volume.withDensity fun θ => ENNReal.ofReal (q103 θ) := by
  rw [normals_density]
  congr 1
  funext θ
  exact normalsPdf_eq θ

theorem q103_measurable : Measurable q103 := by
  unfold q103
  fun_prop

theorem q103_integrable : Integrable q103 := by
  refine ⟨q103_measurable.aestronglyMeasurable, ?_⟩
  rw [hasFiniteIntegral_iff_ofReal (.of_forall fun θ => (q103_pos θ).le)]
  have h : (Measure.pi fun _ : Fin 2 => ProbabilityTheory.gaussianReal 0 1) Set.univ = 1 := measure_univ
  rw [q103_law, withDensity_apply _ MeasurableSet.univ, Measure.restrict_univ] at h
  rw [h]
  exact ENNReal.one_lt_top

/-- The draws of the example; the flow draws `θ`. -/
noncomputable def rnd103 (θ : Fin 2 → ℝ) : Rnd 2 Unit := { rnd59 with flowSample := fun _ _ _ => [(pt θ, fin (Real.log (q103 θ)))] }

/-- A run with a normal prior, one draw of the flow, and any outcome of that draw. -/
theorem run103 (θ : Fin 2 → ℝ) : Draws start.scaler.low start.scaler.high (rnd103 θ) ∧
    ∃ s, (run (envOf (fun _ => fin 0) lp103) (rnd103 θ) 0 1 (args 1) start).2 = .ok s := by
  have hf : FlatEnv (envOf (fun _ => fin 0) lp103) (fun _ => fin 0) := ⟨fun x => .inl rfl, rfl, rfl⟩
  have hd : Draws start.scaler.low start.scaler.high (rnd103 θ) := ⟨draws59.prior, draws59.mcmc⟩
  have hrel : Reliable (envOf (fun _ => fin 0) lp103) (rnd103 θ) :=
    { geo := fun _ _ _ => ⟨_, rfl⟩
      flow := fun _ _ _ _ => ⟨_, rfl⟩
      inv := fun m => ⟨m, rfl⟩
      chol := fun m => ⟨m, rfl⟩
      dim := by simp [env, envOf]
      freq := by simp [env, envOf]
      ratio := ⟨_, rfl⟩
      mult := fun _ _ => ⟨le_rfl, one_pos⟩
      syst := fun _ => ⟨le_rfl, one_pos⟩ }
  obtain ⟨s, its, hr, -⟩ := flat_first_run hf (userOf _ lp103) (configuredOf _ lp103) hd hrel (freshOf _ lp103) (fun _ _ => rfl)
    (by simp [env, envOf, start]) (args 1) (by simp [args]) (by simp [args, env, envOf]) 0 0
  exact ⟨hd, s, hr⟩

/-- With one normal draw of the flow the evidence reported is on average the integral of the prior. -/
example : ∃ (P : Measure (Fin 2 → ℝ)) (_ : IsProbabilityMeasure P) (s' : (Fin 2 → ℝ) → Sampler 2 Unit Unit) (Z : (Fin 2 → ℝ) → F),
    (∀ θ, (run (envOf (fun _ => fin 0) lp103) (rnd103 θ) 0 1 (args 1) start).2 = .ok (s' θ)) ∧ (∀ θ, (evidence (s' θ)).1 = some (Z θ)) ∧
    ∫ θ, unlog (Z θ) ∂P = ∫ x in {x | StrictlyInside start.scaler.low start.scaler.high x}, q103 x := by
  choose hd s' hr using run103
  have hq : ∀ x : Fin 2 → ℝ, unlog (fin 0) * unlog (lp103 (pt x)) = q103 x := by
    intro x
    simp [unlog, lp103, pt, Real.exp_log (q103_pos x)]
  have hp : ProperLike (fun _ : Pt 2 => fin 0) := fun _ => .inr ⟨0, rfl⟩
  have hp' : ProperLike lp103 := fun x => .inr ⟨_, rfl⟩
  have hsc : ∀ θ θ', (s' θ).scaler = (s' θ').scaler := by
    intro θ θ'
    obtain ⟨s1, h1, e1⟩ := run_scaler (hr θ)
    obtain ⟨s2, h2, e2⟩ := run_scaler (hr θ')
    have h3 : runInit (envOf (fun _ => fin 0) lp103) (rnd103 θ) (args 1) start = runInit (envOf (fun _ => fin 0) lp103) (rnd103 θ') (args 1) start := rfl
    rw [h1, h2] at h3
    simp only [Except.ok.injEq] at h3
    rw [e1, e2, h3]
  obtain ⟨Z, h1, h2⟩ := C103_flow_unbiased (Measure.pi fun _ : Fin 2 => ProbabilityTheory.gaussianReal 0 1) (userOf _ lp103) hp hp' (configuredOf _ lp103)
    (.fresh (freshOf _ lp103)) rnd103 hd s' hr rfl (by simp [args]) hsc q103 q103_measurable q103_pos (fun _ θ => θ) (fun _ => measurable_id)
    (fun _ => by rw [Measure.map_id']; exact q103_law) (fun θ => by simp [rnd103, args]) (fun x _ => by simp [lp103])
    (by simp only [hq]; exact q103_integrable.integrableOn)
  simp only [hq] at h2
  exact ⟨_, inferInstance, s', Z, hr, h1, h2⟩

end Demo

end Poco
