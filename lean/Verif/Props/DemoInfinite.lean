import Verif.Props.Infinite
import Verif.Props.DemoPosterior

/-! C121: a run whose likelihood is infinite outside the region the prior samples come from, and which returns. -/

namespace Poco.Demo
open F Spec

open scoped Classical in
/-- 1 where the first parameter is between 0 and 3, infinite elsewhere. -/
noncomputable def llInf : Pt 2 → F := fun x => if fin 0 ≤ x 0 ∧ x 0 ≤ fin 3 then fin 0 else pinf

open scoped Classical in
/-- The same, with 0 in place of infinity. -/
noncomputable def llZero : Pt 2 → F := fun x => if fin 0 ≤ x 0 ∧ x 0 ≤ fin 3 then fin 0 else ninf

/-- The example with this likelihood, random-walk steps without preconditioning, one step per iteration; `rk` chooses the resampling. -/
noncomputable def envInf (rk : ResampleKind) : SamplerEnv 2 Unit Unit :=
  { envOf llInf (fun _ => fin 0) with
    preconditioned := false
    sample := .rwm
    nMaxSteps := 1
    resample := rk
    chol := fun _ => .ok fun i j => if i = j then fin 1 else fin 0 }

variable {rk : ResampleKind}

/-- The draws of the example, with large normal numbers. -/
noncomputable def rndInf : Rnd 2 Unit := { rnd with mcmc := fun _ _ _ => ⟨fin 1, fun _ => fin 100, fin 0⟩ }

theorem userInf : UserFns (envInf rk) llInf (fun _ => fin 0) (fun _ => [()]) true :=
  ⟨(userOf llInf fun _ => fin 0).1, (userOf llInf fun _ => fin 0).2, (userOf llInf fun _ => fin 0).3⟩

theorem configuredInf : Configured (envInf rk) := ⟨by simp [env, envOf, envInf], by simp [env, envOf, envInf], by simp [env, envOf, envInf]⟩

theorem freshInf : Fresh (envInf rk) true start := by
  constructor <;> try rfl
  · intro i; exact ⟨by simp [start, Scaler.init], by simp [start, Scaler.init], by simp [start, Scaler.init]⟩
  · intro _; rfl

theorem drawsInf : Draws start.scaler.low start.scaler.high rndInf :=
  ⟨fun n => draws.prior n, fun _ _ _ => ⟨0, rfl, le_rfl, one_pos⟩⟩

theorem reliableInf : Reliable (envInf rk) rndInf where
  geo := fun _ _ _ => ⟨_, rfl⟩
  flow := fun _ _ _ _ => ⟨_, rfl⟩
  inv := fun m => ⟨m, rfl⟩
  chol := fun _ => ⟨_, rfl⟩
  dim := by simp
  freq := by simp [env, envOf, envInf]
  ratio := ⟨_, rfl⟩
  mult := fun _ _ => ⟨le_rfl, one_pos⟩
  syst := fun _ => ⟨le_rfl, one_pos⟩

theorem flatZero : FlatEnv (envInf rk) llZero := ⟨fun x => by unfold llZero; split <;> simp, rfl, rfl⟩

/-- The fitted scaler. -/
theorem scalerInf (a : RunArgs) (s1 : Sampler 2 Unit Unit) (h : runInit (envInf rk) rndInf a start = .ok s1) :
    s1.scaler.periodic = none ∧ s1.scaler.reflective = none ∧ ∃ L : ℝ, ∀ v : Fin 2 → ℝ,
      s1.scaler.inverseRow (pt v) = .ok (pt fun i => 1.5 + Real.sqrt 1.25 * v i, fin L) := by
  rcases runInit_ok h with ⟨⟨ps, hps⟩, -⟩ | ⟨-, sc, hsc, rfl⟩
  · cases hps
  · unfold Scaler.fit at hsc
    split_ifs at hsc
    simp only [Except.ok.injEq] at hsc
    subst hsc
    have hprior : rndInf.prior (envInf rk).nPrior = [pt fun _ => 0, pt fun _ => 1, pt fun _ => 2, pt fun _ => 3] := by
      simp [rndInf, rnd, envInf, envOf, env, List.range_succ]
    have hcol : ∀ i, ((rndInf.prior (envInf rk).nPrior).map start.scaler.fwdRow).map (· i) = ([0, 1, 2, 3] : List ℝ).map fin := by
      intro i
      rw [hprior]
      simp [Scaler.fwdRow, start, Scaler.init, fwdCoord, createMasks, isfinite, pt]
    have hp : (0 : ℝ) < Real.sqrt 1.25 := Real.sqrt_pos.mpr (by norm_num)
    have hstd : ∀ i, F.std (((rndInf.prior (envInf rk).nPrior).map start.scaler.fwdRow).map (· i)) = fin (Real.sqrt 1.25) := by
      intro i
      rw [hcol, std_fin _ (by simp)]
      norm_num
    have hmean : ∀ i, F.mean (((rndInf.prior (envInf rk).nPrior).map start.scaler.fwdRow).map (· i)) = fin 1.5 := by
      intro i
      rw [hcol, mean_fin _ (by simp)]
      norm_num
    refine ⟨rfl, rfl, Real.log (Real.sqrt 1.25) + Real.log (Real.sqrt 1.25), fun v => ?_⟩
    have hx : ∀ i : Fin 2, (fin 1.5 + fin (Real.sqrt 1.25) * fin (v i) : F) = fin (1.5 + Real.sqrt 1.25 * v i) := fun i => by
      rw [fin_mul, fin_add]
    change Except.ok _ = _
    simp only [Affine.inverse, Scaler.invRow, hstd, hmean]
    congr 1
    refine Prod.ext ?_ ?_
    · funext i
      simp only [start, Scaler.init, invCoord, createMasks, isfinite, pt]
      simpa using hx i
    · simp only [start, Scaler.init, invCoord, createMasks, isfinite, pt]
      simp only [List.ofFn_succ, List.ofFn_zero, log_fin _ hp, sum, List.foldr]
      change fin (_ + (_ + 0)) + fin (0 + (0 + 0)) = _
      rw [fin_add]
      congr 1
      ring

/-- After the warm-up: the fitted scaler, the first proposal scale, no infinite log-likelihood. -/
theorem warmInf {a : RunArgs} {s1 s2 : Sampler 2 Unit Unit} (h1 : runInit (envInf rk) rndInf a start = .ok s1)
    (h2 : (runWarmup (envInf rk) rndInf a start.t s1).2 = .ok s2) :
    s2.scaler = s1.scaler ∧ s2.proposalScale = fin 1 ∧ ∀ l ∈ s2.particles.past.logl.flatten, l.isinf = false := by
  have hi : Inv (envInf rk) llInf (fun _ => fin 0) (fun _ => [()]) true start [] := .fresh freshInf
  obtain ⟨k1, k2, k3⟩ := hi.init configuredInf drawsInf h1
  obtain ⟨s1', i1, i2, -⟩ := hi.runInit_total configuredInf drawsInf a
  rw [h1] at i1
  simp only [Except.ok.injEq] at i1
  subst i1
  have hs1 : s1.particles = start.particles ∧ s1.proposalScale = fin 1 := by
    rcases runInit_ok h1 with ⟨-, rfl⟩ | ⟨-, sc, -, rfl⟩ <;> exact ⟨rfl, rfl⟩
  obtain ⟨hok, xs, x1, x2, x3⟩ := k1.prior _ i2
  let P : Sampler 2 Unit Unit → Prop := fun q => q.scaler = s1.scaler ∧ q.proposalScale = fin 1 ∧
    (∀ l ∈ q.particles.past.logl.flatten, l.isinf = false) ∧
    ∃ ys : List (Fin 2 → ℝ), q.priorSamples = some (ys.map pt) ∧ ys.length = (envInf rk).nPrior ∧
      ∀ y ∈ ys, StrictlyInside s1.scaler.low s1.scaler.high y
  have hP : P s2 := by
    refine (TraceP.runWarmup (e := (envInf rk)) (rnd := rndInf) (P := P) (fun q q' i hi' hq hst => ?_) (fun q hq => hq) a start.t s1
      ⟨rfl, hs1.2, by rw [hs1.1]; simp [start, Particles.init], xs, by rw [i2, x1], x2, x3⟩).2 s2 h2
    obtain ⟨q1, q2, q3, ys, q4, q5, q6⟩ := hq
    obtain ⟨b, rows, zs, -, r2, r3, r4, r5, rfl⟩ := warmupStep_ok userInf (by rw [q1]; exact hok) (fun _ => rfl) q4 (by rw [q1]; exact q6) i
      configuredInf.1 (by rw [q5]; exact (Nat.le_div_iff_mul_le configuredInf.1).mp hi') hst
    refine ⟨q1, q2, fun l hl => ?_, zs, rfl, r4.trans q5, fun y hy => q6 y (r5 y hy)⟩
    simp only [Particles.update, Cols.full, Option.toList_some, List.flatten_append, List.mem_append, List.flatten_singleton] at hl
    rcases hl with hl | hl
    · exact q3 l hl
    · rw [r2.logl] at hl
      obtain ⟨r, hr, rfl⟩ := List.mem_map.mp hl
      exact (r3 r hr).2
  exact ⟨hP.1, hP.2.1, hP.2.2.1⟩

/-- With the infinite values out of the history, it is also a history of the other likelihood. -/
theorem invZero {s : Sampler 2 Unit Unit} {its : List (Iter 2 (List Unit))} (h : Inv (envInf rk) llInf (fun _ => fin 0) (fun _ => [()]) true s its)
    (hz : ∀ it ∈ its, it.logz = fin 0) (hl : ∀ l ∈ s.particles.past.logl.flatten, l.isinf = false) :
    Inv (envInf rk) llZero (fun _ => fin 0) (fun _ => [()]) true s its := by
  refine { h with rows := fun it hit => ?_, logz := fun _ it hit => ⟨0, hz it hit⟩ }
  obtain ⟨rows, r1, r2, r3, r4⟩ := h.rows it hit
  refine ⟨rows, r1, r2, fun r hr => ?_, r4⟩
  obtain ⟨⟨b1, b2, b3, b4⟩, g2, -⟩ := r3 r hr
  have hni : r.logl.isinf = false := by
    apply hl
    rw [h.past]
    refine List.mem_flatten.mpr ⟨it.logl, List.mem_map_of_mem hit, ?_⟩
    rw [r2.logl]
    exact List.mem_map_of_mem hr
  have h0 : r.logl = fin 0 ∧ llZero r.x = fin 0 := by
    rw [b3] at hni ⊢
    unfold llInf at hni ⊢
    unfold llZero
    split at hni
    · rename_i hc
      rw [if_pos hc, if_pos hc]
      exact ⟨rfl, rfl⟩
    · cases hni
  exact ⟨⟨b1, b2, h0.1.trans h0.2.symm, b4⟩, g2, fun _ => ⟨0, h0.1⟩⟩

/-- The step of the random walk takes every walker of the region out of it, and the infinite likelihood is accepted. -/
theorem stepInf {k : McmcEnv 2 (List Unit)} (hk : k.kernel = .rwm) (hβ : k.beta = fin 1) (hsc1 : k.scaler.periodic = none)
    (hsc2 : k.scaler.reflective = none) {L : ℝ} (hsc3 : ∀ v : Fin 2 → ℝ, k.scaler.inverseRow (pt v) = .ok (pt fun i => 1.5 + Real.sqrt 1.25 * v i, fin L))
    (hchol : k.cholCov = fun i j => if i = j then fin 1 else fin 0) (hrow : RowWise k llInf (fun _ => fin 0) (fun _ => [()]))
    (hprop : k.proposalScale = fin 1) (hmax : k.nMax = 1) {fuel t : ℕ} {rows : List (Row 2 (List Unit))} (hne : rows ≠ [])
    (hg : ∀ r ∈ rows, GoodRow k.scaler llZero (fun _ => fin 0) (fun _ => [()]) true r) {res : McmcResult 2 (List Unit)}
    (h : mcmc k fuel (rndInf.mcmc t) (rows.map (·.walker true)) = .ok res) : pinf ∈ res.walkers.map (·.logl) := by
  cases rows with
  | nil => exact absurd rfl hne
  | cons r rows =>
    obtain ⟨⟨b1, b2, b3, -⟩, ⟨u, hu⟩, b6⟩ := hg r (by simp)
    obtain ⟨l, hl⟩ := b6 (flatZero (rk := .mult)).proper
    rw [hu, hsc3] at b1
    simp only [Except.ok.injEq, Prod.mk.injEq] at b1
    have hr0 : 0 ≤ 1.5 + Real.sqrt 1.25 * u 0 := by
      rw [hl] at b3
      unfold llZero at b3
      split at b3
      · rename_i hc
        rw [← b1.1] at hc
        exact (fin_le _ _).mp hc.1
      · cases b3
    unfold mcmc at h
    cases hst : mcmcStep k fuel (rndInf.mcmc t 1) 1 (mcmcInit k ((r :: rows).map (·.walker true))) with
    | error x =>
      unfold mcmcLoop at h
      simp only [Nat.zero_add, hst] at h
      cases h
    | ok st' =>
      have hres : res.walkers = st'.walkers := by
        unfold mcmcLoop at h
        simp only [Nat.zero_add, hst, hmax, le_refl, if_true, ite_self] at h
        simp only [Except.ok.injEq] at h
        rw [← h]
      rw [hres]
      obtain ⟨cands, props, ev, n, h1, h2, h3, -⟩ := mcmcStep_ok hst
      rw [evaluate_rowwise k _ _ _ hrow] at h2
      simp only [Except.ok.injEq, Prod.mk.injEq] at h2
      obtain ⟨rfl, -, -⟩ := h2
      obtain ⟨c1, c2⟩ := mapM_eq_ok h1
      have hw0 : (mcmcInit k ((r :: rows).map (·.walker true))).walkers[0]? = some { r.walker true with theta := r.u, logdetjFlow := fin 0 } := by
        simp [mcmcInit, hk, Kern.hasFlow, Row.walker]
      obtain ⟨c, c3, c4⟩ := c2 0 (propose k (mcmcInit k ((r :: rows).map (·.walker true))).sigma (mcmcInit k ((r :: rows).map (·.walker true))).mu
        { r.walker true with theta := r.u, logdetjFlow := fin 0 } (rndInf.mcmc t 1 0)) (by
          rw [List.getElem?_mapIdx, hw0]; rfl)
      have hpropose : propose k (mcmcInit k ((r :: rows).map (·.walker true))).sigma (mcmcInit k ((r :: rows).map (·.walker true))).mu
          { r.walker true with theta := r.u, logdetjFlow := fin 0 } (rndInf.mcmc t 1 0) = pt fun i => u i + 100 := by
        unfold propose
        simp only [hk, Kern.isPcn, hu, mcmcInit, hprop, hchol, matVec]
        funext i
        simp only [rndInf, rnd, pt, List.ofFn_succ, List.ofFn_zero, sum, List.foldr, zero_def]
        fin_cases i <;> simp
      rw [hpropose] at c4
      unfold candidate at c4
      simp only [hk, Kern.hasFlow, hsc3, hsc1, hsc2, bind, Except.bind, pure, Except.pure, Option.isSome_none, Bool.or_false, Bool.false_eq_true, if_false,
        Except.ok.injEq] at c4
      have hp : (0 : ℝ) < Real.sqrt 1.25 := Real.sqrt_pos.mpr (by norm_num)
      have hp1 : (1 : ℝ) ≤ Real.sqrt 1.25 := Real.le_sqrt_of_sq_le (by norm_num)
      have hfm : finiteMask c = true := by
        rw [← c4]
        simp [finiteMask, isfinite, pt]
      have hll : llInf c.x = pinf := by
        rw [← c4]
        unfold llInf
        rw [if_neg]
        rintro ⟨-, h2⟩
        have := (fin_le _ _).mp h2
        nlinarith
      have hvm : validMask (fun _ => fin 0) c = true := by
        unfold validMask
        rw [hfm]; rfl
      refine List.mem_map.mpr ⟨{ c with logl := pinf, logp := fin 0, blob := if k.haveBlobs then some [()] else none }, ?_, rfl⟩
      rw [h3]
      refine List.mem_of_getElem? (i := 0) ?_
      rw [List.getElem?_mapIdx]
      have hz : (((mcmcInit k ((r :: rows).map (·.walker true))).walkers.zip (cands.map fun c =>
          { c with logl := if validMask (fun _ => fin 0) c then llInf c.x else ninf
                   logp := if finiteMask c then fin 0 else ninf
                   blob := if k.haveBlobs && validMask (fun _ => fin 0) c then some [()] else none }))[0]?) = some
          ({ r.walker true with theta := r.u, logdetjFlow := fin 0 }, { c with logl := pinf, logp := fin 0, blob := if k.haveBlobs then some [()] else none }) := by
        rw [List.getElem?_zip_eq_some]
        refine ⟨hw0, ?_⟩
        rw [List.getElem?_map, c3]
        simp only [Option.map_some, hvm, hfm, hll, if_true, Bool.and_true]
      rw [hz]
      simp only [Option.map_some, Option.some.injEq]
      rw [if_pos]
      have hlogp : r.logp = fin 0 := b2
      unfold alpha metropolisExponent
      simp only [hk, hβ, hl, hlogp, ← b1.2, ← c4, Row.walker]
      have : (pinf * fin 1 : F) = pinf := by
        change F.infMul 1 = pinf
        simp [F.infMul]
      rw [this]
      change fin 0 < if (minimum (fin 1) pinf).isnan = true then fin 0 else minimum (fin 1) pinf
      simp [minimum]

/-- **C121 is false as stated.** A run, on a new sampler with correct arguments and finite likelihoods at all prior samples, that returns with a
log-likelihood of +inf in its history. -/
theorem C121_inf_returned (rk : ResampleKind) : ∃ s', Fresh (envInf rk) true start ∧ UserFns (envInf rk) llInf (fun _ => fin 0) (fun _ => [()]) true ∧
    Configured (envInf rk) ∧ Draws start.scaler.low start.scaler.high rndInf ∧ (∀ x ∈ rndInf.prior (envInf rk).nPrior, llInf x = fin 0) ∧
    (run (envInf rk) rndInf 0 1 (args 0) start).2 = .ok s' ∧ ∃ row ∈ s'.particles.past.logl, pinf ∈ row := by
  have hi : Inv (envInf rk) llInf (fun _ => fin 0) (fun _ => [()]) true start [] := .fresh freshInf
  have hpr : ∀ x ∈ rndInf.prior (envInf rk).nPrior, llInf x = fin 0 := by
    intro x hx
    have hprior : rndInf.prior (envInf rk).nPrior = [pt fun _ => 0, pt fun _ => 1, pt fun _ => 2, pt fun _ => 3] := by
      simp [rndInf, rnd, envInf, envOf, env, List.range_succ]
    rw [hprior] at hx
    unfold llInf
    rw [if_pos]
    simp only [List.mem_cons, List.not_mem_nil, or_false] at hx
    rcases hx with rfl | rfl | rfl | rfl <;> simp only [pt, fin_le] <;> norm_num
  have hsup : Supported (envInf rk) llInf (start.priorSamples.getD (rndInf.prior (envInf rk).nPrior)) :=
    supported_of configuredInf (by simp [start, rndInf, rnd]) fun x hx => by rw [hpr x hx]; rfl
  obtain ⟨s1, s2, its, h1, h2, h3, h4, h5, h6, h7, h8, h9⟩ := hi.start_total userInf configuredInf drawsInf (args 0) (by simp [args]) (fun _ => hsup)
    (fun hw => by cases hw)
  have hlen : its.length = 2 := by
    rw [h9 rfl]; simp [envInf, envOf, env]
  have hs1 : s1.particles = start.particles ∧ s1.nEffective = 1 ∧ s1.nTotal = 6 := by
    rcases runInit_ok h1 with ⟨-, rfl⟩ | ⟨-, sc, -, rfl⟩ <;> exact ⟨rfl, rfl, rfl⟩
  obtain ⟨z1, z2, z3, z4⟩ := warmup_logz (s := s1) (by rw [hs1.1]; simp [start, Particles.init]) (by rw [hs1.1]; simp [start, Particles.init]) h2
  obtain ⟨w1, w2, w3⟩ := warmInf h1 h2
  obtain ⟨sc1, sc2, L, sc3⟩ := scalerInf (args 0) s1 h1
  rw [h3.past] at z1 z2
  have hz : ∀ it ∈ its, it.logz = fin 0 := fun it hit => z1 _ (List.mem_map_of_mem hit)
  have hb0 : ∀ it, its.getLast? = some it → it.beta = fin 0 := fun it hit => z2 _ (List.mem_map_of_mem (List.mem_of_getLast? hit))
  have h0 := invZero h3 hz w3
  -- one iteration
  obtain ⟨H, b, c, hH, hR, hfl, hHl, hb1, hl, hcur, hlast, hcb⟩ := h0.flat flatZero configuredInf h4 hz
  have hbeta := flat_up flatZero hH hR hfl hl (N := s2.nEffective) (by rw [hHl, hlen, z3, hs1.2.1]; simp [envInf, envOf, env]) 0
  obtain ⟨s3, m1, m2, m3⟩ := h3.smcStep_of_beta userInf configuredInf reliableInf hH hR hHl h4 hbeta
  have hd2 : Draws s2.scaler.low s2.scaler.high rndInf := by rw [h7, h8]; exact drawsInf
  obtain ⟨it, v1, v2⟩ := h3.smc userInf configuredInf hd2 h6 m1
  have hinf : pinf ∈ it.logl := by
    obtain ⟨c', t1, c1, t2, c2, t3, c3, g0, g1, g2, g3, g4, rfl⟩ := smcStep_ok m1
    obtain ⟨nEff, beta, logz, ess, w, tr, e1, -, -, e4, rfl⟩ := reweight_ok g1
    rw [hbeta] at e1
    simp only [Except.ok.injEq, Prod.mk.injEq] at e1
    rw [h3.past, h3.blobs h4] at e4
    obtain ⟨⟨rows1, -, f1, f2⟩, -, -, -, -, -, -, -, fb, -⟩ := gatherCur_ok h4 h0.rows (fun h => by cases h) e4
    have ht2 : t2.haveBlobs = true ∧ t2.scaler = s1.scaler ∧ t2.proposalScale = fin 1 := by
      rcases train_ok g2 with ⟨-, flow, g, rfl⟩ | ⟨-, g, rfl⟩ <;> exact ⟨h3.blobs h4, w1, w2⟩
    obtain ⟨⟨rows2, l1, l2, l3⟩, -, -, -, -, -, -, -, lb, -⟩ := resampleStep_ok ht2.1 f1 f2 g3
    obtain ⟨ws, k, r, q1, q2, q3, q4⟩ := mutate_ok g4
    obtain ⟨k1, k2, -, -, -, k6, k7, -, k9, -⟩ := kernelEnv_ok q2
    have hchol : k.cholCov = fun i j => if i = j then fin 1 else fin 0 := by
      unfold kernelEnv at q2
      obtain ⟨g, -, q2⟩ := bind_ok q2
      obtain ⟨iv, -, q2⟩ := bind_ok q2
      obtain ⟨ch, hch, q2⟩ := bind_ok q2
      simp only [pure, Except.pure, Except.ok.injEq] at q2
      subst q2
      simpa [kernelChol, kernelOf, envInf, Kern.isPcn, cholNormal] using hch.symm
    rw [ht2.1, toWalkers_rows l2] at q1
    simp only [Except.ok.injEq] at q1
    subst q1
    have hmem := stepInf (k := k) (L := L) k6 (by rw [k1, lb, fb, ← e1.1]) (by rw [k2, ht2.2.1, sc1]) (by rw [k2, ht2.2.1, sc2])
      (by rw [k2, ht2.2.1]; exact sc3) hchol (kernelEnv_rowwise userInf ht2.1 q2) (by rw [k9, ht2.2.2]) k7
      (by rintro rfl; simp [envInf, envOf, env] at l1) (by rw [k2, ht2.2.1, ← w1]; exact l3) q3
    simp only [writeBack, Prod.mk.injEq] at q4
    obtain ⟨rfl, rfl⟩ := q4
    have hcur3 := v1.cur
    simp only [Option.map_some, List.getLast?_append, List.getLast?_singleton, Option.some_or, Option.some.injEq] at hcur3
    rw [← hcur3]
    exact hmem
  have hmem : pinf ∈ s3.particles.past.logl.flatten := by
    rw [v1.past]
    exact List.mem_flatten.mpr ⟨it.logl, List.mem_map_of_mem (by simp), hinf⟩
  have hb3 : fin 0 ∈ s3.particles.past.beta := by
    rw [m2, h3.past]
    refine List.mem_append_left _ ?_
    obtain ⟨it0, hit0⟩ : ∃ it0, its.getLast? = some it0 := ⟨_, hlast⟩
    exact List.mem_map.mpr ⟨it0, List.mem_of_getLast? hit0, hb0 it0 hit0⟩
  have hgo : notTermination (envInf rk) s2 = .ok true := by
    rw [h0.flat_notTermination flatZero configuredInf h4 hz hb0]
    norm_num
  have hsh : Shaped s3.particles.past (envInf rk).nActive := by
    rw [v1.past]
    refine ⟨by simp [columns], fun row hrow => ?_⟩
    obtain ⟨it', hit', rfl⟩ := List.mem_map.mp hrow
    obtain ⟨rows, r1, r2, -⟩ := v1.rows it' hit'
    rw [r2.logl, List.length_map, r1]
  have hstop : notTermination (envInf rk) s3 = .ok false := by
    obtain ⟨c3, hc3, hc4⟩ : ∃ c3, s3.cur = some c3 ∧ c3.it = it := by
      have := v1.cur
      simp only [List.getLast?_append, List.getLast?_singleton, Option.some_or] at this
      exact Option.map_eq_some_iff.mp this
    have hbit : it.beta = fin 1 := by
      rw [v1.past, h3.past] at m2
      change (its ++ [it]).map (·.beta) = its.map (·.beta) ++ [fin 1] at m2
      simpa using m2
    unfold notTermination
    simp only [essAt_inf_ok hsh hmem hb3, hc3, hc4, hbit, orErr, bind, Except.bind, pure, Except.pure, fin_sub, ge_iff_le, fin_le, Except.ok.injEq,
      Bool.or_eq_false_iff, decide_eq_false_iff_not]
    exact ⟨by norm_num, fun h => not_nan_lt _ h⟩
  have hloop : (smcLoop (envInf rk) rndInf 0 (args 0).saveEvery start.t 1 s2).2 = .ok s3 := by
    have hend : smcLoop (envInf rk) rndInf 0 (args 0).saveEvery start.t 0 s3 = ([], .ok s3) := by
      unfold smcLoop
      simp only [hstop]
    have hsv : Trace.save (args 0).saveEvery start.t s2 = ((Trace.save (args 0).saveEvery start.t s2).1, .ok s2) :=
      Prod.ext rfl (save_total (by simp [args]) start.t s2)
    unfold smcLoop
    simp only [hgo]
    rw [hsv]
    simp only [Trace.andThen, Trace.lift, m1, hend]
  obtain ⟨lw, e1, -⟩ := computeLogwLogz_inf hsh hmem hb3 (fin 1)
  have hfin : finalEvidence (envInf rk) rndInf s3 = .ok { s3 with logz := some nan, logzErr := none } := by
    unfold finalEvidence
    rw [if_neg (by rintro ⟨-, h⟩; cases h)]
    simp only [e1, bind, Except.bind, pure, Except.pure]
  refine ⟨{ s3 with logz := some nan, logzErr := none }, freshInf, userInf, configuredInf, drawsInf, hpr, run_of_parts h1 h2 hloop hfin, it.logl, ?_, hinf⟩
  change it.logl ∈ s3.particles.past.logl
  rw [v1.past]
  exact List.mem_map_of_mem (by simp)

/-- The hypotheses of `C121_visible_partial` are met: this run has no evidence, and its posterior samples cannot be had. -/
example : ∃ s', (run (envInf rk) rndInf 0 1 (args 0) start).2 = .ok s' ∧ evidence s' = (some nan, none) ∧
    ∀ us u out, posterior (envInf rk) us u PostArgs.default s' ≠ .ok out := by
  obtain ⟨s', h1, h2, h3, h4, -, h6, h7⟩ := C121_inf_returned rk
  obtain ⟨k1, k2, -⟩ := C121_visible_partial h2 h3 (.fresh h1) h4 0 1 (args 0) h6 h7
  exact ⟨s', h6, k1 (.inl rfl), fun us u out => k2 us u _ out rfl⟩

/-- The hypotheses of `C121_first_particle` are met: three iterations of two particles, six samples. -/
example : ∃ s' x0 out, (run (envInf .syst) rndInf 0 1 (args 0) start).2 = .ok s' ∧
    posterior (envInf .syst) (fun _ => 0) 0 ⟨true, false, false, false, fin 0.99, 1000⟩ s' = .ok out ∧
    out.samples = List.replicate s'.particles.past.x.flatten.length x0 := by
  obtain ⟨s', h1, h2, h3, h4, -, h6, h7⟩ := C121_inf_returned .syst
  obtain ⟨x0, out, -, k1, k2⟩ := C121_first_particle h2 h3 (.ran rndInf 0 1 (args 0) (.fresh h1) h4 h6) rfl h7 (fun _ => 0) 0
    ⟨true, false, false, false, fin 0.99, 1000⟩ rfl rfl rfl
  exact ⟨s', x0, out, h6, k1, k2⟩

end Poco.Demo
