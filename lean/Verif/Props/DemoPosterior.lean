import Verif.Props.Demo
import Verif.Props.Posterior

/-! Concrete cases for `posterior` and the evidence (C59–C62) and for the warm-up (C47): the hypotheses can be met, and the
claims that are false as stated are refuted. -/

namespace Poco
open F Spec

section
variable {d : ℕ} {B Φ : Type} {e : SamplerEnv d B Φ} {rnd : Rnd d Φ} {ll lp : Pt d → F} {bb : Pt d → List B} {hb : Bool} {s : Sampler d B Φ}

/-- The state file written after the first warm-up iteration, when no likelihood of the first batch is infinite. -/
theorem first_warm (hu : UserFns e ll lp bb hb) (hc : Configured e) (hs : Fresh e hb s) (hd : Draws s.scaler.low s.scaler.high rnd)
    (hW : 2 ≤ e.nPrior / e.nActive) (hx : ∀ x ∈ (rnd.prior e.nPrior).take e.nActive, (ll x).isinf = false) :
    ∃ s', Session e hb s' ∧ s'.particles.past.x = [(rnd.prior e.nPrior).take e.nActive] ∧
      s'.particles.past.logl = [((rnd.prior e.nPrior).take e.nActive).map ll] ∧ s'.particles.past.beta = [fin 0] ∧
      s'.particles.past.logz = [fin 0] := by
  have hi : Inv e ll lp bb hb s [] := .fresh hs
  have hpos : 0 < e.nActive := hc.1
  have hlen : e.nActive ≤ e.nPrior := by
    have := Nat.div_mul_le_self e.nPrior e.nActive
    nlinarith
  let a : RunArgs := ⟨0, 0, some 1⟩
  obtain ⟨s1, h1, hps, hw⟩ := hi.runInit_total hc hd a
  obtain ⟨t1, -, p1, -⟩ := runInit_t h1
  rw [hs.priorSamples, Option.getD_none] at hps
  obtain ⟨k1, -, -⟩ := hi.init hc hd h1
  have hne : (rnd.prior e.nPrior).take e.nActive ≠ [] := by
    obtain ⟨xs, x1, x2, -⟩ := hd.prior e.nPrior
    rw [x1]
    intro h
    have := congrArg List.length h
    simp [x2] at this
    omega
  obtain ⟨x, hxm⟩ := List.exists_mem_of_ne_nil _ hne
  obtain ⟨s2, h2, -⟩ := k1.warmupStep_total (rnd := rnd) hu hc hps (i := 0) (by omega) ⟨x, by simpa using hxm, hx x hxm⟩
  obtain ⟨b0, hb', b, e1, e2, e3⟩ := warmupStep_shape h2
  have hb0 : b0.logl = ((rnd.prior e.nPrior).take e.nActive).map ll ∧ b0.x = (rnd.prior e.nPrior).take e.nActive := by
    unfold warmupBatch at e1
    obtain ⟨ps, q1, e1⟩ := bind_ok e1
    obtain ⟨u, q2, e1⟩ := bind_ok e1
    obtain ⟨iv, q3, e1⟩ := bind_ok e1
    obtain ⟨⟨l, bl, h⟩, q4, e1⟩ := bind_ok e1
    rw [hps] at q1
    have : rnd.prior e.nPrior = ps := by simpa [orErr] using q1
    subst this
    simp only [Nat.zero_mul, List.drop_zero] at q4 e1
    rw [hu.like _ hne] at q4
    simp only [Except.ok.injEq, Prod.mk.injEq] at q4
    simp only [pure, Except.pure, Except.ok.injEq, Prod.mk.injEq] at e1
    rw [← e1.1, q4.1]
    exact ⟨rfl, rfl⟩
  have hbb : b = b0 := by
    have hm : ∀ l : List F, (∀ y ∈ l, y.isinf = false) → ∀ (r : List ℕ), maskSelect (l.map F.isinf) r = [] := by
      intro l
      induction l with
      | nil => intro _ r; cases r <;> rfl
      | cons y l ih =>
        intro hl r
        cases r with
        | nil => rfl
        | cons z r =>
          have := hl y (by simp)
          have ih' := ih (fun y hy => hl y (by simp [hy])) r
          simp only [maskSelect, List.map_cons, List.zip_cons_cons, this] at ih' ⊢
          simpa using ih'
    have hd' : infDonors b0.logl (rnd.warm s1.t) = .ok ([], []) := by
      unfold infDonors
      dsimp only
      rw [if_pos]
      apply hm
      rw [hb0.1]
      intro y hy
      obtain ⟨x, hx', rfl⟩ := List.mem_map.mp hy
      exact hx x hx'
    unfold replaceInf at e2
    rw [hd'] at e2
    simpa [bind, Except.bind, pure, Except.pure] using e2.symm
  subst hbb
  have hp : s1.particles = Particles.init := p1.trans hs.particles
  have hpast : s2.particles.past = (Particles.init.update (Cols.full (warmupIter b e.nActive s1.t (s1.calls + e.nActive) s1.nEffective))).past := by
    rw [e3, ← hp]
  have hsv : (⟨.iter 1, s2⟩ : Save d B Φ) ∈ (run e rnd 0 1 a s).1 := by
    obtain ⟨m, hm⟩ : ∃ m, e.nPrior / e.nActive = m + 2 := ⟨e.nPrior / e.nActive - 2, by omega⟩
    have ht0 : s.t = 0 := hs.t
    have ht2 : s2.t = 1 := by rw [e3]; simp [t1, ht0]
    have hinit : runInit e rnd a s = .ok s1 := h1
    have hmem : ∀ (t : Trace d B Φ) (f : Sampler d B Φ → Trace d B Φ) (x : Save d B Φ), x ∈ t.1 → x ∈ (t.andThen f).1 := by
      intro t f x hx
      obtain ⟨l, r⟩ := t
      cases r with
      | error _ => exact hx
      | ok s => exact List.mem_append_left _ hx
    have hmem2 : ∀ (t : Trace d B Φ) (f : Sampler d B Φ → Trace d B Φ) (q : Sampler d B Φ) (x : Save d B Φ), t.2 = .ok q → x ∈ (f q).1 → x ∈ (t.andThen f).1 := by
      intro t f q x hq hx
      obtain ⟨l, r⟩ := t
      simp only at hq
      subst hq
      exact List.mem_append_right _ hx
    unfold run
    dsimp only
    refine hmem2 _ _ s1 _ hinit (hmem _ _ _ ?_)
    unfold runWarmup
    rw [if_pos (hw.trans hs.warmup), if_neg (by omega)]
    refine hmem _ _ _ ?_
    rw [hm]
    unfold warmupLoop
    have hs1 : Trace.save a.saveEvery s.t s1 = ([], .ok s1) := by
      unfold Trace.save saveNow
      simp [a, t1]
    refine hmem2 _ _ s1 _ (by rw [hs1]) (hmem2 _ _ s2 _ h2 ?_)
    unfold warmupLoop
    refine hmem _ _ _ ?_
    unfold Trace.save saveNow
    simp [a, ht2, ht0]
  refine ⟨s2, .loaded rnd 0 1 a _ (.fresh hs) hd hsv, ?_⟩
  rw [hpast]
  simp [Particles.init, Particles.update, Cols.full, warmupIter, hb0]

end

namespace Demo

/-- The example with another likelihood (with a blob) and another prior. -/
noncomputable def envOf (ll lp : Pt 2 → F) : SamplerEnv 2 Unit Unit :=
  { env true with
    like := { single := fun x => .ok (.seq false (ll x) [()]), vector := fun xs => .ok (xs.map ll), vectorize := false, pool := none }
    logPrior := fun xs => xs.map lp }

theorem userOf (ll lp : Pt 2 → F) : UserFns (envOf ll lp) ll lp (fun _ => [()]) true := by
  refine ⟨fun xs => rfl, fun xs hxs => ?_, rfl⟩
  exact C52_blobs_aligned_partial (envOf ll lp).like rfl rfl ll (fun _ => [()]) false xs hxs (by simp [envOf])

theorem configuredOf (ll lp : Pt 2 → F) : Configured (envOf ll lp) := ⟨by simp [env, envOf], by simp [env, envOf], by simp [env, envOf]⟩

theorem freshOf (ll lp : Pt 2 → F) : Fresh (envOf ll lp) true start := by
  constructor <;> try rfl
  · intro i; exact ⟨by simp [start, Scaler.init], by simp [start, Scaler.init], by simp [start, Scaler.init]⟩
  · intro _; rfl

theorem first_batch (ll lp : Pt 2 → F) : (rnd.prior (envOf ll lp).nPrior).take (envOf ll lp).nActive = [pt fun _ => 0, pt fun _ => 1] := by
  simp [rnd, envOf, env, List.range_succ]

/-- The state after the first warm-up iteration. -/
theorem warmOf (ll lp : Pt 2 → F) (h0 : (ll (pt fun _ => 0)).isinf = false) (h1 : (ll (pt fun _ => 1)).isinf = false) :
    ∃ s, Session (envOf ll lp) true s ∧ s.particles.past.x = [[pt fun _ => 0, pt fun _ => 1]] ∧
      s.particles.past.logl = [[ll (pt fun _ => 0), ll (pt fun _ => 1)]] ∧ s.particles.past.beta = [fin 0] ∧ s.particles.past.logz = [fin 0] := by
  obtain ⟨s, k1, k2, k3, k4⟩ := first_warm (userOf ll lp) (configuredOf ll lp) (freshOf ll lp) draws (by simp [envOf, env]) (by
    rw [first_batch]
    simpa using ⟨h0, h1⟩)
  rw [first_batch] at k2 k3
  exact ⟨s, k1, k2, by simpa using k3, k4⟩

/-! ### C47 refuted -/

open scoped Classical in
/-- **C47 is false as stated.** A NaN log-likelihood is stored by the warm-up; all weights and the evidence estimate computed from that history are NaN. -/
theorem C47_not_always : ∃ (ll lp : Pt 2 → F) (s : Sampler 2 Unit Unit), Session (envOf ll lp) true s ∧
    s.particles.past.logl = [[fin 0, nan]] ∧
    ∀ β lw z, computeLogwLogz s.particles.past β = .ok (lw, z) → z = nan ∧ ∀ w ∈ lw, w = nan := by
  let ll : Pt 2 → F := fun x => if x = pt (fun _ => 0) then fin 0 else nan
  have h0 : ll (pt fun _ => 0) = fin 0 := if_pos rfl
  have h1 : ll (pt fun _ => 1) = nan := if_neg fun h => by simpa [pt] using congrFun h 0
  obtain ⟨s, hs, -, hl, -⟩ := warmOf ll (fun _ => fin 0) (by rw [h0]; rfl) (by rw [h1]; rfl)
  rw [h0, h1] at hl
  exact ⟨ll, _, s, hs, hl, fun β lw z h => C20_nan_poisons _ β (by rw [hl]; simp) lw z h⟩

/-! ### C62 refuted -/

/-- Of two weights, one above 0.999, the trimming with the default arguments keeps one. -/
theorem trim_pair {w1 w2 : ℝ} (h1 : 0.999 ≤ w1) (h2 : 0 ≤ w2) (hs : w1 + w2 = 1) {r : Trimmed ℕ}
    (hr : trimWeights [0, 1] ([w1, w2].map fin) (fin 0.99) 1000 = .ok r) : r.samples.length = 1 := by
  have hW : IsWeights [w1, w2] := ⟨fun x hx => by
    simp at hx; rcases hx with rfl | rfl <;> linarith, by simp; linarith⟩
  obtain ⟨r', i, hi, k1, k2, -, k4, k5, k6⟩ := C06_trim_threshold ([0, 1] : List ℕ) [w1, w2] hW rfl 0.99 (by norm_num) 1000 (by norm_num)
  rw [hr] at k1
  simp only [Except.ok.injEq] at k1
  subst k1
  have hn : [w1, w2].map (· / [w1, w2].sum) = [w1, w2] := by simp [hs]
  rw [hn] at k2 k4 k6
  have hsort : [w1, w2].mergeSort (fun x y => decide (x ≤ y)) = [w2, w1] := by
    have hp : ([w1, w2].mergeSort (fun x y => decide (x ≤ y))).Perm [w2, w1] := (List.mergeSort_perm _ _).trans (List.Perm.swap _ _ _)
    have hs1 : ([w1, w2].mergeSort (fun x y => decide (x ≤ y))).Pairwise (fun x y => x ≤ y) := by
      have := List.pairwise_mergeSort (le := fun x y : ℝ => decide (x ≤ y)) (fun a b c => by simpa using le_trans) (fun a b => by simpa using le_total a b) [w1, w2]
      simpa using this
    have hs2 : [w2, w1].Pairwise (fun x y : ℝ => x ≤ y) := by simp; linarith
    exact hp.eq_of_pairwise (fun a b _ _ => le_antisymm) hs1 hs2
  have hper : Spec.percentile [w1, w2] (gridPoint 1000 999) = w2 + (w1 - w2) * 0.99 := by
    have hg : gridPoint 1000 999 = 99 := by unfold gridPoint; norm_num
    have hf : ⌊(((([w1, w2].length : ℕ) : ℝ) - 1) * (99 / 100) : ℝ)⌋₊ = 0 := by
      rw [Nat.floor_eq_zero]; norm_num
    unfold Spec.percentile
    rw [hg, hsort]
    dsimp only
    rw [hf]
    norm_num
  have hk : keptAt [w1, w2] 1000 999 = [w1] := by
    unfold keptAt
    rw [hper, List.filter_cons_of_pos (by simp; nlinarith), List.filter_cons_of_neg (by simp; nlinarith)]
    rfl
  have hi' : i = 999 := by
    by_contra hne
    have := k6 999 (by omega) (by norm_num)
    rw [hk] at this
    have e1 : ess [w1] = 1 := by unfold ess; simp; exact (lt_of_lt_of_le (by norm_num) h1).ne'
    have e2 : ess [w1, w2] = 1 / (w1 ^ 2 + w2 ^ 2) := by
      unfold ess
      simp only [List.sum_cons, List.sum_nil, List.map_cons, List.map_nil, add_zero, hs]
      norm_num
    rw [e1, e2] at this
    have h3 : 0.99 ≤ w1 ^ 2 + w2 ^ 2 := by nlinarith
    have h4 : 0.99 * (1 / (w1 ^ 2 + w2 ^ 2)) ≤ 1 := by
      rw [mul_one_div, div_le_one (by positivity)]
      exact h3
    linarith
  rw [hi', hk] at k4
  rw [hi'] at k2
  have := congrArg List.length k4
  rw [k2]
  simpa using this

open scoped Classical in
/-- **C62 is false as stated.** A session in which, with the default arguments (trimming on), the log-weights returned by
`return_logw=True` are not the logarithms of the weights returned without it. -/
theorem C62_not_always : ∃ (ll lp : Pt 2 → F) (s : Sampler 2 Unit Unit) (w lw : List ℝ) (out1 out2 : PostOut 2 Unit),
    Session (envOf ll lp) true s ∧
    posterior (envOf ll lp) (fun _ => 0) 0 PostArgs.default s = .ok out1 ∧ out1.weights = some (w.map fin) ∧
    posterior (envOf ll lp) (fun _ => 0) 0 { PostArgs.default with returnLogw := true } s = .ok out2 ∧ out2.weights = some (lw.map fin) ∧
    w ≠ lw.map Real.exp := by
  let ll : Pt 2 → F := fun x => if x = pt (fun _ => 0) then fin 0 else fin (-1000)
  have h0 : ll (pt fun _ => 0) = fin 0 := if_pos rfl
  have h1 : ll (pt fun _ => 1) = fin (-1000) := if_neg fun h => by simpa [pt] using congrFun h 0
  have hp : ProperLike ll := fun x => by
    by_cases hx : x = pt (fun _ => 0)
    · exact .inr ⟨0, if_pos hx⟩
    · exact .inr ⟨-1000, if_neg hx⟩
  let lp : Pt 2 → F := fun _ => fin 0
  obtain ⟨s, hs, hx, hl, hbeta, hlz⟩ := warmOf ll lp (by rw [h0]; rfl) (by rw [h1]; rfl)
  rw [h0, h1] at hl
  have hne : s.particles.past.x ≠ [] := by rw [hx]; simp
  have hE : PostArgs.default.essTrim = fin 0.99 := rfl
  obtain ⟨out1, out2, w, lw, c, p1, p2, p3, p4, c0, c1, hw, hwn, hc, -⟩ := C62_logw (userOf ll lp) hp (configuredOf ll lp) hs hne (fun _ => 0) 0
    PostArgs.default rfl (fun _ => ⟨0.99, rfl, by norm_num, by simp [PostArgs.default]⟩) (fun h => by cases h)
  refine ⟨ll, lp, s, w, lw, out1, out2, hs, p1, p2, p3, p4, fun hcon => ?_⟩
  -- one particle is dropped
  have hlen : out1.samples.length = 1 := by
    obtain ⟨its, hi⟩ := hs.inv (userOf ll lp) (configuredOf ll lp)
    have hne' : its ≠ [] := by rintro rfl; apply hne; rw [hi.past]; rfl
    obtain ⟨H, all, kept, p0, p, ls, hH, hR, hall, hll, -, -, htr, hkl, -, hp0, hp1, hp2⟩ :=
      posterior_core (configuredOf ll lp) hi hp hne' { PostArgs.default with trim := false } (fun h => by cases h) (fun h => by cases h)
    have hkall := htr rfl
    subst hkall
    have hp0' : p0 = p := by
      unfold postTrim at hp1
      simpa using hp1
    have hHl : H.map (fun s => (s.logl.map fin)) = [[fin 0, fin (-1000)]] := by rw [← hH.1, hl]
    have hHb : H.map (fun s => fin s.beta) = [fin 0] := by rw [← hH.2.1, hbeta]
    have hHz : H.map (fun s => fin s.logz) = [fin 0] := by rw [← hH.2.2, hlz]
    obtain ⟨st, rfl⟩ : ∃ st, H = [st] := by
      have := congrArg List.length hHb
      exact List.length_eq_one_iff.mp (by simpa using this)
    simp only [List.map_cons, List.map_nil, List.cons.injEq, and_true, fin_inj] at hHl hHb hHz
    have hstl : st.logl = [0, -1000] := by
      have : st.logl.map fin = [(0 : ℝ), -1000].map fin := by simpa using hHl
      exact (List.map_injective_iff.mpr fun a b h => by simpa using h) this
    have hls : ls = [0, -1000] := by
      have : ls.map fin = [(0 : ℝ), -1000].map fin := by
        rw [← hkl, hll, allLogl, List.flatMap_singleton, hstl]
      exact (List.map_injective_iff.mpr fun a b h => by simpa using h) this
    subst hls
    have hwt : ∀ l, weight [st] 1 l = Real.exp l := by
      intro l
      simp [weight, mixture, hHb, hHz]
    have hrel : relWeights [st] [0, -1000] = [1 / (1 + Real.exp (-1000)), Real.exp (-1000) / (1 + Real.exp (-1000))] := by
      simp [relWeights, hwt]
    have hposx := Real.exp_pos (-1000)
    have hsmall : Real.exp (-1000) ≤ 0.001 := by
      have h3 : (1000 : ℝ) ≤ Real.exp 1000 := by
        have := Real.add_one_le_exp (1000 : ℝ); linarith
      rw [Real.exp_neg]
      calc (Real.exp 1000)⁻¹ ≤ (1000 : ℝ)⁻¹ := inv_anti₀ (by norm_num) h3
        _ = 0.001 := by norm_num
    have hlen2 : kept.length = 2 := by
      have := congrArg List.length hkl
      simpa using this
    have hpost : ∃ p', postTrim PostArgs.default p0 = .ok p' ∧ out1.samples = p'.samples := by
      have q1 : posterior (envOf ll lp) (fun _ => 0) 0 PostArgs.default s = .ok out1 := p1
      unfold posterior at q1
      obtain ⟨p00, r1, q1⟩ := bind_ok q1
      obtain ⟨p', r2, q1⟩ := bind_ok q1
      have : p00 = p0 := by
        have e1 : postCollect PostArgs.default s = .ok p0 := hp0
        rw [e1] at r1
        simpa using r1.symm
      subst this
      refine ⟨p', r2, ?_⟩
      unfold postReturn at q1
      simp only [PostArgs.default, Bool.false_eq_true, if_false, Except.ok.injEq] at q1
      rw [← q1]
    obtain ⟨p', r2, hout⟩ := hpost
    rw [hout]
    unfold postTrim at r2
    simp only [PostArgs.default, if_true] at r2
    obtain ⟨tr, u1, r2⟩ := bind_ok r2
    obtain ⟨sm, u2, r2⟩ := bind_ok r2
    obtain ⟨_, -, r2⟩ := bind_ok r2
    obtain ⟨_, -, r2⟩ := bind_ok r2
    obtain ⟨_, -, r2⟩ := bind_ok r2
    obtain ⟨_, -, r2⟩ := bind_ok r2
    simp only [pure, Except.pure, Except.ok.injEq] at r2
    rw [← r2]
    simp only
    rw [(gather_ok u2).1]
    rw [hp0', hp2] at u1
    simp only [List.length_map, hlen2, hrel] at u1
    refine trim_pair ?_ ?_ ?_ u1
    · rw [le_div_iff₀ (by positivity)]; nlinarith
    · positivity
    · field_simp
  have hc1 : c ≠ 1 := by
    intro h
    have := hc.mp h
    rw [hlen, hx] at this
    simp at this
  -- but then the weights differ
  have hl0 : lw ≠ [] := by rintro rfl; exact hwn hw
  obtain ⟨l, lt, rfl⟩ := List.exists_cons_of_ne_nil hl0
  rw [hw] at hcon
  simp only [List.map_cons, List.cons.injEq] at hcon
  have := hcon.1
  rw [div_eq_iff c0.ne'] at this
  have hpos := Real.exp_pos l
  exact hc1 (by nlinarith [mul_right_cancel₀ hpos.ne' (show c * Real.exp l = 1 * Real.exp l by linarith)])

/-! ### C61 -/

/-- The posterior of the example run: six rows, the weights sum to one. -/
example : ∃ (s : Sampler 2 Unit Unit) (out : PostOut 2 Unit) (w : List ℝ), (run (env true) rnd 0 1 (args 0) start).2 = .ok s ∧
    posterior (env true) (fun _ => 0) 0 { PostArgs.default with trim := false, returnBlobs := true } s = .ok out ∧ out.weights = some (w.map fin) ∧ w.sum = 1 ∧
      out.samples.length = 6 := by
  obtain ⟨s, hr, hs, hl⟩ := session true 0
  obtain ⟨H, all, kept, rows, ls, out, k1, k2, k3, k4, k5, k6, k7, k8, k9, k10, k11, k12, k13, k14, k15⟩ := C61_posterior (user true) proper (configured true) hs
    (by intro h; rw [h] at hl; simp at hl) (fun _ => 0) (by simp) 0 le_rfl one_pos { PostArgs.default with trim := false, returnBlobs := true }
    (fun h => by cases h) (fun _ => rfl)
  obtain ⟨w1, w2, w3, w4⟩ := k14 rfl rfl
  refine ⟨s, out, _, hr, k8, w1, w4, ?_⟩
  rw [k9, List.length_map, k13 rfl, k5 rfl]
  obtain ⟨T, hT⟩ := C13_rectangular (user true) (configured true) hs
  have hx := congrArg List.length k2.x
  rw [List.length_map] at hx
  rw [← hx, List.length_flatten]
  obtain ⟨its, h1, h2⟩ := C29_run (user true) (configured true) hs
  rw [h1] at hl ⊢
  simp only [columns, List.length_map] at hl ⊢
  have hx2 : ∀ it ∈ its, it.x.length = 2 := fun it hit => by
    obtain ⟨rows, r1, r2, -⟩ := h2 it hit
    rw [r2.x, List.length_map, r1]; rfl
  rw [List.map_map, show its.map (List.length ∘ fun it => it.x) = its.map fun _ => 2 from List.map_congr_left hx2]
  simp [hl]

/-! ### C59 refuted -/

/-- The scaler of a run is fitted once, at its start. -/
theorem run_scaler {d : ℕ} {B Φ : Type} {e : SamplerEnv d B Φ} {rnd : Rnd d Φ} {s s' : Sampler d B Φ} {fuel n : ℕ} {a : RunArgs}
    (hr : (run e rnd fuel n a s).2 = .ok s') : ∃ s1, runInit e rnd a s = .ok s1 ∧ s'.scaler = s1.scaler := by
  obtain ⟨s1, s2, s3, h1, h2, h3, h4⟩ := run_ok hr
  refine ⟨s1, h1, ?_⟩
  have p2 := (TraceP.runWarmup (e := e) (rnd := rnd) (P := fun s => s.scaler = s1.scaler)
    (fun s s' i _ hs hw => by obtain ⟨b0, hb, b, -, -, rfl⟩ := warmupStep_shape hw; exact hs) (fun s hs => hs) a s.t s1 rfl).2 s2 h2
  have p3 := (TraceP.smcLoop (e := e) (rnd := rnd) (P := fun s => s.scaler = s1.scaler)
    (fun s s' hs hw => by obtain ⟨c, c3, r, nEff, fl, fu, ug, tg, -, -, -, -, rfl⟩ := smcStep_shape hw; exact hs) _ _ _ s2 p2).2 s3 h3
  exact (finalEvidence_keep h4).2.2.2.2.2.2.2.1.trans p3

/-- The draws of the example, but the flow yields `θ = 0` once and then `θ = 4`. -/
noncomputable def rnd59 : Rnd 2 Unit := { rnd with flowSample := fun _ _ n => (pt fun _ => 0, fin 0) :: List.replicate (n - 1) (pt fun _ => 4, fin 0) }

open scoped Classical in
/-- A prior with a hole: outside its support for a first parameter above 3. -/
noncomputable def lp59 : Pt 2 → F := fun x => if x 0 > fin 3 then ninf else fin 0

theorem scaler59 (ll lp : Pt 2 → F) (a : RunArgs) (s1 : Sampler 2 Unit Unit) (h : runInit (envOf ll lp) rnd59 a start = .ok s1) (θ : ℝ) :
    ∃ x ld, s1.scaler.inverseRow (pt fun _ => θ) = .ok (x, ld) ∧ x 0 = fin (1.5 + Real.sqrt 1.25 * θ) := by
  rcases runInit_ok h with ⟨⟨ps, hps⟩, -⟩ | ⟨-, sc, hsc, rfl⟩
  · cases hps
  · unfold Scaler.fit at hsc
    split_ifs at hsc
    simp only [Except.ok.injEq] at hsc
    subst hsc
    have hprior : rnd59.prior (envOf ll lp).nPrior = [pt fun _ => 0, pt fun _ => 1, pt fun _ => 2, pt fun _ => 3] := by
      simp [rnd59, rnd, envOf, env, List.range_succ]
    have hcol : ((rnd59.prior (envOf ll lp).nPrior).map start.scaler.fwdRow).map (· 0) = ([0, 1, 2, 3] : List ℝ).map fin := by
      rw [hprior]
      simp [Scaler.fwdRow, start, Scaler.init, fwdCoord, createMasks, isfinite, pt]
    refine ⟨_, _, rfl, ?_⟩
    simp only [Scaler.invRow, Affine.inverse, hcol]
    rw [mean_fin _ (by simp), std_fin _ (by simp)]
    simp only [start, Scaler.init, invCoord, createMasks, isfinite, pt, fin_mul, fin_add]
    norm_num

theorem draws59 : Draws start.scaler.low start.scaler.high rnd59 := ⟨fun n => draws.prior n, fun t i k => draws.mcmc t i k⟩

theorem reliable59 (ll : Pt 2 → F) : Reliable (envOf ll lp59) rnd59 where
  geo := fun _ _ _ => ⟨_, rfl⟩
  flow := fun _ _ _ _ => ⟨_, rfl⟩
  inv := fun m => ⟨m, rfl⟩
  chol := fun m => ⟨m, rfl⟩
  dim := by simp [env, envOf]
  freq := by simp [env, envOf]
  ratio := ⟨_, rfl⟩
  mult := fun _ _ => ⟨le_rfl, one_pos⟩
  syst := fun _ => ⟨le_rfl, one_pos⟩

/-- **C59 is false as stated.** The weight of the draw in the support is 1, the other draw counts zero: the average is 1/2, but the
run reports evidence 1. -/
theorem C59_not_always : ∃ (ll lp : Pt 2 → F) (s : Sampler 2 Unit Unit) (qs : List ((Fin 2 → ℝ) × ℝ)) (X : (Fin 2 → ℝ) → Pt 2) (D : (Fin 2 → ℝ) → ℝ),
    Draws start.scaler.low start.scaler.high rnd59 ∧
    (run (envOf ll lp) rnd59 0 1 (args 2) start).2 = .ok s ∧ rnd59.flowSample s.t s.flow 2 = (qs.map fun q => (pt q.1, fin q.2)) ∧ qs.length = 2 ∧
    (∀ θ, s.scaler.inverseRow (pt θ) = .ok (X θ, fin (D θ))) ∧
    s.logz ≠ some (logOf ((qs.map (isWeight ll lp X D)).sum / 2)) := by
  let ll : Pt 2 → F := fun _ => fin 0
  have hf : FlatEnv (envOf ll lp59) ll := ⟨fun _ => .inl rfl, rfl, rfl⟩
  have hd := draws59
  have hrel := reliable59 ll
  obtain ⟨s, its, hr, -⟩ := flat_first_run hf (userOf ll lp59) (configuredOf ll lp59) hd hrel (freshOf ll lp59) (fun _ _ => rfl)
    (by simp [env, envOf, start]) (args 2) (by simp [args]) (by simp [args, env, envOf]) 0 0
  obtain ⟨s1, h1, hsc⟩ := run_scaler hr
  let qs : List ((Fin 2 → ℝ) × ℝ) := [(fun _ => 0, 0), (fun _ => 4, 0)]
  have hq : rnd59.flowSample s.t s.flow 2 = qs.map fun q => (pt q.1, fin q.2) := by simp [rnd59, qs]
  have hs54 : (1 : ℝ) < Real.sqrt 1.25 := by
    rw [Real.lt_sqrt (by norm_num)]; norm_num
  have hp' : ProperLike lp59 := fun x => by
    unfold lp59; split_ifs
    · exact .inl rfl
    · exact .inr ⟨0, rfl⟩
  obtain ⟨x0, ld0, i0, j0⟩ := scaler59 ll lp59 _ s1 h1 0
  obtain ⟨x4, ld4, i4, j4⟩ := scaler59 ll lp59 _ s1 h1 4
  have l0 : lp59 x0 = fin 0 := if_neg (by
    rw [j0]; simp only [gt_iff_lt, F.fin_lt]; norm_num)
  have l4 : lp59 x4 = ninf := if_pos (by
    rw [j4]; simp only [gt_iff_lt, F.fin_lt]; nlinarith)
  rw [← hsc] at i0 i4
  have hq' : rnd59.flowSample s.t s.flow (args 2).nEvidence = qs.map fun q => (pt q.1, fin q.2) := hq
  have hout : ∃ q ∈ qs, ∃ x ld, s.scaler.inverseRow (pt q.1) = .ok (x, ld) ∧ lp59 x = ninf := ⟨(fun _ => 4, 0), by simp [qs], x4, ld4, i4, l4⟩
  have hin : ∃ q ∈ qs, ∃ x ld, s.scaler.inverseRow (pt q.1) = .ok (x, ld) ∧ lp59 x ≠ ninf ∧ ll x ≠ ninf :=
    ⟨(fun _ => 0, 0), by simp [qs], x0, ld0, i0, by rw [l0]; simp, by simp [ll]⟩
  have hn : 0 < (args 2).nEvidence := by simp [args]
  have hpre : (envOf ll lp59).preconditioned = true := rfl
  have hql : qs.length = (args 2).nEvidence := rfl
  obtain ⟨X, D, k, k1, k2, k3, k4⟩ := C59_overestimates (userOf ll lp59) hf.proper hp' (configuredOf ll lp59) (.fresh (freshOf ll lp59)) hd hr hpre
    hn qs hq' hql hout hin
  refine ⟨ll, lp59, s, qs, X, D, hd, hr, hq, rfl, k1, ?_⟩
  have hk : k = 1 := by simp only [args] at k3; omega
  rw [k4, hk]
  have hX0 : X (fun _ => 0) = x0 := by
    have := k1 fun _ => 0
    rw [i0] at this
    simp only [Except.ok.injEq, Prod.mk.injEq] at this
    exact this.1.symm
  have hX4 : X (fun _ => 4) = x4 := by
    have := k1 fun _ => 4
    rw [i4] at this
    simp only [Except.ok.injEq, Prod.mk.injEq] at this
    exact this.1.symm
  have hw0 : 0 < isWeight ll lp59 X D (fun _ => 0, 0) := by
    simp only [isWeight, hX0, l0, unlog, ll]; positivity
  have hw4 : isWeight ll lp59 X D (fun _ => 4, 0) = 0 := by simp [isWeight, hX4, l4, unlog]
  have hsum : (qs.map (isWeight ll lp59 X D)).sum = isWeight ll lp59 X D (fun _ => 0, 0) := by simp [qs, hw4]
  rw [hsum, logOf, if_neg (by positivity)]
  simp only [args, Nat.cast_ofNat, Nat.cast_one, div_one, ne_eq, Option.some.injEq, fin_inj]
  have := Real.log_pos (x := 2) (by norm_num)
  linarith

/-! ### C60 -/

/-- Without preconditioning the example reports evidence 1 (log 0), without an error bar. -/
example : ∃ (s : Sampler 2 Unit Unit) (H : List Stage), (run (env false) rnd 0 1 (args 3) start).2 = .ok s ∧ Holds s.particles.past H ∧
    evidence s = (some (fin (Real.log (totalWeight H 1 / (allLogl H).length))), none) := by
  obtain ⟨s, hr, -⟩ := session false 3
  obtain ⟨H, h1, -, h2⟩ := C60_smc_value (user false) (flat false).proper (configured false) (.fresh (fresh false)) draws hr (fun h => by cases h.1)
  exact ⟨s, H, hr, h1, h2⟩

end Demo

end Poco
