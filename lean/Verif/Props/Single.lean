import Verif.Spec.Single
import Verif.Props.Extend
import Verif.Props.Progress
import Verif.Props.Demo
import Verif.Props.Memory
import Verif.Props.DemoPosterior

/-! # C146: the resolution of a preconditioned run -/

namespace Poco
open F Spec

/-! ### numbers in single precision -/

/-- Two different numbers in single precision, both at least `2 ^ k`, are at least `2 ^ (k - 23)` apart. -/
theorem Spec.SinglePrec.apart {a b : ℝ} (ha : SinglePrec a) (hb : SinglePrec b) {k : ℤ} (h1 : 2 ^ k ≤ a) (h2 : a < b) : (2 : ℝ) ^ (k - 23) ≤ b - a := by
  have key : ∀ r, SinglePrec r → (2 : ℝ) ^ k ≤ r → ∃ n : ℤ, r = n * 2 ^ (k - 23) := by
    rintro r ⟨m, e, hm, rfl⟩ hr
    have he : k - 23 ≤ e := by
      by_contra hlt
      have h3 : (m : ℝ) < 2 ^ (24 : ℤ) := by
        have := (le_abs_self m).trans_lt hm
        exact_mod_cast this
      have h4 : (m : ℝ) * 2 ^ e < 2 ^ (24 : ℤ) * 2 ^ e := by
        have : (0 : ℝ) < 2 ^ e := by positivity
        exact mul_lt_mul_of_pos_right h3 this
      rw [← zpow_add₀ (by norm_num)] at h4
      have h5 : (2 : ℝ) ^ (24 + e) ≤ 2 ^ k := zpow_le_zpow_right₀ (by norm_num) (by omega)
      linarith
    refine ⟨m * 2 ^ (e - (k - 23)).toNat, ?_⟩
    have : (2 : ℝ) ^ e = 2 ^ (e - (k - 23)).toNat * 2 ^ (k - 23) := by
      rw [← zpow_natCast, ← zpow_add₀ (by norm_num)]
      congr 1
      omega
    rw [this]
    push_cast
    ring
  obtain ⟨m, rfl⟩ := key a ha h1
  obtain ⟨n, rfl⟩ := key b hb (h1.trans h2.le)
  have h0 : (0 : ℝ) < 2 ^ (k - 23) := by positivity
  have h3 : (m : ℝ) < n := lt_of_mul_lt_mul_right h2 h0.le
  have h4 : (m : ℝ) + 1 ≤ n := by exact_mod_cast h3
  nlinarith

section
variable {d : ℕ} {B Φ : Type} {e : SamplerEnv d B Φ} {rnd : Rnd d Φ}

/-- A walker after an MCMC phase is where a walker started, or where the flow put it. -/
theorem mcmc_from {k : McmcEnv d B} (hk : k.kernel.hasFlow = true) (hp : k.scaler.periodic = none) (hr : k.scaler.reflective = none)
    {fuel : ℕ} {draw : ℕ → ℕ → Draw d} {ws : List (Walker d B)} {r : McmcResult d B} (h : mcmc k fuel draw ws = .ok r) :
    ∀ w ∈ r.walkers, (∃ v ∈ ws, w.u = v.u) ∨ ∃ θ, w.u = (k.flowInv θ).1 := by
  obtain ⟨st, h1, h2, -⟩ := mcmc_ok h
  rw [h2]
  refine mcmcLoop_ind (fun st => ∀ w ∈ st.walkers, (∃ v ∈ ws, w.u = v.u) ∨ ∃ θ, w.u = (k.flowInv θ).1) ?_ ?_ h1
  · intro i st st' hst hstep w hw
    obtain ⟨-, hs⟩ := step_walker hstep
    obtain ⟨j, hj, rfl⟩ := List.mem_iff_getElem.1 hw
    obtain ⟨w, c, p, g1, g2, g3, -, g5⟩ := hs j _ (List.getElem?_eq_getElem hj)
    rw [g5]
    split_ifs
    · refine .inr ⟨propose k st.sigma st.mu w (draw (i + 1) j), ?_⟩
      rw [g3]
      show c.u = _
      unfold candidate at g2
      rw [hk, hp, hr] at g2
      simp only [if_true] at g2
      obtain ⟨⟨x, ld⟩, -, g2⟩ := bind_ok g2
      simp only [Option.isSome_none, Bool.or_self, Bool.false_eq_true, if_false, pure, Except.pure, Except.ok.injEq] at g2
      rw [← g2]
    · exact hst w (List.mem_of_getElem? g1)
  · intro w hw
    obtain ⟨j, hj, rfl⟩ := List.mem_iff_getElem.1 hw
    obtain ⟨l, hi⟩ := mcmcInit_walker k ws
    have hj' : j < ws.length := by omega
    obtain ⟨v, g1, g2⟩ := hi j ws[j] (List.getElem?_eq_getElem hj')
    rw [List.getElem?_eq_getElem hj, Option.some.injEq] at g1
    rw [g1]
    exact .inl ⟨ws[j], List.getElem_mem _, g2.1⟩

/-- **C146, one iteration.** With preconditioning, and no periodic or reflective parameters, every particle of a new iteration is, in
the coordinates the moves are made in, a particle stored before, or in single precision. -/
theorem C146_iteration (hf : SinglePrecFlow e) (hpre : e.preconditioned = true) {s s' : Sampler d B Φ} (hp : s.scaler.periodic = none)
    (hr : s.scaler.reflective = none) {fuel : ℕ} (h : smcStep e rnd fuel s = .ok s') :
    ∃ us, s'.particles.past.u = s.particles.past.u ++ [us] ∧ ∀ u ∈ us, u ∈ s.particles.past.u.flatten ∨ SinglePrecPt u := by
  obtain ⟨c, s1, c1, s2, c2, s3, c3, h0, h1, h2, h3, h4, rfl⟩ := smcStep_ok h
  obtain ⟨nEff, beta, logz, ess, w, tr, -, -, -, g, rfl⟩ := reweight_ok h1
  obtain ⟨ws, k, r, g1, g2, g3, h5⟩ := mutate_ok h4
  simp only [writeBack, Prod.mk.injEq] at h5
  obtain ⟨rfl, rfl⟩ := h5
  have h2' : s2.particles = s.particles ∧ s2.scaler = s.scaler := by
    rcases train_ok h2 with ⟨-, f, g, rfl⟩ | ⟨-, g, rfl⟩ <;> exact ⟨rfl, rfl⟩
  obtain ⟨-, ks, -, -, -, kk, -, -, -, -, kf, -⟩ := kernelEnv_ok g2
  refine ⟨r.walkers.map (·.u), ?_, ?_⟩
  · show s2.particles.past.u ++ _ = _
    rw [h2'.1]
    rfl
  intro u hu
  obtain ⟨w', hw', rfl⟩ := List.mem_map.1 hu
  rcases mcmc_from (by rw [kk, hpre]; cases e.sample <;> rfl) (by rw [ks, h2'.2, hp]) (by rw [ks, h2'.2, hr]) g3 w' hw' with ⟨v, hv, hvu⟩ | ⟨θ, hθ⟩
  · left
    rw [hvu]
    have hc2 : v.u ∈ c2.it.u := by
      obtain ⟨bl, hl, g1⟩ : ∃ bl : List (Option (List B)), List.length c2.it.u = List.length c2.it.x ∧ (List.range (List.length c2.it.x)).map (fun k =>
          ({ theta := fun _ => nan, u := (List.getD c2.it.u k fun _ => nan), x := (List.getD c2.it.x k fun _ => nan),
             logdetj := List.getD c2.it.logdetj k nan, logdetjFlow := nan, logl := List.getD c2.it.logl k nan,
             logp := List.getD c2.it.logp k nan, blob := bl.getD k none } : Walker d (List B))) = ws := by
        unfold toWalkers at g1
        dsimp only at g1
        split at g1
        · split at g1
          · obtain ⟨bl, -, g1⟩ := bind_ok g1
            split_ifs at g1 with hl
            simp only [pure, Except.pure, Except.ok.injEq] at g1
            exact ⟨bl, hl.1, g1⟩
          · obtain ⟨bl, -, g1⟩ := bind_ok g1
            split_ifs at g1 with hl
            simp only [pure, Except.pure, Except.ok.injEq] at g1
            exact ⟨bl, hl.1, g1⟩
        · obtain ⟨bl, -, g1⟩ := bind_ok g1
          split_ifs at g1 with hl
          simp only [pure, Except.pure, Except.ok.injEq] at g1
          exact ⟨bl, hl.1, g1⟩
      rw [← g1] at hv
      obtain ⟨j, hj, rfl⟩ := List.mem_map.1 hv
      have hj' : j < List.length c2.it.u := by rw [hl]; exact List.mem_range.1 hj
      show List.getD c2.it.u j _ ∈ _
      rw [List.getD_eq_getElem?_getD, List.getElem?_eq_getElem hj']
      exact List.getElem_mem hj'
    have hc1 : v.u ∈ c1.it.u := by
      unfold resampleStep at h3
      obtain ⟨w, -, h3⟩ := bind_ok h3
      obtain ⟨idx, -, h3⟩ := bind_ok h3
      obtain ⟨u, q, h3⟩ := bind_ok h3
      obtain ⟨x, -, h3⟩ := bind_ok h3
      obtain ⟨j, -, h3⟩ := bind_ok h3
      obtain ⟨l, -, h3⟩ := bind_ok h3
      obtain ⟨p, -, h3⟩ := bind_ok h3
      obtain ⟨b, -, h3⟩ := bind_ok h3
      simp only [pure, Except.pure, Except.ok.injEq] at h3
      subst h3
      exact (gather_ok q).2 _ hc2
    unfold gatherCur at g
    obtain ⟨U, q1, g⟩ := bind_ok g
    obtain ⟨u, q2, g⟩ := bind_ok g
    obtain ⟨_, -, g⟩ := bind_ok g
    obtain ⟨_, -, g⟩ := bind_ok g
    obtain ⟨_, -, g⟩ := bind_ok g
    obtain ⟨_, -, g⟩ := bind_ok g
    obtain ⟨_, -, g⟩ := bind_ok g
    obtain ⟨_, -, g⟩ := bind_ok g
    obtain ⟨_, -, g⟩ := bind_ok g
    obtain ⟨_, -, g⟩ := bind_ok g
    have hcu : c1.it.u = u := by
      dsimp only at g
      split at g
      all_goals
        obtain ⟨_, -, g⟩ := bind_ok g
        simp only [pure, Except.pure, Except.ok.injEq] at g
        rw [← g]
    rw [hcu] at hc1
    have := (gather_ok q2).2 _ hc1
    unfold getFlat at q1
    split_ifs at q1
    simp only [Except.ok.injEq] at q1
    rw [q1]
    exact this
  · right
    rw [hθ, kf]
    exact hf _ _

theorem smcLoop_from (hf : SinglePrecFlow e) (hpre : e.preconditioned = true) {fuel : ℕ} {k : Option ℕ} {t0 n : ℕ} :
    ∀ {s r : Sampler d B Φ}, s.scaler.periodic = none → s.scaler.reflective = none → (smcLoop e rnd fuel k t0 n s).2 = .ok r →
      ∃ L, r.particles.past.u = s.particles.past.u ++ L ∧ ∀ u ∈ L.flatten, u ∈ s.particles.past.u.flatten ∨ SinglePrecPt u := by
  induction n with
  | zero =>
    intro s r _ _ h
    rcases smcLoop_cases h with ⟨-, rfl⟩ | ⟨m, s', hm, -⟩
    · exact ⟨[], by simp, by simp⟩
    · omega
  | succ n ih =>
    intro s r hp hr h
    rcases smcLoop_cases h with ⟨-, rfl⟩ | ⟨m, s', hm, -, hs, hl⟩
    · exact ⟨[], by simp, by simp⟩
    · obtain rfl : n = m := by omega
      obtain ⟨us, u1, u2⟩ := C146_iteration hf hpre hp hr hs
      have hsc : s'.scaler = s.scaler := by
        obtain ⟨c, c3, r, nEff, fl, fu, ug, tg, -, -, -, -, rfl⟩ := smcStep_shape hs
        rfl
      obtain ⟨L, l1, l2⟩ := ih (by rw [hsc, hp]) (by rw [hsc, hr]) hl
      refine ⟨us :: L, by rw [l1, u1]; simp, ?_⟩
      intro u hu
      rw [List.flatten_cons, List.mem_append] at hu
      rcases hu with hu | hu
      · exact u2 u hu
      · rcases l2 u hu with h | h
        · rw [u1, List.flatten_append, List.mem_append] at h
          rcases h with h | h
          · exact .inl h
          · exact u2 u (by simpa using h)
        · exact .inr h

theorem warmupLoop_adds {k : Option ℕ} {t0 n : ℕ} : ∀ {i : ℕ} {s r : Sampler d B Φ}, (warmupLoop e rnd k t0 n i s).2 = .ok r →
    r.scaler = s.scaler ∧ ∃ W, W.length = n ∧ r.particles.past.u = s.particles.past.u ++ W := by
  induction n with
  | zero =>
    intro i s r h
    simp only [warmupLoop, Except.ok.injEq] at h
    subst h
    exact ⟨rfl, [], rfl, by simp⟩
  | succ n ih =>
    intro i s r h
    unfold warmupLoop at h
    obtain ⟨s1, h1, h⟩ := andThen_ok h
    rw [save_ok h1] at h
    obtain ⟨s2, h2, h⟩ := andThen_ok h
    obtain ⟨b0, hb, b, -, -, hs2⟩ := warmupStep_shape h2
    obtain ⟨g1, W, g2, g3⟩ := ih h
    refine ⟨by rw [g1, hs2], b.u :: W, by simp [g2], ?_⟩
    rw [g3, hs2]
    simp [Particles.update, Cols.full, warmupIter]

/-- **C146, a run.** What a preconditioned run adds to the history are the warm-up batches `W` (as many as there are, none when the
warm-up is over) and iterations `L` whose particles are copies of stored ones or in single precision. -/
theorem C146_run (hf : SinglePrecFlow e) (hpre : e.preconditioned = true) {s s' : Sampler d B Φ} (hp : s.scaler.periodic = none)
    (hr : s.scaler.reflective = none) {fuel n : ℕ} {a : RunArgs} (h : (run e rnd fuel n a s).2 = .ok s') :
    ∃ W L, s'.particles.past.u = s.particles.past.u ++ W ++ L ∧ W.length = (if s.warmup then e.nPrior / e.nActive else 0) ∧
      ∀ u ∈ L.flatten, u ∈ (s.particles.past.u ++ W).flatten ∨ SinglePrecPt u := by
  obtain ⟨s1, s2, s3, h1, h2, h3, h4⟩ := run_ok h
  have e1 : s1.particles = s.particles ∧ s1.warmup = s.warmup ∧ s1.scaler.periodic = none ∧ s1.scaler.reflective = none := by
    rcases runInit_ok h1 with ⟨-, rfl⟩ | ⟨-, sc, hsc, rfl⟩
    · exact ⟨rfl, rfl, hp, hr⟩
    · refine ⟨rfl, rfl, ?_⟩
      unfold Scaler.fit at hsc
      split_ifs at hsc
      simp only [Except.ok.injEq] at hsc
      subst hsc
      exact ⟨hp, hr⟩
  have e2 : s2.scaler = s1.scaler ∧ ∃ W, W.length = (if s1.warmup then e.nPrior / e.nActive else 0) ∧
      s2.particles.past.u = s1.particles.past.u ++ W := by
    unfold runWarmup at h2
    split_ifs at h2 with w1 w2
    · obtain ⟨q, q1, q2⟩ := andThen_ok h2
      simp only [Except.ok.injEq] at q2
      rw [← q2, if_pos w1]
      obtain ⟨g1, g2⟩ := warmupLoop_adds q1
      exact ⟨g1, g2⟩
    · simp only [Except.ok.injEq] at h2
      subst h2
      exact ⟨rfl, [], by simp [w1], by simp⟩
  obtain ⟨esc, W, w1, w2⟩ := e2
  obtain ⟨L, l1, l2⟩ := smcLoop_from hf hpre (by rw [esc]; exact e1.2.2.1) (by rw [esc]; exact e1.2.2.2) h3
  have e4 := (finalEvidence_keep h4).2.2.1
  refine ⟨W, L, ?_, by rw [w1, e1.2.1], ?_⟩
  · rw [e4, l1, w2, e1.1]
  · rw [w2, e1.1] at l2
    exact l2

/-- **C146, the resolution.** Of a parameter without bounds, whose prior samples have mean `μ` and standard deviation `σ`, the values
`a < b` of two stored particles in single precision that are at least `σ * 2 ^ k` above `μ` are at least `σ * 2 ^ (k - 23)` apart. -/
theorem C146_resolution {ll lp : Pt d → F} {bb : Pt d → List B} {hb : Bool} {s : Sampler d B Φ} (hu : UserFns e ll lp bb hb)
    (hc : Configured e) (hs : Session e hb s) {i : Fin d} (hl : s.scaler.low i = ninf) (hh : s.scaler.high i = pinf)
    {M S : Fin d → F} {μ σ : ℝ} (ha : s.scaler.affine = some (.diag M S)) (hM : M i = fin μ) (hS : S i = fin σ) (hσ : 0 < σ)
    {t j t' j' : ℕ} {us us' xs xs' : List (Pt d)} {u u' x x' : Pt d}
    (h1 : s.particles.past.u[t]? = some us) (h2 : us[j]? = some u) (h3 : s.particles.past.x[t]? = some xs) (h4 : xs[j]? = some x)
    (h1' : s.particles.past.u[t']? = some us') (h2' : us'[j']? = some u') (h3' : s.particles.past.x[t']? = some xs')
    (h4' : xs'[j']? = some x') (hsu : SinglePrecPt u) (hsu' : SinglePrecPt u') {a b : ℝ} (hxa : x i = fin a) (hxb : x' i = fin b) {k : ℤ}
    (hk : μ + σ * 2 ^ k ≤ a) (hab : a < b) : σ * 2 ^ (k - 23) ≤ b - a := by
  obtain ⟨its, hi⟩ := hs.inv hu hc (ll := ll) (lp := lp) (bb := bb)
  have hne : ∀ z : F, (∀ v, z ≠ fin v) → ∀ c, fin μ + fin σ * z ≠ fin c := by
    intro z hz c
    cases z with
    | fin v => exact absurd rfl (hz v)
    | nan => show F.add _ (F.mul _ _) ≠ _; simp [F.mul, F.add]
    | ninf => show F.add _ (F.mul _ _) ≠ _; simp [F.mul, infMul, hσ.ne', not_lt.2 hσ.le, F.add]
    | pinf => show F.add _ (F.mul _ _) ≠ _; simp [F.mul, infMul, hσ.ne', hσ, F.add]
  have key : ∀ {t j : ℕ} {us xs : List (Pt d)} {u x : Pt d}, s.particles.past.u[t]? = some us → us[j]? = some u →
      s.particles.past.x[t]? = some xs → xs[j]? = some x → SinglePrecPt u → ∀ {a : ℝ}, x i = fin a → ∃ v, SinglePrec v ∧ a = μ + σ * v := by
    intro t j us xs u x h1 h2 h3 h4 hsu a hxa
    rw [hi.past] at h1 h3
    simp only [columns, List.getElem?_map, Option.map_eq_some_iff] at h1 h3
    obtain ⟨it, q1, rfl⟩ := h1
    obtain ⟨it', q3, rfl⟩ := h3
    rw [q1, Option.some.injEq] at q3
    subst q3
    obtain ⟨rows, -, r2, r3, -⟩ := hi.rows it (List.mem_of_getElem? q1)
    rw [r2.u, List.getElem?_map, Option.map_eq_some_iff] at h2
    rw [r2.x, List.getElem?_map, Option.map_eq_some_iff] at h4
    obtain ⟨r, p1, rfl⟩ := h2
    obtain ⟨r', p2, rfl⟩ := h4
    rw [p1, Option.some.injEq] at p2
    subst p2
    have hb := (r3 r (List.mem_of_getElem? p1)).1.1
    unfold Scaler.inverseRow at hb
    rw [hi.scale, ha] at hb
    simp only [if_true, Affine.inverse, Scaler.invRow, Except.ok.injEq, Prod.mk.injEq] at hb
    have hx := congrFun hb.1 i
    simp only [hl, hh, hM, hS] at hx
    rw [hxa] at hx
    cases hui : r.u i with
    | fin v =>
      rw [hui] at hx
      simp only [invCoord, masks_none (show isfinite ninf = false from rfl) (show isfinite pinf = false from rfl), fin_mul, fin_add, if_true,
        Bool.false_eq_true, if_false, fin_inj] at hx
      exact ⟨v, hsu i v hui, hx.symm⟩
    | _ =>
      exfalso
      rw [hui] at hx
      simp only [invCoord, masks_none (show isfinite ninf = false from rfl) (show isfinite pinf = false from rfl), if_true,
        Bool.false_eq_true, if_false] at hx
      exact hne _ (by simp) _ hx
  obtain ⟨v, v1, rfl⟩ := key h1 h2 h3 h4 hsu hxa
  obtain ⟨w, w1, rfl⟩ := key h1' h2' h3' h4' hsu' hxb
  have := v1.apart w1 (k := k) (le_of_mul_le_mul_left (by linarith) hσ) (lt_of_mul_lt_mul_left (by linarith) hσ.le)
  nlinarith

end

end Poco

namespace Poco.Demo
open F Spec

/-- A flow whose inverse returns the nearest of a few numbers in single precision: here 1. -/
noncomputable def envSingle : SamplerEnv 2 Unit Unit := { env true with flowInv := fun _ _ => (pt fun _ => 1, fin 0) }

theorem singleFlow : SinglePrecFlow envSingle := by
  intro φ θ i r h
  simp only [envSingle, pt, fin_inj] at h
  exact ⟨1, 0, by norm_num, by simp [← h]⟩

/-- The hypotheses of `C146_run` are met: a preconditioned run with such a flow returns, with two warm-up batches and one iteration. -/
example : ∃ s', (run envSingle rnd 0 1 (args 0) start).2 = .ok s' ∧ Session envSingle true s' ∧ s'.particles.past.u.length = 3 ∧
    SinglePrecFlow envSingle ∧ envSingle.preconditioned = true ∧ start.scaler.periodic = none ∧ start.scaler.reflective = none := by
  have hf : FlatEnv envSingle (fun _ => fin 0) := ⟨fun _ => .inl rfl, rfl, rfl⟩
  have hu : UserFns envSingle (fun _ => fin 0) (fun _ => fin 0) (fun _ => [()]) true := ⟨(user true).1, (user true).2, (user true).3⟩
  have hc : Configured envSingle := configured true
  have hr : Reliable envSingle rnd := ⟨(reliable true).1, (reliable true).2, (reliable true).3, (reliable true).4, (reliable true).5,
    (reliable true).6, (reliable true).7, (reliable true).8, (reliable true).9⟩
  have hfr : Fresh envSingle true start := by
    constructor <;> try rfl
    · intro i; exact ⟨by simp [start, Scaler.init], by simp [start, Scaler.init], by simp [start, Scaler.init]⟩
    · intro _; rfl
  obtain ⟨s', its, h1, h2, h3, h4, h5, h6, h⟩ := flat_first_run hf hu hc draws hr hfr (fun _ _ => rfl)
    (by simp [envSingle, env, start]) (args 0) (by simp [args]) (by simp [args, env, envSingle]) 0 0
  refine ⟨s', h1, .ran rnd 0 1 (args 0) (.fresh hfr) draws h1, ?_, singleFlow, rfl, rfl, rfl⟩
  rw [h2.past]
  have : its.length = 3 := by simpa [env, envSingle] using h4
  simp [columns, this]

/-- The numbers of `C146_resolution`: 1 and the next number in single precision are 2⁻²³ apart, so the bound is attained. -/
example : SinglePrec 1 ∧ SinglePrec (1 + 2 ^ (-23 : ℤ)) ∧ (2 : ℝ) ^ (0 : ℤ) ≤ 1 ∧ (1 + 2 ^ (-23 : ℤ)) - 1 = (2 : ℝ) ^ ((0 : ℤ) - 23) := by
  refine ⟨⟨1, 0, by norm_num, by simp⟩, ⟨2 ^ 23 + 1, -23, by norm_num, by norm_num⟩, by norm_num, by norm_num⟩

/-- Eight prior samples with mean 0 and standard deviation 1. -/
def vals8 : List ℝ := [1, 2, -1, -1, -1, 0, 0, 0]

noncomputable def env8 : SamplerEnv 2 Unit Unit := { envSingle with nPrior := 8 }

noncomputable def rnd8 : Rnd 2 Unit := { rnd with prior := fun n => if n = 8 then vals8.map fun v => pt fun _ => v else rnd.prior n }

theorem draws8 : Draws start.scaler.low start.scaler.high rnd8 := by
  refine ⟨fun n => ?_, fun t i k => draws.mcmc t i k⟩
  by_cases hn : n = 8
  · subst hn
    refine ⟨vals8.map fun v _ => v, by simp [rnd8, vals8], by simp [vals8], ?_, fun _ i => ?_⟩
    · intro x _ i
      simp [start, Scaler.init]
    · exact ⟨fun _ => 1, by simp [vals8], fun _ => 2, by simp [vals8], by simp⟩
  · obtain ⟨xs, x1, x2⟩ := draws.prior n
    exact ⟨xs, by simp only [rnd8, if_neg hn]; exact x1, x2⟩

theorem singleFlow8 : SinglePrecFlow env8 := singleFlow

/-- The hypotheses of `C146_resolution` are met: in a run's history there are two particles in single precision, 1 and 2. -/
example : ∃ (s' : Sampler 2 Unit Unit) (M S : Fin 2 → F) (us xs : List (Pt 2)) (u u' x x' : Pt 2), Session env8 true s' ∧
    s'.scaler.low 0 = ninf ∧ s'.scaler.high 0 = pinf ∧ s'.scaler.affine = some (.diag M S) ∧ M 0 = fin 0 ∧ S 0 = fin 1 ∧
    s'.particles.past.u[0]? = some us ∧ us[0]? = some u ∧ us[1]? = some u' ∧ s'.particles.past.x[0]? = some xs ∧ xs[0]? = some x ∧
    xs[1]? = some x' ∧ SinglePrecPt u ∧ SinglePrecPt u' ∧ x 0 = fin 1 ∧ x' 0 = fin 2 ∧ (0 : ℝ) + 1 * 2 ^ (0 : ℤ) ≤ 1 := by
  have hf : FlatEnv env8 (fun _ => fin 0) := ⟨fun _ => .inl rfl, rfl, rfl⟩
  have hu : UserFns env8 (fun _ => fin 0) (fun _ => fin 0) (fun _ => [()]) true := ⟨(user true).1, (user true).2, (user true).3⟩
  have hc : Configured env8 := ⟨by simp [env8, envSingle, env], by simp [env8, envSingle, env], by simp [env8, envSingle, env]⟩
  have hr : Reliable env8 rnd8 := ⟨(reliable true).1, (reliable true).2, (reliable true).3, (reliable true).4, (reliable true).5,
    (reliable true).6, (reliable true).7, (reliable true).8, (reliable true).9⟩
  have hfr : Fresh env8 true start := by
    constructor <;> try rfl
    · intro i; exact ⟨by simp [start, Scaler.init], by simp [start, Scaler.init], by simp [start, Scaler.init]⟩
    · intro _; rfl
  obtain ⟨s', its, h1, h2, h3, h4, h5, h6, h⟩ := flat_first_run hf hu hc draws8 hr hfr (fun _ _ => rfl)
    (by simp [env8, envSingle, env, start]) (args 0) (by simp [args]) (by simp [args, env, envSingle, env8]) 0 0
  have hp8 : rnd8.prior env8.nPrior = vals8.map fun v => pt fun _ => v := by simp [rnd8, env8]
  have hS : Session env8 true s' := .ran rnd8 0 1 (args 0) (.fresh hfr) draws8 h1
  -- the first batch
  obtain ⟨s1, s2, s3, r1, r2, r3, r4⟩ := run_ok h1
  rcases runInit_ok r1 with ⟨⟨ps, hps⟩, -⟩ | ⟨-, sc, hsc, rfl⟩
  · cases hps
  have hcol : ∀ i, ((rnd8.prior env8.nPrior).map start.scaler.fwdRow).map (· i) = vals8.map fin := by
    intro i
    rw [hp8]
    simp [Scaler.fwdRow, start, Scaler.init, fwdCoord, createMasks, isfinite, pt, vals8]
  unfold Scaler.fit at hsc
  split_ifs at hsc
  simp only [Except.ok.injEq, hcol] at hsc
  have hm : mean (vals8.map fin) = fin 0 := by
    rw [mean_fin _ (by simp [vals8])]
    norm_num [vals8]
  have hsd : F.std (vals8.map fin) = fin 1 := by
    rw [std_fin _ (by simp [vals8])]
    norm_num [vals8]
  rw [hm, hsd] at hsc
  obtain ⟨q, q1, rfl⟩ := runWarmup_true rfl r2
  have h4' : env8.nPrior / env8.nActive = 3 + 1 := by simp [env8, envSingle, env]
  rw [h4'] at q1
  unfold warmupLoop at q1
  obtain ⟨p1, g1, q1⟩ := andThen_ok q1
  rw [save_ok g1] at q1
  obtain ⟨p2, g2, q1⟩ := andThen_ok q1
  obtain ⟨hq, W, -, hW⟩ := warmupLoop_adds q1
  obtain ⟨b0, hb, b, k1, k2, rfl⟩ := warmupStep_shape g2
  have hb0 : b0.u = [pt fun _ => 1, pt fun _ => 2] ∧ ∀ l ∈ b0.logl, F.isinf l = false := by
    unfold warmupBatch at k1
    obtain ⟨ps, p1, k1⟩ := bind_ok k1
    have := orErr_ok p1
    simp only [Option.some.injEq] at this
    subst this
    obtain ⟨u, hu1, k1⟩ := bind_ok k1
    obtain ⟨inv, -, k1⟩ := bind_ok k1
    obtain ⟨⟨a1, a2, a3⟩, ha, k1⟩ := bind_ok k1
    simp only [pure, Except.pure, Except.ok.injEq, Prod.mk.injEq] at k1
    rw [← k1.1]
    have hx : ((rnd8.prior env8.nPrior).drop (0 * env8.nActive)).take env8.nActive = [pt fun _ => 1, pt fun _ => 2] := by
      rw [hp8]; simp [env8, envSingle, env, vals8]
    rw [hx] at hu1 ha
    rw [hu.like _ (by simp)] at ha
    simp only [Except.ok.injEq, Prod.mk.injEq] at ha
    constructor
    · unfold Scaler.forward at hu1
      split_ifs at hu1
      subst hsc
      simp [Scaler.forwardRow, start, Scaler.init, Affine.forward, Scaler.fwdRow, fwdCoord, createMasks, isfinite, pt, pure, Except.pure, bind, Except.bind] at hu1
      rw [← hu1]
      simp only [fin_div _ _ one_ne_zero, div_one]
      rfl
    · rw [← ha.1]
      simp [F.isinf]
  have hbu : b.u = [pt fun _ => 1, pt fun _ => 2] := by
    unfold replaceInf at k2
    rw [infDonors_none hb0.2] at k2
    simp only [bind, Except.bind, if_true, pure, Except.pure, Except.ok.injEq] at k2
    rw [← k2]
    exact hb0.1
  obtain ⟨t1, e1, e2⟩ := run_scaler h1
  rw [r1, Except.ok.injEq] at e1
  have hsc' : s'.scaler = sc := by rw [e2, ← e1]
  have hu0 : s'.particles.past.u[0]? = some [pt fun _ => 1, pt fun _ => 2] := by
    obtain ⟨L, l1, -⟩ := smcLoop_from singleFlow8 rfl (by
      show q.scaler.periodic = none
      rw [hq, ← hsc]; rfl) (by
      show q.scaler.reflective = none
      rw [hq, ← hsc]; rfl) r3
    rw [(finalEvidence_keep r4).2.2.1, l1]
    simp only [hW]
    simp [Particles.update, Cols.full, warmupIter, hbu, start, Particles.init]
  have hlen : s'.particles.past.u.length = its.length := by rw [h2.past]; simp [columns]
  obtain ⟨it, hit⟩ : ∃ it, its[0]? = some it := ⟨its[0]'(by rw [h4]; omega), List.getElem?_eq_getElem _⟩
  obtain ⟨rows, -, i2, i3, -⟩ := h2.rows it (List.mem_of_getElem? hit)
  have hru : rows.map (·.u) = [pt fun _ => 1, pt fun _ => 2] := by
    rw [h2.past] at hu0
    simp only [columns, List.getElem?_map, hit, Option.map_some, Option.some.injEq] at hu0
    rw [← i2.u, hu0]
  obtain ⟨ra, rb, rfl⟩ : ∃ ra rb, rows = [ra, rb] := List.length_eq_two.1 (by
    have := congrArg List.length hru
    simpa using this)
  simp only [List.map_cons, List.map_nil, List.cons.injEq, and_true] at hru
  have key : ∀ r ∈ [ra, rb], ∀ v : ℝ, r.u = (pt fun _ => v) → r.x 0 = fin v := by
    intro r hr v hv
    have := (i3 r hr).1.1
    rw [hsc', ← hsc, hv] at this
    simp only [Scaler.inverseRow, start, Scaler.init, if_true, Affine.inverse, Scaler.invRow, Except.ok.injEq, Prod.mk.injEq] at this
    rw [← this.1]
    simp [invCoord, createMasks, isfinite, pt]
  have hsg : ∀ n : ℤ, |n| < 2 ^ 24 → SinglePrecPt (pt fun _ : Fin 2 => (n : ℝ)) := by
    intro n hn i r hr
    simp only [pt, fin_inj] at hr
    exact ⟨n, 0, hn, by simp [← hr]⟩
  refine ⟨s', fun _ => fin 0, fun _ => fin 1, _, it.x, _, _, ra.x, rb.x, hS, ?_, ?_, ?_, rfl, rfl, hu0, rfl, rfl, ?_, ?_, ?_, ?_, ?_,
    key ra (by simp) 1 hru.1, key rb (by simp) 2 hru.2, by norm_num⟩
  · rw [hsc', ← hsc]; rfl
  · rw [hsc', ← hsc]; rfl
  · rw [hsc', ← hsc]
  · rw [h2.past]
    simp [columns, hit]
  · rw [i2.x]; rfl
  · rw [i2.x]; rfl
  · simpa using hsg 1 (by norm_num)
  · simpa using hsg 2 (by norm_num)

end Poco.Demo
