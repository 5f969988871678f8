import Verif.Props.Resume

/-! Warm-up coverage, fitted geometry and call counts (C27, C65, C72). -/

namespace Poco
open F Spec

variable {d : ℕ} {B Φ : Type}

section
variable {e : SamplerEnv d B Φ} {rnd : Rnd d Φ}

/-! ### C65 -/

theorem copyRows_length {α : Type} {a a' : List α} {dst src : List ℕ} (h : copyRows a dst src = .ok a') : a'.length = a.length := by
  unfold copyRows at h
  obtain ⟨v, -, h⟩ := bind_ok h
  simp only [pure, Except.pure, Except.ok.injEq] at h
  rw [← h, foldl_set_length]

theorem replaceInf_length {b b' : Batch d B} {hb : Bool} {draw : ℕ → ℕ} (h : replaceInf b hb draw = .ok b') :
    b'.x.length = b.x.length := by
  unfold replaceInf at h
  obtain ⟨⟨dst, src⟩, -, h⟩ := bind_ok h
  simp only at h
  split_ifs at h with hd
  · simp only [pure, Except.pure, Except.ok.injEq] at h
    rw [h]
  · obtain ⟨x, hx, h⟩ := bind_ok h
    obtain ⟨_, -, h⟩ := bind_ok h
    obtain ⟨_, -, h⟩ := bind_ok h
    obtain ⟨_, -, h⟩ := bind_ok h
    obtain ⟨_, -, h⟩ := bind_ok h
    obtain ⟨_, -, h⟩ := bind_ok h
    simp only [pure, Except.pure, Except.ok.injEq] at h
    rw [← h]
    exact copyRows_length hx

theorem writeSlice_length {α : Type} (ps x : List α) (i : ℕ) (h : i + x.length ≤ ps.length) :
    (writeSlice ps i x).length = ps.length := by
  simp [writeSlice]; omega

theorem writeSlice_drop {α : Type} (ps x : List α) (i : ℕ) (h : i + x.length ≤ ps.length) :
    (writeSlice ps i x).drop (i + x.length) = ps.drop (i + x.length) := by
  unfold writeSlice
  have : (ps.take i ++ x).length = i + x.length := by simp; omega
  rw [← this, List.drop_left]

/-- After `i` batches: the points evaluated are the first `i` batches, the others are still as drawn. -/
structure Covered (e : SamplerEnv d B Φ) (ps : List (Pt d)) (i : ℕ) (s : Sampler d B Φ) : Prop where
  left : ∃ qs, s.priorSamples = some qs ∧ qs.length = ps.length ∧ qs.drop (i * e.nActive) = ps.drop (i * e.nActive)
  done : s.evals = ps.take (i * e.nActive)
  beta : s.particles.past.beta = List.replicate i (fin 0)
  sizes : s.particles.past.x.map List.length = List.replicate i e.nActive

theorem warmupLoop_covers {ps : List (Pt d)} {k : Option ℕ} {t0 : ℕ} (n : ℕ) : ∀ (i : ℕ) (s s' : Sampler d B Φ),
    (i + n) * e.nActive ≤ ps.length → Covered e ps i s → (warmupLoop e rnd k t0 n i s).2 = .ok s' → Covered e ps (i + n) s' := by
  induction n with
  | zero => intro i s s' _ hc h; simp only [warmupLoop, Except.ok.injEq] at h; rw [← h]; exact hc
  | succ n ih =>
    intro i s s' hl hc h
    obtain ⟨s1, h1, h⟩ := andThen_ok h
    obtain ⟨s2, h2, h⟩ := andThen_ok h
    rw [save_ok h1] at h2
    have e1 : (i + 1) * e.nActive = i * e.nActive + e.nActive := by ring
    have hle : (i + 1) * e.nActive ≤ (i + (n + 1)) * e.nActive := Nat.mul_le_mul_right _ (by omega)
    have key : Covered e ps (i + 1) s2 := by
      obtain ⟨b0, hb, b, g1, g2, rfl⟩ := warmupStep_shape h2
      obtain ⟨qs, q1, q2, q3⟩ := hc.left
      have hx0 : b0.x = (qs.drop (i * e.nActive)).take e.nActive := by
        unfold warmupBatch at g1
        obtain ⟨ps', p1, g1⟩ := bind_ok g1
        have : ps' = qs := by have := orErr_ok p1; rw [q1] at this; simpa using this.symm
        subst this
        obtain ⟨u, -, g1⟩ := bind_ok g1
        obtain ⟨inv, -, g1⟩ := bind_ok g1
        obtain ⟨⟨a1, a2, a3⟩, -, g1⟩ := bind_ok g1
        simp only [pure, Except.pure, Except.ok.injEq, Prod.mk.injEq] at g1
        rw [← g1.1]
      have hx0' : b0.x = (ps.drop (i * e.nActive)).take e.nActive := by rw [hx0, q3]
      have hlen : b0.x.length = e.nActive := by rw [hx0']; simp; omega
      have hlen' : b.x.length = e.nActive := (replaceInf_length g2).trans hlen
      refine ⟨⟨writeSlice qs (i * e.nActive) b.x, by simp only [q1]; rfl, ?_, ?_⟩, ?_, ?_, ?_⟩
      · rw [writeSlice_length _ _ _ (by omega), q2]
      · have := writeSlice_drop qs b.x (i * e.nActive) (by omega)
        rw [hlen', ← e1] at this
        rw [this, e1, ← List.drop_drop, q3, List.drop_drop]
      · simp only
        rw [hc.done, hx0', e1, List.take_add]
      · simp only [Particles.update, Cols.full, warmupIter, Option.toList_some, hc.beta]
        rw [List.replicate_succ']
      · simp only [Particles.update, Cols.full, warmupIter, Option.toList_some, List.map_append, hc.sizes, List.map_cons, List.map_nil, hlen']
        rw [List.replicate_succ']
    have := ih (i + 1) s2 s' (by rw [Nat.add_assoc, Nat.add_comm 1 n]; exact hl) key h
    rw [Nat.add_assoc, Nat.add_comm 1 n] at this
    exact this

/-- C65: a run of a new sampler that returns began with a warm-up of at least one batch: the first points at which the
likelihood was evaluated are the first `⌊n_prior / n_active⌋ · n_active` prior samples, each once and in order, all recorded
in full batches of `n_active` particles at temperature 0 (all of the prior samples, if `n_active` divides `n_prior`). -/
theorem C65_warmup (e : SamplerEnv d B Φ) (rnd : Rnd d Φ) (fuel n : ℕ) (a : RunArgs) (s s' : Sampler d B Φ) (hb : Bool)
    (hf : Fresh e hb s) (ha : 0 < e.nActive) (hn : e.nActive ≤ e.nPrior) (hp : (rnd.prior e.nPrior).length = e.nPrior)
    (hr : (run e rnd fuel n a s).2 = .ok s') :
    1 ≤ e.nPrior / e.nActive ∧
    (rnd.prior e.nPrior).take (e.nPrior / e.nActive * e.nActive) <+: s'.evals ∧
    List.replicate (e.nPrior / e.nActive) (fin 0) <+: s'.particles.past.beta ∧
    List.replicate (e.nPrior / e.nActive) e.nActive <+: s'.particles.past.x.map List.length ∧
    (e.nActive ∣ e.nPrior → rnd.prior e.nPrior <+: s'.evals) := by
  obtain ⟨s1, s2, s3, h1, h2, h3, h4⟩ := run_ok hr
  have hc0 : Covered e (rnd.prior e.nPrior) 0 s1 ∧ s1.warmup = true := by
    rcases runInit_ok h1 with ⟨⟨ps, hps⟩, -⟩ | ⟨-, sc, -, rfl⟩
    · rw [hf.priorSamples] at hps; cases hps
    · refine ⟨⟨⟨_, rfl, rfl, rfl⟩, ?_, ?_, ?_⟩, hf.warmup⟩
      · simp [hf.evals]
      · simp only [hf.particles]; rfl
      · simp only [hf.particles]; rfl
  obtain ⟨s1', h2', rfl⟩ := runWarmup_true hc0.2 h2
  have hle : e.nPrior / e.nActive * e.nActive ≤ e.nPrior := Nat.div_mul_le_self _ _
  have hc := warmupLoop_covers _ 0 _ _ (by rw [Nat.zero_add, hp]; exact hle) hc0.1 h2'
  rw [Nat.zero_add] at hc
  have hW : 1 ≤ e.nPrior / e.nActive := Nat.div_pos hn ha
  -- later iterations only append
  let P : Sampler d B Φ → Prop := fun q => s1'.evals <+: q.evals ∧ s1'.particles.past.beta <+: q.particles.past.beta ∧
    s1'.particles.past.x <+: q.particles.past.x
  have p3 : P s3 := (TraceP.smcLoop (e := e) (rnd := rnd) (fuel := fuel) (P := P) (fun q q' hq hst => by
    obtain ⟨c, c3, r, nEff, fl, fu, ug, tg, -, -, -, -, rfl⟩ := smcStep_shape hst
    exact ⟨hq.1.trans (List.prefix_append _ _), hq.2.1.trans (List.prefix_append _ _), hq.2.2.trans (List.prefix_append _ _)⟩)
    a.saveEvery s.t n { s1' with warmup := false } ⟨List.prefix_rfl, List.prefix_rfl, List.prefix_rfl⟩).2 s3 h3
  have p4 : P s' := by
    rcases finalEvidence_ok h4 with ⟨-, -, h⟩ | ⟨-, lw, z, -, rfl⟩
    · obtain ⟨inv, ll', bl, hbl, -, -, rfl⟩ := computeEvidence_ok h
      exact ⟨p3.1.trans (List.prefix_append _ _), p3.2.1, p3.2.2⟩
    · exact p3
  have hev : (rnd.prior e.nPrior).take (e.nPrior / e.nActive * e.nActive) <+: s'.evals := by
    rw [← hc.done]; exact p4.1
  refine ⟨hW, hev, by rw [← hc.beta]; exact p4.2.1, by rw [← hc.sizes]; exact p4.2.2.map _, fun hd => ?_⟩
  rw [Nat.div_mul_cancel hd, List.take_of_length_le hp.le] at hev
  exact hev

/-! ### C72 -/

/-- A trained flow comes with a fitted latent geometry. -/
def GeoFitted (s : Sampler d B Φ) : Prop := s.flowUntrained = false → s.thetaGeometry.isSome = true

theorem Move.geo {s s' : Sampler d B Φ} (h : Move e rnd s s') (hg : GeoFitted s) : GeoFitted s' := by
  cases h with
  | init a h => rcases runInit_ok h with ⟨-, rfl⟩ | ⟨-, sc, -, rfl⟩ <;> exact hg
  | warm i hw hi h => obtain ⟨b0, hb, b, -, -, rfl⟩ := warmupStep_shape h; exact hg
  | endWarm hw => exact hg
  | smc fuel hw h =>
    obtain ⟨c, s1, c1, s2, c2, s3, c3, h0, h1, h2, h3, h4, rfl⟩ := smcStep_ok h
    obtain ⟨n, rfl⟩ := reweight_keep h1
    obtain ⟨ws, k, r, -, -, -, h5⟩ := mutate_ok h4
    simp only [writeBack, Prod.mk.injEq] at h5
    obtain ⟨rfl, rfl⟩ := h5
    rcases train_ok h2 with ⟨-, flow, g, rfl⟩ | ⟨-, g, rfl⟩
    · exact fun _ => rfl
    · exact hg
  | evidence hw h =>
    rcases finalEvidence_ok h with ⟨-, -, h⟩ | ⟨-, lw, z, -, rfl⟩
    · obtain ⟨inv, ll', bl, hbl, -, -, rfl⟩ := computeEvidence_ok h
      exact hg
    · exact hg

theorem Moves.geo {s s' : Sampler d B Φ} (h : Moves e rnd s s') (hg : GeoFitted s) : GeoFitted s' := by
  induction h with
  | refl => exact hg
  | tail _ hm ih => exact hm.geo ih

theorem Spec.Session.geo {s : Sampler d B Φ} {hb : Bool} (h : Session e hb s) : GeoFitted s := by
  induction h with
  | fresh h => exact fun hh => by rw [h.untrained] at hh; cases hh
  | ran rnd fuel n a _ hd hr ih => exact Moves.geo ((Along.run fuel n a _).to_end _ hr).1 ih
  | loaded rnd fuel n a sv _ hd hr ih => exact Moves.geo ((Along.run fuel n a _).from_start sv hr) ih

/-- C72: in every session (any runs, saves and resumes before) at every point of a run: when an iteration gets to the MCMC
(after reweighting and training), the geometry the MCMC reads has been fitted: the latent one with preconditioning, the
other one without. So MCMC never fails for want of a geometry. -/
theorem C72_geometry_fitted (e : SamplerEnv d B Φ) (rnd : Rnd d Φ) (hb : Bool) (s0 s s1 s2 : Sampler d B Φ) (c c1 : Cur d B)
    (fuel : ℕ) (h0 : Session e hb s0) (hm : Moves e rnd s0 s) (h1 : reweight e fuel s c = .ok (s1, c1))
    (h2 : train e rnd s1 c1 = .ok s2) :
    (e.preconditioned = true → s2.thetaGeometry.isSome = true) ∧ (e.preconditioned = false → s2.uGeometry.isSome = true) := by
  have hg : GeoFitted s := Moves.geo hm h0.geo
  obtain ⟨n, rfl⟩ := reweight_keep h1
  rcases train_ok h2 with ⟨ht, flow, g, rfl⟩ | ⟨ht, g, rfl⟩
  · refine ⟨fun _ => rfl, fun hp => ?_⟩
    simp [trainNow, hp] at ht
  · refine ⟨fun hp => ?_, fun _ => rfl⟩
    unfold trainNow at ht
    simp only [hp, Bool.not_true, Bool.false_eq_true, if_false] at ht
    split_ifs at ht
    simp only [Except.ok.injEq, Bool.or_eq_false_iff] at ht
    exact hg ht.2

/-! ### C27 -/

theorem maskSelect_length {α : Type} (m : List Bool) (a : List α) (h : a.length = m.length) :
    (maskSelect m a).length = (m.filter id).length := by
  induction m generalizing a with
  | nil => simp [maskSelect]
  | cons b m ih =>
    cases a with
    | nil => simp at h
    | cons x a =>
      have := ih a (by simpa using h)
      unfold maskSelect at this ⊢
      cases b <;> simpa using this

section
variable {ll lp : Pt d → F} {bb : Pt d → List B} {hb : Bool}

/-- The number of likelihood evaluations that are missing from the last recorded count. -/
def Spec.Missing (g : ℕ) (s : Sampler d B Φ) : Prop :=
  (s.particles.past.calls.getLast?.getD 0) + g = s.evals.length

/-- Loop invariant for the counts. -/
structure Counting (e : SamplerEnv d B Φ) (ll lp : Pt d → F) (bb : Pt d → List B) (hb : Bool) (low high : Fin d → F) (g : ℕ)
    (s : Sampler d B Φ) : Prop where
  inv : ∃ its, Inv e ll lp bb hb s its
  low : s.scaler.low = low
  high : s.scaler.high = high
  missing : Missing g s

theorem Counting.smc {low high : Fin d → F} {g fuel : ℕ} (hu : UserFns e ll lp bb hb) (hc : Configured e) (hd : Draws low high rnd)
    {s s' : Sampler d B Φ} (h : Counting e ll lp bb hb low high g s) (hw : s.warmup = false) (hm : smcStep e rnd fuel s = .ok s') :
    Counting e ll lp bb hb low high g s' ∧ s'.calls + g = s'.evals.length := by
  obtain ⟨its, hi⟩ := h.inv
  have hd' : Draws s.scaler.low s.scaler.high rnd := by rw [h.low, h.high]; exact hd
  obtain ⟨it, hi', hsc⟩ := hi.smc hu hc hd' hw hm
  obtain ⟨c, c3, b, β, r, k0, k1, -, -, -, -, -, -, -, -, -, k2, k3, -, k4, k5, k6, k7, -⟩ := hi.smcStep_spec hu hc hd' hm
  have hlast : s.particles.past.calls.getLast? = some c.it.calls := by
    rw [hi.past]
    change (its.map (·.calls)).getLast? = _
    rw [List.getLast?_map, k1]; rfl
  have hmiss : c.it.calls + g = s.evals.length := by
    have := h.missing
    unfold Missing at this
    rw [hlast] at this
    exact this
  have hl : s'.evals.length = s.evals.length + r.calls := by rw [k5, List.length_append, k2]
  refine ⟨⟨⟨_, hi'⟩, by rw [hsc]; exact h.low, by rw [hsc]; exact h.high, ?_⟩, ?_⟩
  · unfold Missing
    rw [k7]
    simp only [Particles.update, Cols.full, Option.toList_some, List.getLast?_append, List.getLast?_singleton, Option.some_or, Option.getD_some]
    rw [k3, hl]; omega
  · rw [k4, hl]; omega

theorem Counting.warm {low high : Fin d → F} (hu : UserFns e ll lp bb hb) (hc : Configured e)
    {s s' : Sampler d B Φ} (h : Counting e ll lp bb hb low high 0 s) (hcalls : s.calls = s.evals.length) (hw : s.warmup = true) {i : ℕ}
    (hi : i < e.nPrior / e.nActive) (hm : warmupStep e rnd s i = .ok s') :
    Counting e ll lp bb hb low high 0 s' ∧ s'.calls = s'.evals.length := by
  obtain ⟨its, hinv⟩ := h.inv
  obtain ⟨it, hi', hsc⟩ := hinv.warmStep hu hc hw hi hm
  obtain ⟨b0, hbl, b, g1, g2, heq⟩ := warmupStep_shape hm
  have hx0 : b0.x.length = e.nActive := by
    unfold warmupBatch at g1
    obtain ⟨ps', p1, g1⟩ := bind_ok g1
    obtain ⟨-, xs, x1, x2, -⟩ := hinv.prior ps' (orErr_ok p1)
    obtain ⟨u, -, g1⟩ := bind_ok g1
    obtain ⟨inv, -, g1⟩ := bind_ok g1
    obtain ⟨⟨a1, a2, a3⟩, -, g1⟩ := bind_ok g1
    simp only [pure, Except.pure, Except.ok.injEq, Prod.mk.injEq] at g1
    rw [← g1.1]
    have : (i + 1) * e.nActive ≤ e.nPrior := (Nat.le_div_iff_mul_le hc.1).mp hi
    have e1 : (i + 1) * e.nActive = i * e.nActive + e.nActive := by ring
    simp [x1, x2]; omega
  have hl : s'.evals.length = s.evals.length + e.nActive := by rw [heq]; simp [hx0]
  have hcl : s'.calls = s.calls + e.nActive := by rw [heq]
  refine ⟨⟨⟨_, hi'⟩, by rw [hsc]; exact h.low, by rw [hsc]; exact h.high, ?_⟩, by omega⟩
  unfold Missing
  rw [hl, ← hcalls, heq]
  simp [Particles.update, Cols.full, warmupIter]

/-- The counts in the course of a run, up to the evidence. -/
theorem run_counts (hu : UserFns e ll lp bb hb) (hc : Configured e) {s s' : Sampler d B Φ} (h : Session e hb s)
    (hd : Draws s.scaler.low s.scaler.high rnd) {fuel n : ℕ} {a : RunArgs} (hr : (run e rnd fuel n a s).2 = .ok s') {g : ℕ}
    (hg : Missing g s) (hcs : s.warmup = true → g = 0 ∧ s.calls = s.evals.length) :
    ∃ m, (¬ (e.preconditioned = true ∧ 0 < a.nEvidence) → m = 0) ∧ Missing (g + m) s' ∧
      (s.t < s'.t → s'.calls + g = s'.evals.length) ∧
      (s.t = s'.t → s.calls + s'.evals.length = s'.calls + s.evals.length) ∧
      ∃ s3, Missing g s3 ∧ finalEvidence e rnd s3 = .ok s' ∧ s3.nEvidence = a.nEvidence := by
  obtain ⟨s1, s2, s3, h1, h2, h3, h4⟩ := run_ok hr
  obtain ⟨i1, i2, i3, i4, i5, i6⟩ := runInit_t h1
  obtain ⟨-, hne⟩ := run_args h1 h2 h3
  obtain ⟨its, hinv⟩ := h.inv hu hc
  obtain ⟨hinv1, l1, l2⟩ := hinv.init hc hd h1
  have hm1 : Missing g s1 := by unfold Missing; rw [i3, i6]; exact hg
  have c1 : Counting e ll lp bb hb s.scaler.low s.scaler.high g s1 := ⟨⟨_, hinv1⟩, l1, l2, hm1⟩
  have c2 : Counting e ll lp bb hb s.scaler.low s.scaler.high g s2 ∧ s2.warmup = false ∧
      (s.t < s2.t → s2.calls + g = s2.evals.length) ∧ s.t ≤ s2.t ∧ (s2.t = s.t → s2.calls = s.calls ∧ s2.evals = s.evals) := by
    obtain ⟨hwl1, hwl2⟩ := Along.runWarmup (e := e) (rnd := rnd) a s.t s1
    cases hw : s.warmup with
    | false =>
      have := runWarmup_false (i2.trans hw) h2
      subst this
      exact ⟨c1, hwl2 _ h2, fun hlt => by omega, i1.ge, fun _ => ⟨i5, i6⟩⟩
    | true =>
      obtain ⟨rfl, hcalls⟩ := hcs hw
      obtain ⟨s1', h2', rfl⟩ := runWarmup_true (i2.trans hw) h2
      have ht := warmupLoop_t _ _ _ _ h2'
      have := (TraceP.warmupLoop (e := e) (rnd := rnd)
        (P := fun q => q.warmup = true ∧ Counting e ll lp bb hb s.scaler.low s.scaler.high 0 q ∧ q.calls = q.evals.length)
        (fun q q' i hi hq hst => ⟨(warmupStep_warmup hst).1.trans hq.1, hq.2.1.warm hu hc hq.2.2 hq.1 hi hst⟩)
        a.saveEvery s.t (e.nPrior / e.nActive) 0 s1 (Nat.zero_add _).le ⟨i2.trans hw, c1, by rw [i5, i6]; exact hcalls⟩).2 _ h2'
      obtain ⟨-, w1, w2⟩ := this
      refine ⟨⟨?_, w1.low, w1.high, w1.missing⟩, rfl, fun _ => w2, by simp only; rw [ht, i1]; exact Nat.le_add_right _ _, fun heq => ?_⟩
      · obtain ⟨its', k⟩ := w1.inv
        exact ⟨its', ⟨k.past, k.rows, k.cur, k.betas, k.logz, k.blobs, k.blobs', k.bounds, k.scale, k.noPrior, k.prior, k.geo,
          fun hh => by cases hh⟩⟩
      · simp only at heq
        have hz : e.nPrior / e.nActive = 0 := by omega
        rw [hz] at h2'
        simp only [warmupLoop, Except.ok.injEq] at h2'
        subst h2'
        exact ⟨i5, i6⟩
  obtain ⟨c2, w2, d2, t2, z2⟩ := c2
  have p3 := (TraceP.smcLoop (e := e) (rnd := rnd) (fuel := fuel)
    (P := fun q => Counting e ll lp bb hb s.scaler.low s.scaler.high g q ∧ q.warmup = false ∧
      (s.t < q.t → q.calls + g = q.evals.length) ∧ s.t ≤ q.t ∧ (q.t = s.t → q.calls = s.calls ∧ q.evals = s.evals))
    (fun q q' hq hst => by
      obtain ⟨q1, q2, q3, q4, q5⟩ := hq
      obtain ⟨r1, r2⟩ := q1.smc hu hc hd q2 hst
      have ht := (smcStep_keep hst).2
      exact ⟨r1, (smcStep_keep hst).1.trans q2, fun _ => r2, by omega, fun heq => by omega⟩)
    a.saveEvery s.t n s2 ⟨c2, w2, d2, t2, z2⟩).2 s3 h3
  obtain ⟨c3, w3, d3, t3, z3⟩ := p3
  have hm3 := c3.missing
  have hne' : (e.preconditioned = true ∧ 0 < a.nEvidence) ↔ (s3.nEvidence > 0 ∧ e.preconditioned = true) := by rw [hne]; tauto
  rcases finalEvidence_ok h4 with ⟨g1, g2, hce⟩ | ⟨gg, lw, z, -, rfl⟩
  · obtain ⟨inv, ll', bl, hbl, q1, q2, rfl⟩ := computeEvidence_ok hce
    -- the number of weights is the number of kept draws
    have hlen : (evidenceOf ll' (keepFinite (e.logPrior (inv.map (·.1))) (e.logPrior (inv.map (·.1))))
            (keepFinite (e.logPrior (inv.map (·.1))) (inv.map (·.2)))
            (keepFinite (e.logPrior (inv.map (·.1))) ((rnd.flowSample s3.t s3.flow s3.nEvidence).map (·.2)))).1.length
        = (keepFinite (e.logPrior (inv.map (·.1))) (inv.map (·.1))).length := by
      have hll : ll' = (keepFinite (e.logPrior (inv.map (·.1))) (inv.map (·.1))).map ll := by
        by_cases hx : keepFinite (e.logPrior (inv.map (·.1))) (inv.map (·.1)) = []
        · rw [hx, hu.nothing] at q2
          simp only [Except.ok.injEq, Prod.mk.injEq] at q2
          rw [← q2.1, hx]; rfl
        · rw [hu.like _ hx] at q2
          simp only [Except.ok.injEq, Prod.mk.injEq] at q2
          exact q2.1.symm
      have hil : inv.length = (rnd.flowSample s3.t s3.flow s3.nEvidence).length := by
        unfold Scaler.inverse at q1
        have := (mapM_eq_ok q1).1
        simpa using this
      have hkf : ∀ (α : Type) (l : List α), l.length = inv.length →
          (keepFinite (e.logPrior (inv.map (·.1))) l).length = (keepFinite (e.logPrior (inv.map (·.1))) (inv.map (·.1))).length := by
        intro α l hl
        unfold keepFinite
        rw [maskSelect_length _ _ (by rw [hu.prior]; simp [hl]), maskSelect_length _ _ (by rw [hu.prior]; simp)]
      have k1 := hkf _ (e.logPrior (inv.map (·.1))) (by rw [hu.prior]; simp)
      have k2 := hkf _ (inv.map (·.2)) (by simp)
      have k3 := hkf _ ((rnd.flowSample s3.t s3.flow s3.nEvidence).map (·.2)) (by simp [hil])
      simp only [evidenceOf, List.length_zipWith, k1, k2, k3, hll, List.length_map, min_self]
    rw [hlen] at h4 ⊢
    refine ⟨(keepFinite (e.logPrior (inv.map (·.1))) (inv.map (·.1))).length, fun hn => absurd ⟨g2, hne ▸ g1⟩ hn, ?_, fun hlt => ?_, fun heq => ?_, ⟨s3, hm3, h4, hne⟩⟩
    · unfold Missing at hm3 ⊢
      simp only [List.length_append]
      omega
    · have := d3 hlt
      simp only [List.length_append]
      omega
    · obtain ⟨z1, z2⟩ := z3 heq.symm
      simp only [z1, z2, List.length_append]
      omega
  · refine ⟨0, fun _ => rfl, hm3, d3, fun heq => ?_, ⟨s3, hm3, h4, hne⟩⟩
    obtain ⟨z1, z2⟩ := z3 heq.symm
    simp only [z1, z2]

/-- C27 (partial): after the first run of a new sampler `calls` is the number of points at which the likelihood was
evaluated, importance sampling included. Missing: later runs after an importance-sampling evidence
(`C27_later_run_undercounts`). -/
theorem C27_first_run_partial (hu : UserFns e ll lp bb hb) (hc : Configured e) {s s' : Sampler d B Φ} (hf : Fresh e hb s)
    (hd : Draws s.scaler.low s.scaler.high rnd) (fuel n : ℕ) (a : RunArgs) (hr : (run e rnd fuel n a s).2 = .ok s') :
    s'.calls = s'.evals.length := by
  have hm : Missing 0 s := by unfold Missing; rw [hf.particles, hf.evals]; rfl
  obtain ⟨m, -, -, h1, -⟩ := run_counts hu hc (.fresh hf) hd hr hm fun _ => ⟨rfl, by rw [hf.calls, hf.evals]; rfl⟩
  have hW : 0 < e.nPrior / e.nActive := Nat.div_pos hc.2.1 hc.1
  have := run_fresh_smc hf hW hr
  exact h1 (by rw [hf.t]; omega)

/-- C27 (partial): without preconditioning the counts are exact in every session, and so is the recorded column. -/
theorem C27_unpreconditioned_partial (hu : UserFns e ll lp bb hb) (hc : Configured e) {s : Sampler d B Φ} (h : Session e hb s)
    (hp : e.preconditioned = false) :
    s.calls = s.evals.length ∧ ∀ v, s.particles.past.calls.getLast? = some v → v = s.evals.length := by
  have step : ∀ (rnd : Rnd d Φ) (s0 q : Sampler d B Φ), Draws s0.scaler.low s0.scaler.high rnd → (∃ its, Inv e ll lp bb hb s0 its) →
      Missing 0 s0 → s0.calls = s0.evals.length → Moves e rnd s0 q → Missing 0 q ∧ q.calls = q.evals.length := by
    intro rnd s0 q hd hi hm0 hc0 hmv
    have : Counting e ll lp bb hb s0.scaler.low s0.scaler.high 0 q ∧ q.calls = q.evals.length := by
      induction hmv with
      | refl => exact ⟨⟨hi, rfl, rfl, hm0⟩, hc0⟩
      | @tail q1 q2 _ hmv ih =>
        obtain ⟨c1, c2⟩ := ih
        obtain ⟨its, hinv⟩ := c1.inv
        have hd' : Draws q1.scaler.low q1.scaler.high rnd := by rw [c1.low, c1.high]; exact hd
        obtain ⟨more, hinv', l1, l2⟩ := hinv.move hu hc hd' hmv
        cases hmv with
        | init a h1 =>
          obtain ⟨i1, i2, i3, i4, i5, i6⟩ := runInit_t h1
          exact ⟨⟨⟨_, hinv'⟩, l1.trans c1.low, l2.trans c1.high, by unfold Missing; rw [i3, i6]; exact c1.missing⟩, by rw [i5, i6]; exact c2⟩
        | warm i hw hi h => exact c1.warm hu hc c2 hw hi h
        | endWarm hw => exact ⟨⟨⟨_, hinv'⟩, c1.low, c1.high, c1.missing⟩, c2⟩
        | smc fuel hw h => exact c1.smc hu hc hd hw h
        | evidence hw h =>
          rcases finalEvidence_ok h with ⟨-, hp', -⟩ | ⟨-, lw, z, -, rfl⟩
          · rw [hp] at hp'; cases hp'
          · exact ⟨⟨⟨_, hinv'⟩, c1.low, c1.high, c1.missing⟩, c2⟩
    exact ⟨this.1.missing, this.2⟩
  have main : Missing 0 s ∧ s.calls = s.evals.length := by
    induction h with
    | fresh hf => exact ⟨by unfold Missing; rw [hf.particles, hf.evals]; rfl, by rw [hf.calls, hf.evals]; rfl⟩
    | ran rnd fuel n a hs hd hr ih => exact step rnd _ _ hd (hs.inv hu hc) ih.1 ih.2 ((Along.run fuel n a _).to_end _ hr).1
    | loaded rnd fuel n a sv hs hd hr ih => exact step rnd _ _ hd (hs.inv hu hc) ih.1 ih.2 ((Along.run fuel n a _).from_start sv hr)
  refine ⟨main.2, fun v hv => ?_⟩
  have := main.1
  unfold Missing at this
  rw [hv] at this
  simpa using this

/-- C27 is false for later runs: if the first run ended with an importance-sampling evidence that evaluated the likelihood
at `m` points, then after every further run that makes at least one iteration `calls` is too small by exactly `m`. -/
theorem C27_later_run_undercounts (hu : UserFns e ll lp bb hb) (hc : Configured e) {s s1 s2 : Sampler d B Φ} (hf : Fresh e hb s)
    (hd : Draws s.scaler.low s.scaler.high rnd) (fuel n : ℕ) (a : RunArgs) (hr : (run e rnd fuel n a s).2 = .ok s1)
    (rnd' : Rnd d Φ) (hd' : Draws s1.scaler.low s1.scaler.high rnd') (fuel' n' : ℕ) (a' : RunArgs)
    (hr' : (run e rnd' fuel' n' a' s1).2 = .ok s2) (ht : s1.t < s2.t) (m : ℕ) (hm : Missing m s1) :
    s2.calls + m = s2.evals.length := by
  have hs1 : Session e hb s1 := .ran rnd fuel n a (.fresh hf) hd hr
  obtain ⟨m', -, -, h1, -⟩ := run_counts hu hc hs1 hd' hr' hm fun hw => by
    obtain ⟨q1, q2, q3, g1, g2, g3, g4⟩ := run_ok hr
    obtain ⟨-, w2⟩ := Along.runWarmup (e := e) (rnd := rnd) a s.t q1
    have := (Along.smcLoop (e := e) (rnd := rnd) fuel a.saveEvery s.t n q2 (w2 q2 g2)).2 q3 g3
    rw [(finalEvidence_keep g4).2.1, this.1] at hw
    cases hw
  exact h1 ht

end

end

end Poco
